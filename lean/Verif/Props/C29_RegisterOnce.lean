import Verif.Model.RegisterOnce
import Verif.Proofs.Assoc

/-!
# C29: names are registered before they are needed

All statements quantify over all sets of macros, all numbers of threads and all interleavings of their steps.
-/

namespace Scalopus.RegisterOnce

open Assoc

theorem lookup_insert (m : List (Nat × String)) (k k' : Nat) (v : String) :
    (insert m k v).lookup k' = if k' = k then some v else m.lookup k' := by
  unfold insert
  rw [lookup_cons']
  by_cases h : k' = k
  · simp [h]
  · rw [lookup_filter]
    simp [h]

/-- The invariant: a set flag of a registering macro means that its id is in the map or about to be; the same for a thread past the registration. -/
structure Inv (sites : List Site) (s : State) : Prop where
  flag : ∀ k site, sites[k]? = some site → k ∈ s.flags → (s.map.lookup site.id).isSome = true ∨ ∃ t, s.pc t = .second k
  second : ∀ t k, s.pc t = .second k ∨ s.pc t = .first k → ∃ site, sites[k]? = some site ∧ site.registers = true
  emitting : ∀ t k, s.pc t = .emitting k → ∃ site, sites[k]? = some site ∧ (site.registers = true →
    (s.map.lookup site.id).isSome = true ∨ ∃ t', s.pc t' = .second k)
  emitted : ∀ e ∈ s.emitted, ∃ site, sites[e.1]? = some site ∧ site.id = e.2 ∧ (site.registers = true →
    (s.map.lookup site.id).isSome = true ∨ ∃ t', s.pc t' = .second e.1)
  named : ∀ id n, s.map.lookup id = some n → ∃ site ∈ sites, site.registers = true ∧ site.id = id ∧ site.name = n

theorem inv_init (sites : List Site) : Inv sites {} where
  flag := by simp
  second := by simp
  emitting := by simp
  emitted := by simp
  named := by simp

theorem inv_step {sites : List Site} {s : State} (h : Inv sites s) (a : Act) : Inv sites (step sites s a) := by
  unfold step
  cases hpc : s.pc a.t with
  | idle =>
    simp only
    cases hk : sites[a.k]? with
    | none => exact h
    | some site =>
      simp only
      have keep : ∀ k, (∃ t, s.pc t = .second k) → ∀ p, ∃ t, (s.at a.t p).pc t = .second k := by
        rintro k ⟨t, ht⟩ p
        refine ⟨t, ?_⟩
        simp only [State.at]
        rw [if_neg]
        · exact ht
        · rintro rfl; rw [hpc] at ht; cases ht
      split
      · rename_i hr
        refine ⟨fun k st h1 h2 => (h.flag k st h1 h2).imp id (keep k · _), ?_, ?_, ?_, h.named⟩
        · intro t k ht
          simp only [State.at] at ht
          split at ht
          · rcases ht with ht | ht <;> cases ht
          · exact h.second t k ht
        · intro t k ht
          simp only [State.at] at ht
          split at ht
          · cases ht
            exact ⟨site, hk, fun hc => by rw [hr] at hc; cases hc⟩
          · obtain ⟨st, h1, h2⟩ := h.emitting t k ht
            exact ⟨st, h1, fun hc => (h2 hc).imp id (keep k · _)⟩
        · intro e he
          obtain ⟨st, h1, h2, h3⟩ := h.emitted e he
          exact ⟨st, h1, h2, fun hc => (h3 hc).imp id (keep _ · _)⟩
      · rename_i hr
        have hr : site.registers = true := by simpa using hr
        split
        · rename_i hf
          refine ⟨fun k st h1 h2 => (h.flag k st h1 h2).imp id (keep k · _), ?_, ?_, ?_, h.named⟩
          · intro t k ht
            simp only [State.at] at ht
            split at ht
            · rcases ht with ht | ht <;> cases ht
            · exact h.second t k ht
          · intro t k ht
            simp only [State.at] at ht
            split at ht
            · cases ht
              exact ⟨site, hk, fun hc => (h.flag _ _ hk hf).imp id (keep _ · _)⟩
            · obtain ⟨st, h1, h2⟩ := h.emitting t k ht
              exact ⟨st, h1, fun hc => (h2 hc).imp id (keep k · _)⟩
          · intro e he
            obtain ⟨st, h1, h2, h3⟩ := h.emitted e he
            exact ⟨st, h1, h2, fun hc => (h3 hc).imp id (keep _ · _)⟩
        · refine ⟨fun k st h1 h2 => (h.flag k st h1 h2).imp id (keep k · _), ?_, ?_, ?_, h.named⟩
          · intro t k ht
            simp only [State.at] at ht
            split at ht
            · rcases ht with ht | ht <;> cases ht
              exact ⟨site, hk, hr⟩
            · exact h.second t k ht
          · intro t k ht
            simp only [State.at] at ht
            split at ht
            · cases ht
            · obtain ⟨st, h1, h2⟩ := h.emitting t k ht
              exact ⟨st, h1, fun hc => (h2 hc).imp id (keep k · _)⟩
          · intro e he
            obtain ⟨st, h1, h2, h3⟩ := h.emitted e he
            exact ⟨st, h1, h2, fun hc => (h3 hc).imp id (keep _ · _)⟩
  | first j =>
    simp only
    have keep : ∀ k, (∃ t, s.pc t = .second k) → ∃ t, (s.at a.t (.second j)).pc t = .second k := by
      rintro k ⟨t, ht⟩
      refine ⟨t, ?_⟩
      simp only [State.at]
      rw [if_neg]
      · exact ht
      · rintro rfl; rw [hpc] at ht; cases ht
    refine ⟨?_, ?_, ?_, ?_, h.named⟩
    · intro k st h1 h2
      simp only [List.mem_cons] at h2
      rcases h2 with rfl | h2
      · exact .inr ⟨a.t, by simp [State.at]⟩
      · exact (h.flag k st h1 h2).imp id (keep k)
    · intro t k ht
      simp only [State.at] at ht
      split at ht
      · rcases ht with ht | ht <;> cases ht
        exact h.second a.t j (.inr hpc)
      · exact h.second t k ht
    · intro t k ht
      simp only [State.at] at ht
      split at ht
      · cases ht
      · obtain ⟨st, h1, h2⟩ := h.emitting t k ht
        exact ⟨st, h1, fun hc => (h2 hc).imp id (keep k)⟩
    · intro e he
      obtain ⟨st, h1, h2, h3⟩ := h.emitted e he
      exact ⟨st, h1, h2, fun hc => (h3 hc).imp id (keep _)⟩
  | second j =>
    obtain ⟨site, hj, hreg⟩ := h.second a.t j (.inl hpc)
    simp only [hj]
    have keep : ∀ k st, sites[k]? = some st → ((s.map.lookup st.id).isSome = true ∨ ∃ t, s.pc t = .second k) →
        ((insert s.map site.id site.name).lookup st.id).isSome = true ∨ ∃ t, (s.at a.t (.emitting j)).pc t = .second k := by
      intro k st hst hor
      rw [lookup_insert]
      by_cases hid : st.id = site.id
      · left; simp [hid]
      · rw [if_neg hid]
        rcases hor with h1 | ⟨t, ht⟩
        · exact .inl h1
        · right
          refine ⟨t, ?_⟩
          simp only [State.at]
          rw [if_neg]
          · exact ht
          · rintro rfl
            rw [hpc] at ht
            cases ht
            rw [hj] at hst
            cases hst
            exact hid rfl
    refine ⟨?_, ?_, ?_, ?_, ?_⟩
    · intro k st h1 h2
      exact keep k st h1 (h.flag k st h1 h2)
    · intro t k ht
      simp only [State.at] at ht
      split at ht
      · rcases ht with ht | ht <;> cases ht
      · exact h.second t k ht
    · intro t k ht
      simp only [State.at] at ht
      split at ht
      · cases ht
        refine ⟨site, hj, fun _ => .inl ?_⟩
        rw [lookup_insert]; simp
      · obtain ⟨st, h1, h2⟩ := h.emitting t k ht
        exact ⟨st, h1, fun hc => keep k st h1 (h2 hc)⟩
    · intro e he
      obtain ⟨st, h1, h2, h3⟩ := h.emitted e he
      exact ⟨st, h1, h2, fun hc => keep _ st h1 (h3 hc)⟩
    · intro id n hn
      simp only [lookup_insert] at hn
      split at hn
      · rename_i hid
        simp only [Option.some.injEq] at hn
        exact ⟨site, List.mem_of_getElem? hj, hreg, hid.symm, hn⟩
      · exact h.named id n hn
  | emitting j =>
    obtain ⟨site, hj, hreg⟩ := h.emitting a.t j hpc
    simp only [hj]
    have keep : ∀ k, (∃ t, s.pc t = .second k) → ∃ t, (s.at a.t .idle).pc t = .second k := by
      rintro k ⟨t, ht⟩
      refine ⟨t, ?_⟩
      simp only [State.at]
      rw [if_neg]
      · exact ht
      · rintro rfl; rw [hpc] at ht; cases ht
    refine ⟨fun k st h1 h2 => (h.flag k st h1 h2).imp id (keep k), ?_, ?_, ?_, h.named⟩
    · intro t k ht
      simp only [State.at] at ht
      split at ht
      · rcases ht with ht | ht <;> cases ht
      · exact h.second t k ht
    · intro t k ht
      simp only [State.at] at ht
      split at ht
      · cases ht
      · obtain ⟨st, h1, h2⟩ := h.emitting t k ht
        exact ⟨st, h1, fun hc => (h2 hc).imp id (keep k)⟩
    · intro e he
      simp only [List.mem_append, List.mem_singleton] at he
      rcases he with he | rfl
      · obtain ⟨st, h1, h2, h3⟩ := h.emitted e he
        exact ⟨st, h1, h2, fun hc => (h3 hc).imp id (keep _)⟩
      · exact ⟨site, hj, rfl, fun hc => (hreg hc).imp id (keep _)⟩

theorem inv_run {sites : List Site} {s : State} (h : Inv sites s) (acts : List Act) : Inv sites (run sites s acts) := by
  induction acts generalizing s with
  | nil => exact h
  | cons a as ih => exact ih (inv_step h a)

end Scalopus.RegisterOnce

namespace Scalopus.C29

open RegisterOnce

/-- The full property C29: whenever an event was emitted, its id has a name in the map. -/
def NamedWhenEmitted : Prop := ∀ (sites : List Site) (acts : List Act), (∀ st ∈ sites, st.registers = true) →
  ∀ e ∈ (run sites {} acts).emitted, ((run sites {} acts).map.lookup e.2).isSome = true

/-- **C29 is violated**: thread 0 has set the flag of a macro but not yet stored the name; thread 1 finds the flag set and emits an event. -/
theorem first_use_race : ¬ NamedWhenEmitted := by
  intro h
  have := h [⟨7, "work", true⟩] [⟨0, 0⟩, ⟨0, 0⟩, ⟨1, 0⟩, ⟨1, 0⟩] (by decide) (0, 7) (by decide)
  exact absurd this (by decide)

/-- **C29 fails for every macro.** Whatever happened before: when a macro has not been reached yet, and its id has no name from another macro, two threads that reach it can go on so that an event
    is emitted and has no name. -/
theorem first_use_race_always (sites : List Site) (acts : List Act) (k t u : Nat) (site : Site) (hs : sites[k]? = some site) (hr : site.registers = true) (hf : k ∉ (run sites {} acts).flags)
    (hm : (run sites {} acts).map.lookup site.id = none) (htu : t ≠ u) (ht : (run sites {} acts).pc t = .idle) (hu : (run sites {} acts).pc u = .idle) :
    (k, site.id) ∈ (run sites {} (acts ++ [⟨t, k⟩, ⟨t, k⟩, ⟨u, k⟩, ⟨u, k⟩])).emitted ∧ (run sites {} (acts ++ [⟨t, k⟩, ⟨t, k⟩, ⟨u, k⟩, ⟨u, k⟩])).map.lookup site.id = none := by
  have e : run sites {} (acts ++ [⟨t, k⟩, ⟨t, k⟩, ⟨u, k⟩, ⟨u, k⟩]) = step sites (step sites (step sites (step sites (run sites {} acts) ⟨t, k⟩) ⟨t, k⟩) ⟨u, k⟩) ⟨u, k⟩ := by
    simp [run]
  rw [e]
  generalize run sites {} acts = s at hf hm ht hu
  have hut : u ≠ t := Ne.symm htu
  simp [step, State.at, hs, hr, hf, hm, ht, hu, hut]

/-- The first macro is in use by one thread when two others get to the second. -/
example : (run [⟨7, "work", true⟩, ⟨9, "rest", true⟩] {} [⟨0, 0⟩, ⟨0, 0⟩]).pc 0 = .second 0 ∧ 1 ∉ (run [⟨7, "work", true⟩, ⟨9, "rest", true⟩] {} [⟨0, 0⟩, ⟨0, 0⟩]).flags ∧
    (run [⟨7, "work", true⟩, ⟨9, "rest", true⟩] {} [⟨0, 0⟩, ⟨0, 0⟩]).pc 1 = .idle := by decide

/-- **C29, partial.** An event that was emitted by a macro that registers has a name in the map, except while another thread is in the middle of the
    very first registration of that macro. -/
theorem named_or_in_progress_partial (sites : List Site) (acts : List Act) (k id : Nat) (he : (k, id) ∈ (run sites {} acts).emitted) :
    ∃ site, sites[k]? = some site ∧ site.id = id ∧ (site.registers = true →
      ((run sites {} acts).map.lookup id).isSome = true ∨ ∃ t, (run sites {} acts).pc t = .second k) := by
  obtain ⟨site, h1, h2, h3⟩ := (inv_run (inv_init sites) acts).emitted _ he
  refine ⟨site, h1, h2, fun hr => ?_⟩
  simp only at h2
  rw [← h2]
  exact h3 hr

/-- **C29, partial.** As soon as no thread is in the middle of a first registration, all emitted events of macros that register have names. -/
theorem named_when_quiet_partial (sites : List Site) (acts : List Act) (hreg : ∀ st ∈ sites, st.registers = true)
    (hq : ∀ t k, (run sites {} acts).pc t ≠ .second k) :
    ∀ e ∈ (run sites {} acts).emitted, ((run sites {} acts).map.lookup e.2).isSome = true := by
  intro e he
  obtain ⟨site, h1, h2, h3⟩ := (inv_run (inv_init sites) acts).emitted e he
  rw [← h2]
  rcases h3 (hreg _ (List.mem_of_getElem? h1)) with h4 | ⟨t, ht⟩
  · exact h4
  · exact absurd ht (hq t _)

/-- **C29, partial.** In a program in which only one thread traces, every emitted event has a name at once. -/
theorem named_when_single_partial (sites : List Site) (acts : List Act) (hreg : ∀ st ∈ sites, st.registers = true) (t : Nat)
    (h1 : ∀ a ∈ acts, a.t = t) (a : Act) (ha : a.t = t)
    (hnew : (run sites {} (acts ++ [a])).emitted ≠ (run sites {} acts).emitted) :
    ∀ e ∈ (run sites {} (acts ++ [a])).emitted, ((run sites {} (acts ++ [a])).map.lookup e.2).isSome = true := by
  have hother : ∀ (acts : List Act) (s : State), (∀ a ∈ acts, a.t = t) → ∀ t', t' ≠ t → (run sites s acts).pc t' = s.pc t' := by
    intro acts
    induction acts with
    | nil => intro s _ t' _; rfl
    | cons b bs ih =>
      intro s hb t' ht'
      have hbt := hb b (by simp)
      show (run sites (step sites s b) bs).pc t' = _
      rw [ih _ (fun c hc => hb c (by simp [hc])) t' ht']
      unfold step
      repeat' split
      all_goals first
        | rfl
        | simp [State.at, hbt, ht']
  have e1 : run sites {} (acts ++ [a]) = step sites (run sites {} acts) a := by simp [run, List.foldl_append]
  apply named_when_quiet_partial sites _ hreg
  intro t' k
  by_cases htt : t' = t
  · subst htt
    rw [e1] at hnew ⊢
    unfold step at hnew ⊢
    rw [ha] at hnew ⊢
    generalize run sites {} acts = s at *
    cases hpc : s.pc t' with
    | idle =>
      exfalso
      simp only [hpc] at hnew
      revert hnew
      repeat' split
      all_goals simp [State.at]
    | first j => simp [hpc, State.at] at hnew
    | second j =>
      exfalso
      simp only [hpc] at hnew
      revert hnew
      repeat' split
      all_goals simp [State.at]
    | emitting j =>
      simp only [hpc] at hnew ⊢
      split
      · rename_i hj; simp [hj] at hnew
      · simp [State.at]
  · rw [hother (acts ++ [a]) {} (by intro b hb; simp at hb; rcases hb with hb | rfl; exact h1 b hb; exact ha) t' htt]
    simp

/-- **C29, the name is right.** The name found for an id is always the name of a macro with that id; so if different macros have different ids (C26, C28)
    it is the name of the very macro that emitted. -/
theorem name_is_a_macros_name (sites : List Site) (acts : List Act) (id : Nat) (n : String) (h : (run sites {} acts).map.lookup id = some n) :
    ∃ site ∈ sites, site.registers = true ∧ site.id = id ∧ site.name = n :=
  (inv_run (inv_init sites) acts).named id n h

/-- An end marker emits without registering anything: without its start there is no name. -/
theorem end_does_not_register : ∃ acts, (run [⟨7, "work", false⟩] {} acts).emitted = [(0, 7)] ∧
    (run [⟨7, "work", false⟩] {} acts).map.lookup 7 = none :=
  ⟨[⟨0, 0⟩, ⟨0, 0⟩], by decide, by decide⟩

/-- It is so in every program, for every id that only end markers have: whatever the threads do, it has no name. -/
theorem end_never_registers (sites : List Site) (acts : List Act) (id : Nat) (h : ∀ site ∈ sites, site.id = id → site.registers = false) : (run sites {} acts).map.lookup id = none := by
  cases hl : (run sites {} acts).map.lookup id with
  | none => rfl
  | some n =>
    obtain ⟨site, h1, h2, h3, _⟩ := name_is_a_macros_name sites acts id n hl
    rw [h site h1 h3] at h2
    cases h2

/-- Two threads, two macros, after all is done. -/
example : (run [⟨7, "work", true⟩, ⟨9, "rest", true⟩] {} [⟨0, 0⟩, ⟨1, 1⟩, ⟨0, 0⟩, ⟨1, 1⟩, ⟨1, 1⟩, ⟨0, 0⟩, ⟨0, 0⟩, ⟨1, 1⟩]).emitted = [(0, 7), (1, 9)] ∧
    (run [⟨7, "work", true⟩, ⟨9, "rest", true⟩] {} [⟨0, 0⟩, ⟨1, 1⟩, ⟨0, 0⟩, ⟨1, 1⟩, ⟨1, 1⟩, ⟨0, 0⟩, ⟨0, 0⟩, ⟨1, 1⟩]).map =
      [(7, "work"), (9, "rest")] := by decide

end Scalopus.C29
