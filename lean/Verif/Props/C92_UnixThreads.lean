import Verif.Proofs.UnixThreadsRaces

/-!
# C92, C93: the threads that use a unix transport
-/

namespace Scalopus.C92

open UnixThreads

/-- **C92** in full: used by any number of threads, of which one sets the logger and destroys it when the others have finished, the transport has no data race. -/
def NoRace : Prop := ∀ s v, Reachable Proper AnyUse s → ¬ RaceOn s v

theorem access_inv {o : Op} {v : Var} {w : Bool} (h : o.access = some (v, w)) :
    (w = false ∧ o = .read v) ∨ (w = true ∧ o = .write v) ∨ (v = .endpoints ∧ w = false ∧ o = .lookup) ∨ (v = .running ∧ w = true ∧ o = .clearRunning) ∨
    (v = .running ∧ w = false ∧ o = .loop) ∨ (v = .connections ∧ w = true ∧ o = .closeAll) := by
  cases o <;> simp [Op.access] at h <;> obtain ⟨rfl, rfl⟩ := h <;> simp

/-- **C92, what the mutexes guard.** Whatever the threads call, and whatever the endpoints call, no two threads race for the map of pending requests or the broadcasts that are waiting, and no two
    threads write to a socket at the same time. -/
theorem guarded_safe (P : State → Nat → Call → Prop) (Q : Op → Call → Prop) (s : State) (h : Reachable P Q s) (v : Var) (hv : v = .ongoing ∨ v = .broadcasts ∨ v = .socket) : ¬ RaceOn s v := by
  rintro ⟨t, u, w, htu, ⟨o1, r1, e1, a1⟩, ⟨o2, r2, e2, a2⟩⟩
  have hl := lockInv h
  obtain ⟨m, hm⟩ : ∃ m, guardOf v = some m := by rcases hv with rfl | rfl | rfl <;> exact ⟨_, rfl⟩
  have key : ∀ (o : Op) (w : Bool), o.access = some (v, w) → o = .read v ∨ o = .write v := by
    intro o w ho
    rcases access_inv ho with h | h | h | h | h | h
    · exact Or.inl h.2
    · exact Or.inr h.2
    all_goals rw [h.1] at hv; simp at hv
  have h1 := guarded hl e1 (key _ _ a1) hm
  have h2 := guarded hl e2 (key _ _ a2) hm
  rw [h1] at h2
  exact htu (by simpa using h2)

theorem any_owner : ∀ o c, AnyUse o c → c.owner = false := by
  intro o c; cases c <;> simp [AnyUse, Call.owner]

/-- **C92, partial.** There are no other races than these four. The destructor tells the worker to end while the worker looks whether it should, or is told so by a lost connection. The worker notes
    that the connection was lost while another thread asks whether there is one, or sends a request. A thread adds an endpoint while the worker looks one up. The owner sets the logger while the
    worker is about to use it. Missing: these four. -/
theorem no_other_race_partial (s : State) (v : Var) (h : Reachable Proper AnyUse s) (hr : RaceOn s v) :
    (v = .running ∧ s.ops 0 = callOps .destroy ∧ ((s.ops 1).head? = some .loop ∨ (s.ops 1).head? = some .clearRunning)) ∨
    (v = .clientFd ∧ (s.ops 1).head? = some (.write .clientFd) ∧ ∃ u, u ≠ 1 ∧ (s.ops u).head? = some (.read .clientFd)) ∨
    (v = .endpoints ∧ (s.ops 1).head? = some .lookup ∧ ∃ u, u ≠ 1 ∧ (s.ops u).head? = some (.write .endpoints)) ∨
    (v = .logger ∧ (s.ops 1).head? = some (.read .logger) ∧ s.ops 0 = callOps .setLogger) := by
  have hl := lockInv h
  have hw := whoInv any_owner h
  have hrr := hr
  obtain ⟨t, u, w, htu, ⟨o1, r1, e1, a1⟩, ⟨o2, r2, e2, a2⟩⟩ := hr
  -- what other threads than the worker do
  have user : ∀ t o r, s.ops t = o :: r → t ≠ 1 → ∃ c, o :: r <:+ callOps c ∧ o ∈ callOps c ∧ (c.owner = true → t = 0) := by
    intro t o r e ht
    obtain ⟨c, hc, ho⟩ := hw.users t ht
    rw [e] at hc
    exact ⟨c, hc, hc.subset (by simp), ho⟩
  have only : ∀ t o r, s.ops t = o :: r → (o = .loop ∨ o = .lookup ∨ o = .write .clientFd ∨ o = .write .connections ∨ o = .read .connections ∨ o = .read .logger) → t = 1 := by
    intro t o r e ho
    refine Classical.byContradiction fun ht => ?_
    obtain ⟨c, _, hc, _⟩ := user t o r e ht
    have hn := not_in_calls c
    rcases ho with rfl | rfl | rfl | rfl | rfl | rfl
    · exact hn.2.2.1 hc
    · exact hn.2.2.2.1 hc
    · exact hn.2.2.2.2.1 hc
    · exact hn.2.2.2.2.2.1 hc
    · exact hn.2.2.2.2.2.2.1 hc
    · exact hn.2.2.2.2.2.2.2.1 hc
  have head : ∀ t o r, s.ops t = o :: r → (s.ops t).head? = some o := fun t o r e => by rw [e]; rfl
  cases v with
  | ongoing => exact absurd hrr (guarded_safe _ _ s h _ (Or.inl rfl))
  | broadcasts => exact absurd hrr (guarded_safe _ _ s h _ (Or.inr (Or.inl rfl)))
  | socket => exact absurd hrr (guarded_safe _ _ s h _ (Or.inr (Or.inr rfl)))
  | endpoints =>
    have k1 : o1 = .write .endpoints := by simpa using access_inv a1
    subst k1
    have h1 := guarded hl e1 (Or.inr rfl) rfl
    have k2 : o2 = .lookup := by
      have : o2 = .lookup ∨ o2 = .read .endpoints ∨ o2 = .write .endpoints := by have := access_inv a2; simp at this; rcases this with h | h | h <;> simp [h]
      rcases this with hh | hh
      · exact hh
      · have h2 := guarded hl e2 hh rfl
        rw [h1] at h2
        exact absurd (by simpa using h2) htu
    subst k2
    have hu := only u _ r2 e2 (by simp)
    subst hu
    exact Or.inr (Or.inr (Or.inl ⟨rfl, head _ _ _ e2, t, htu, head _ _ _ e1⟩))
  | connections =>
    exfalso
    have key : ∀ (o : Op) (w : Bool), o.access = some (.connections, w) → o = .read .connections ∨ o = .write .connections ∨ o = .closeAll := by
      intro o w ho; have := access_inv ho; simp at this; rcases this with h | h | h <;> simp [h]
    have close : ∀ t r, s.ops t = .closeAll :: r → t = 0 ∧ s.ops 1 = [] := by
      intro t r e
      by_cases ht : t = 1
      · subst ht
        have := hw.worker .closeAll (by rw [e]; simp)
        cases this
      · obtain ⟨h0, hd⟩ := in_destructor hw ht (Or.inr (Or.inl (by rw [e]; simp)))
        rw [e] at hd
        have hr : r = [] := by simpa using hd
        exact ⟨h0, hw.joined t (by rw [e, hr])⟩
    have other : ∀ t o r, s.ops t = o :: r → (o = .read .connections ∨ o = .write .connections) → t = 1 := fun t o r e ho => only t o r e (by rcases ho with rfl | rfl <;> simp)
    rcases key o1 _ a1 with h1 | h1 | h1 <;> rcases key o2 _ a2 with h2 | h2 | h2
    · exact htu ((other t o1 r1 e1 (Or.inl h1)).trans (other u o2 r2 e2 (Or.inl h2)).symm)
    · exact htu ((other t o1 r1 e1 (Or.inl h1)).trans (other u o2 r2 e2 (Or.inr h2)).symm)
    · have ht := other t o1 r1 e1 (Or.inl h1)
      rw [ht, (close u r2 (by rw [e2, h2])).2] at e1; cases e1
    · exact htu ((other t o1 r1 e1 (Or.inr h1)).trans (other u o2 r2 e2 (Or.inl h2)).symm)
    · exact htu ((other t o1 r1 e1 (Or.inr h1)).trans (other u o2 r2 e2 (Or.inr h2)).symm)
    · have ht := other t o1 r1 e1 (Or.inr h1)
      rw [ht, (close u r2 (by rw [e2, h2])).2] at e1; cases e1
    · have hu := other u o2 r2 e2 (Or.inl h2)
      rw [hu, (close t r1 (by rw [e1, h1])).2] at e2; cases e2
    · have hu := other u o2 r2 e2 (Or.inr h2)
      rw [hu, (close t r1 (by rw [e1, h1])).2] at e2; cases e2
    · exact htu ((close t r1 (by rw [e1, h1])).1.trans (close u r2 (by rw [e2, h2])).1.symm)
  | running =>
    have none : ∀ t o r, s.ops t = o :: r → o ≠ .read .running ∧ o ≠ .write .running := by
      intro t o r e
      by_cases ht : t = 1
      · subst ht
        have := hw.worker o (by rw [e]; simp)
        constructor <;> rintro rfl <;> cases this
      · obtain ⟨c, _, hc, _⟩ := user t o r e ht
        have hn := not_in_calls c
        constructor <;> rintro rfl
        · exact hn.2.2.2.2.2.2.2.2.1 hc
        · exact hn.2.2.2.2.2.2.2.2.2 hc
    have k1 : o1 = .clearRunning := by
      have := access_inv a1; simp at this
      rcases this with h | h
      · exact absurd h (none t o1 r1 e1).2
      · exact h
    have k2 : o2 = .loop ∨ o2 = .clearRunning := by
      have := access_inv a2; simp at this
      rcases this with h | h | h | h
      · exact absurd h.2 (none u o2 r2 e2).1
      · exact absurd h.2 (none u o2 r2 e2).2
      · exact Or.inr h.2
      · exact Or.inl h.2
    subst k1
    have clear : ∀ t r, s.ops t = .clearRunning :: r → t ≠ 1 → t = 0 ∧ s.ops 0 = callOps .destroy := by
      intro t r e ht
      obtain ⟨h0, hd⟩ := in_destructor hw ht (Or.inr (Or.inr (by rw [e]; simp)))
      subst h0
      refine ⟨rfl, ?_⟩
      rcases hd with hd | hd | hd
      · exact hd
      · rw [e] at hd; simp at hd
      · rw [e] at hd; simp at hd
    by_cases ht : t = 1
    · subst ht
      have hu : o2 = .clearRunning := by
        rcases k2 with k2 | k2
        · exact absurd (only u o2 r2 e2 (Or.inl k2)) (Ne.symm htu)
        · exact k2
      subst hu
      exact Or.inl ⟨rfl, (clear u r2 e2 (Ne.symm htu)).2, Or.inr (head _ _ _ e1)⟩
    · obtain ⟨h0, hd⟩ := clear t r1 e1 ht
      by_cases hu : u = 1
      · subst hu
        refine Or.inl ⟨rfl, hd, ?_⟩
        rcases k2 with rfl | rfl
        · exact Or.inl (head _ _ _ e2)
        · exact Or.inr (head _ _ _ e2)
      · rcases k2 with rfl | rfl
        · exact absurd (only u _ r2 e2 (Or.inl rfl)) hu
        · exact absurd (h0.trans (clear u r2 e2 hu).1.symm) htu
  | clientFd =>
    have k1 : o1 = .write .clientFd := by simpa using access_inv a1
    subst k1
    have ht := only t _ r1 e1 (by simp)
    subst ht
    have k2 : o2 = .read .clientFd := by
      have : o2 = .read .clientFd ∨ o2 = .write .clientFd := by have := access_inv a2; simp at this; rcases this with h | h <;> simp [h]
      rcases this with hh | rfl
      · exact hh
      · exact absurd (only u _ r2 e2 (by simp)) (Ne.symm htu)
    subst k2
    exact Or.inr (Or.inl ⟨rfl, head _ _ _ e1, u, Ne.symm htu, head _ _ _ e2⟩)
  | logger =>
    have k1 : o1 = .write .logger := by simpa using access_inv a1
    subst k1
    have sets : ∀ t r, s.ops t = .write .logger :: r → t = 0 ∧ s.ops 0 = callOps .setLogger := by
      intro t r e
      by_cases ht : t = 1
      · subst ht
        have := hw.worker (.write .logger) (by rw [e]; simp)
        cases this
      · obtain ⟨c, hc, hm, ho⟩ := user t _ r e ht
        have hcs : c = .setLogger := by
          cases c with
          | request sent => cases sent <;> simp [callOps] at hm
          | setLogger => rfl
          | _ => simp [callOps] at hm
        subst hcs
        have h0 := ho rfl
        subst h0
        refine ⟨rfl, ?_⟩
        rw [e]
        rcases List.suffix_cons_iff.mp hc with hc | hc
        · exact hc
        · exact absurd (List.suffix_nil.mp hc) (by simp)
    obtain ⟨h0, hd⟩ := sets t r1 e1
    have k2 : o2 = .read .logger := by
      have : o2 = .read .logger ∨ o2 = .write .logger := by have := access_inv a2; simp at this; rcases this with h | h <;> simp [h]
      rcases this with hh | rfl
      · exact hh
      · exact absurd (h0.trans (sets u r2 e2).1.symm) htu
    subst k2
    have hu := only u _ r2 e2 (by simp)
    subst hu
    exact Or.inr (Or.inr (Or.inr ⟨rfl, head _ _ _ e2, hd⟩))

/-- Used in this way, destroying a transport never terminates the process. -/
theorem never_terminates (s : State) (h : Reachable Proper AnyUse s) : s.terminated = false := (whoInv any_owner h).fine

/-! ### The four races occur, even if endpoints make no calls -/

theorem reach {P : State → Nat → Call → Prop} {Q : Op → Call → Prop} (as : List Act) (s s' : State) (hs : Reachable P Q s) (hP : ∀ s t c, .call t c ∈ as → P s t c)
    (hQ : ∀ t cs r, .exec t cs r ∈ as → cs = []) (e : as.foldlM step s = some s') : Reachable P Q s' := by
  induction as generalizing s with
  | nil => simp only [List.foldlM_nil, Option.pure_def, Option.some.injEq] at e; subst e; exact hs
  | cons a as ih =>
    simp only [List.foldlM_cons] at e
    cases h1 : step s a with
    | none => rw [h1] at e; cases e
    | some s1 =>
      rw [h1] at e
      refine ih s1 ?_ (fun s t c h => hP s t c (by simp [h])) (fun t cs f h => hQ t cs f (by simp [h])) e
      cases a with
      | call t c => exact .call hs (hP _ t c (by simp)) h1
      | exec t cs f =>
        refine .exec hs ?_ h1
        rw [hQ t cs f (by simp)]
        simp

/-- **C92 fails** whenever a transport is destroyed: `running_` is a plain `bool`, written while the worker may be reading it. -/
theorem running_race : ∃ s, Reachable Proper Quiet s ∧ RaceOn s .running := by
  have e : step {} (.call 0 .destroy) = some { State.set {} 0 (callOps .destroy) with destroyed := true } := rfl
  exact ⟨_, .call (t := 0) (c := .destroy) .init ⟨rfl, fun u hu => if_neg hu⟩ e, 0, 1, false, by decide, ⟨_, _, rfl, rfl⟩, ⟨.loop, [], rfl, rfl⟩⟩

/-- **C92 fails** when the server goes away while a thread asks whether the transport is connected. -/
theorem connected_race : ∃ s, Reachable Proper Quiet s ∧ RaceOn s .clientFd := by
  have e : ∃ s, [Act.call 0 .isConnected, .exec 1 [] { client := some ⟨true, .nothing⟩ }, .exec 1 [] {}, .exec 1 [] {}].foldlM step {} = some s ∧
      s.ops 0 = [.read .clientFd] ∧ ∃ r, s.ops 1 = .write .clientFd :: r := ⟨_, rfl, rfl, _, rfl⟩
  obtain ⟨s, e, h0, r, h1⟩ := e
  refine ⟨s, reach _ _ s .init ?_ ?_ e, 1, 0, false, by decide, ⟨_, _, h1, rfl⟩, ⟨_, _, h0, rfl⟩⟩
  · intro s t c h; simp only [List.mem_cons, Act.call.injEq, reduceCtorEq, List.not_mem_nil, or_false] at h
    obtain ⟨_, rfl⟩ := h; trivial
  · intro t cs f h; simp at h; rcases h with h | h <;> exact h.2.1

/-- **C92 fails** when an endpoint is added to a server while a message of a client arrives, as every program does that adds endpoints after making the server. -/
theorem endpoint_race : ∃ s, Reachable Proper Quiet s ∧ RaceOn s .endpoints := by
  have e : ∃ s, [Act.call 0 .addEndpoint, .exec 0 [] {}, .exec 1 [] { events := [.message true] }, .exec 1 [] {}, .exec 1 [] {}].foldlM step {} = some s ∧
      s.ops 0 = [.write .endpoints, .unlock .endpoint] ∧ ∃ r, s.ops 1 = .lookup :: r := ⟨_, rfl, rfl, _, rfl⟩
  obtain ⟨s, e, h0, r, h1⟩ := e
  refine ⟨s, reach _ _ s .init ?_ ?_ e, 0, 1, false, by decide, ⟨_, _, h0, rfl⟩, ⟨_, _, h1, rfl⟩⟩
  · intro s t c h; simp only [List.mem_cons, Act.call.injEq, reduceCtorEq, List.not_mem_nil, or_false] at h
    obtain ⟨_, rfl⟩ := h; trivial
  · intro t cs f h; simp at h; rcases h with h | h | h <;> simp_all

/-- **C92 fails** when the logger is set while the worker is about to report an error. -/
theorem logger_race : ∃ s, Reachable Proper Quiet s ∧ RaceOn s .logger := by
  have e : ∃ s, [Act.call 0 .setLogger, .exec 1 [] { accept := .failed }, .exec 1 [] {}].foldlM step {} = some s ∧
      s.ops 0 = [.write .logger] ∧ ∃ r, s.ops 1 = .read .logger :: r := ⟨_, rfl, rfl, _, rfl⟩
  obtain ⟨s, e, h0, r, h1⟩ := e
  refine ⟨s, reach _ _ s .init ?_ ?_ e, 0, 1, false, by decide, ⟨_, _, h0, rfl⟩, ⟨_, _, h1, rfl⟩⟩
  · intro s t c h; simp only [List.mem_cons, Act.call.injEq, reduceCtorEq, List.not_mem_nil, or_false] at h
    obtain ⟨rfl, rfl⟩ := h; rfl
  · intro t cs f h; simp at h; rcases h with h | h <;> exact h.2.1

/-! ### They can occur every time -/

/-- The threads go on with the calls they are in, and the worker with what it finds; there are no further calls. -/
def Goes (s s' : State) : Prop := ∃ as : List Act, (∀ a ∈ as, ∃ t r, a = .exec t [] r) ∧ as.foldlM step s = some s'

theorem Goes.trans {s s1 s2 : State} (h1 : Goes s s1) (h2 : Goes s1 s2) : Goes s s2 := by
  obtain ⟨a, ha, ea⟩ := h1
  obtain ⟨b, hb, eb⟩ := h2
  refine ⟨a ++ b, fun x hx => (List.mem_append.mp hx).elim (ha x) (hb x), ?_⟩
  rw [List.foldlM_append, ea]
  exact eb

theorem Goes.of_path {s s' : State} (p : Path s s') : Goes s s' := by
  induction p with
  | refl => exact ⟨[], by simp, rfl⟩
  | head t e _ ih => exact Goes.trans ⟨[.exec t [] {}], by simp, by simp [e]⟩ ih

theorem careful_owner (o : Op) (c : Call) (hc : Careful o c) : c.owner = false := by
  cases o <;> cases c <;> simp_all [Careful, Light, AnyUse, Call.owner]

theorem careful_good {s : State} (h : Reachable Proper Careful s) : Good s := good careful_owner (fun c hc => hc) h

/-- A thread that is in a call other than the destructor keeps the transport from being destroyed. -/
theorem no_clear {s : State} (h : Good s) {t : Nat} (hc : s.ops t ≠ []) (hn : .clearRunning ∉ s.ops t) (ht : t ≠ 1) (hr : s.running = true) (h1 : .clearRunning ∉ s.ops 1) : NoClear s := by
  refine ⟨hr, fun u hu => ?_⟩
  by_cases hu1 : u = 1
  · subst hu1; exact h1 hu
  · obtain ⟨rfl, hd⟩ := in_destructor h.2 hu1 (Or.inr (Or.inr hu))
    have hd' : s.ops 0 = [.clearRunning, .join, .closeAll] := by
      rcases hd with hd | hd | hd
      · exact hd
      · rw [hd] at hu; simp at hu
      · rw [hd] at hu; simp at hu
    have hb := h.2.begun 0 (by decide) (Or.inl (by rw [hd']; simp))
    by_cases h0 : t = 0
    · subst h0; exact hn hu
    · exact hc (h.2.alone hb t h0 ht)

/-- The worker can begin an iteration in which it finds `r`, while a thread that holds no mutex stays where it is. -/
theorem to_round {s : State} (h : Reachable Proper Careful s) {t : Nat} (ht : t ≠ 1) (hf : hs s t = free) (hn : NoClear s) (r : Round) :
    ∃ s', Goes s s' ∧ Good s' ∧ s'.ops t = s.ops t ∧ hs s' t = free ∧ s'.ops 1 = roundOps r ++ [.loop] := by
  have hg := careful_good h
  have hne : s.ops 1 ≠ [] := fun e => by have := ended careful_owner h e; rw [hn.1] at this; cases this
  obtain ⟨p, hp, hl⟩ := (shape careful_owner h).ends.resolve_left hne
  have hj : Op.join ∉ p := fun hm => by have := hg.2.worker .join (by rw [hp]; simp [hm]); cases this
  obtain ⟨s1, p1, g1, e1, k1⟩ := goes_to p s 1 [.loop] hp hl hj hg
  have hr1 := (noClear_path p1 hn).1
  obtain ⟨a, b⟩ := k1 t ht hf
  have st : step s1 (.exec 1 [] r) = some (s1.set 1 (roundOps r ++ [.loop])) := by simp [step, g1.2.fine, e1, exec, hr1]
  refine ⟨s1.set 1 (roundOps r ++ [.loop]), (Goes.of_path p1).trans ⟨[.exec 1 [] r], by simp, by simp [st]⟩, ?_, by simp [ht, a], ?_, by simp⟩
  · exact ⟨lockInv_exec g1.1 (fun _ _ c hc => by cases hc) st, whoInv_exec g1.2 (fun c hc => by cases hc) st⟩
  · exact b

/-- **C92 fails** every time a transport is destroyed while its worker has not ended: whatever the threads have done before, the destructor can write `running_` while the worker reads or writes it. -/
theorem running_race_always (s : State) (t : Nat) (h : Reachable Proper Careful s) (ht : t ≠ 1) (hw : s.accesses t .running true) (h1 : s.ops 1 ≠ []) :
    ∃ s', Goes s s' ∧ s'.ops t = s.ops t ∧ RaceOn s' .running := by
  have hg := careful_good h
  obtain ⟨o, rest, e, ha⟩ := hw
  have ho : o = .clearRunning := by have := access_inv ha; simp at this; rcases this with h | h
                                    · subst h; have := hg.2.users t ht; obtain ⟨c, hc, _⟩ := this; rw [e] at hc; have := hc.subset (List.mem_cons_self ..); cases c with
                                        | request sent => cases sent <;> simp [callOps] at this
                                        | _ => simp [callOps] at this
                                    · exact h
  subst ho
  obtain ⟨rfl, hd⟩ := in_destructor hg.2 ht (Or.inr (Or.inr (by rw [e]; simp)))
  have hf : hs s 0 = free := by
    have hl := hg.1 0
    rcases hd with hd | hd | hd
    · rw [hd] at hl; simpa [Rules] using hl
    · rw [hd] at e; simp at e
    · rw [hd] at e; simp at e
  obtain ⟨p, hp, hl⟩ := (shape careful_owner h).ends.resolve_left h1
  have hj : Op.join ∉ p := fun hm => by have := hg.2.worker .join (by rw [hp]; simp [hm]); cases this
  obtain ⟨s1, p1, g1, e1, k1⟩ := goes_to p s 1 [.loop] hp hl hj hg
  obtain ⟨a, _⟩ := k1 0 (by decide) hf
  exact ⟨s1, .of_path p1, a, 0, 1, false, by decide, ⟨_, _, a.trans e, rfl⟩, ⟨_, _, e1, rfl⟩⟩

/-- **C92 fails** every time a thread asks whether the transport is connected while the worker runs: the server can go away at that moment. -/
theorem connected_race_always (s : State) (t : Nat) (h : Reachable Proper Careful s) (ht : t ≠ 1) (hc : s.ops t = callOps .isConnected) (hr : s.running = true) :
    ∃ s', Goes s s' ∧ s'.ops t = s.ops t ∧ RaceOn s' .clientFd := by
  have hg := careful_good h
  have hf : hs s t = free := by have hl := hg.1 t; rw [hc] at hl; exact hl.2
  by_cases h1 : .clearRunning ∈ s.ops 1
  · -- the worker has found that the server has gone away
    have sh := shape careful_owner h
    obtain ⟨p, q, hp⟩ := List.append_of_mem h1
    obtain ⟨q', rfl⟩ := sh.lost p q hp
    obtain ⟨x, hx, hl⟩ := sh.ends.resolve_left (by rw [hp]; simp)
    have hpl : Op.loop ∉ p := by
      intro hm
      obtain ⟨a, b, rfl⟩ := List.append_of_mem hm
      rw [hp] at hx
      have hx2 : x = a ++ Op.loop :: b ++ (Op.clearRunning :: Op.write .clientFd :: q').dropLast := by
        have := congrArg List.dropLast hx
        rw [List.dropLast_concat, List.dropLast_append_of_ne_nil (by simp)] at this
        exact this.symm
      exact hl (by rw [hx2]; simp)
    have hj : Op.join ∉ p := fun hm => by have := hg.2.worker .join (by rw [hp]; simp [hm]); cases this
    obtain ⟨s1, p1, g1, e1, k1⟩ := goes_to (p ++ [.clearRunning]) s 1 (.write .clientFd :: q') (by rw [hp]; simp) (by simp [hpl]) (by simp [hj]) hg
    obtain ⟨a, _⟩ := k1 t ht hf
    exact ⟨s1, .of_path p1, a, 1, t, false, Ne.symm ht, ⟨_, _, e1, rfl⟩, ⟨_, _, a.trans hc, rfl⟩⟩
  · obtain ⟨s1, g1, hg1, a, f1, e1⟩ := to_round h ht hf (no_clear hg (by rw [hc]; simp [callOps]) (by rw [hc]; simp [callOps]) ht hr h1) { client := some ⟨true, .nothing⟩ }
    obtain ⟨s2, p2, g2, e2, k2⟩ := goes_to [.read .connections, .clearRunning] s1 1 _ e1 (by simp) (by simp) hg1
    obtain ⟨b, _⟩ := k2 t ht f1
    exact ⟨s2, g1.trans (.of_path p2), b.trans a, 1, t, false, Ne.symm ht, ⟨_, _, e2, rfl⟩, ⟨_, _, (b.trans a).trans hc, rfl⟩⟩

/-- **C92 fails** every time an endpoint is added to a transport whose worker goes on running: a message of a client can arrive at that moment. -/
theorem endpoint_race_always (s : State) (t : Nat) (h : Reachable Proper Careful s) (ht : t ≠ 1) (hc : s.ops t = callOps .addEndpoint) (hr : s.running = true) (h1 : .clearRunning ∉ s.ops 1) :
    ∃ s', Goes s s' ∧ RaceOn s' .endpoints := by
  have hg := careful_good h
  have hf : hs s t = free := by
    have hl := hg.1 t
    rw [hc] at hl
    rcases hl with ⟨_, hx⟩ | ⟨hm, _, _, hm2, hl⟩
    · cases hx
    · rw [up_up hm] at hl; exact hl
  obtain ⟨s1, g1, hg1, a, f1, e1⟩ := to_round h ht hf (no_clear hg (by rw [hc]; simp [callOps]) (by rw [hc]; simp [callOps]) ht hr h1) { events := [.message true] }
  obtain ⟨s2, p2, hg2, e2, k2⟩ := goes_to [.read .connections, .read .connections] s1 1 _ e1 (by simp) (by simp) hg1
  obtain ⟨b, f2⟩ := k2 t ht f1
  have hw : hs s2 1 = free := by have hl := hg2.1 1; rw [e2] at hl; exact hl.1
  obtain ⟨s3, p3, hg3, f3, k3⟩ := frees _ .endpoint (Nat.le_refl _) s2 hg2
  have w3 := k3.ops 1 (by intro m' hm'; rw [hw] at hm'; cases hm')
  have t3 := k3.ops t (by intro m' hm'; rw [f2] at hm'; cases hm')
  obtain ⟨s4, e4, o4, k4, _⟩ := lock_step hg3 ((t3.trans (b.trans a)).trans hc) f3
  refine ⟨s4, ((g1.trans (.of_path p2)).trans (.of_path p3)).trans (.of_path (.head t e4 (.refl _))), t, 1, false, ht, ⟨_, _, o4, rfl⟩, ⟨.lookup, _, ((k4.ops 1 (Ne.symm ht)).trans w3).trans e2, rfl⟩⟩

/-- **C92 fails** every time the logger is set while the worker goes on running: it can have an error to report at that moment. -/
theorem logger_race_always (s : State) (t : Nat) (h : Reachable Proper Careful s) (ht : t ≠ 1) (hc : s.ops t = callOps .setLogger) (hr : s.running = true) (h1 : .clearRunning ∉ s.ops 1) :
    ∃ s', Goes s s' ∧ s'.ops t = s.ops t ∧ RaceOn s' .logger := by
  have hg := careful_good h
  have hf : hs s t = free := by have hl := hg.1 t; rw [hc] at hl; exact hl.2
  obtain ⟨s1, g1, hg1, a, f1, e1⟩ := to_round h ht hf (no_clear hg (by rw [hc]; simp [callOps]) (by rw [hc]; simp [callOps]) ht hr h1) { accept := .failed }
  obtain ⟨s2, p2, g2, e2, k2⟩ := goes_to [.read .connections] s1 1 _ e1 (by simp) (by simp) hg1
  obtain ⟨b, _⟩ := k2 t ht f1
  exact ⟨s2, g1.trans (.of_path p2), b.trans a, t, 1, false, ht, ⟨_, _, (b.trans a).trans hc, rfl⟩, ⟨_, _, e2, rfl⟩⟩

/-- A state in which the first of these applies: the destructor is about to begin while the worker is about to look for a broadcast. -/
example : ∃ s, Reachable Proper Careful s ∧ s.accesses 0 .running true ∧ (s.ops 1).head? = some (.lock .broadcast) := by
  have e : ∃ s, [Act.exec 1 [] { broadcasts := [2] }, .exec 1 [] {}, .exec 1 [] {}].foldlM step {} = some s ∧ (∀ u, u ≠ 1 → s.ops u = []) ∧ s.destroyed = false ∧ s.terminated = false ∧
      (s.ops 1).head? = some (.lock .broadcast) := ⟨_, rfl, fun u hu => by simp [hu], rfl, rfl, rfl⟩
  obtain ⟨s, e, hu, hd, hf, hw⟩ := e
  have r0 : Reachable Proper Careful s := reach _ _ s .init (by intro s t c h; simp at h) (by intro t cs f h; simp at h; rcases h with h | h <;> exact h.2.1) e
  refine ⟨_, .call (t := 0) (c := .destroy) r0 ⟨rfl, hu⟩ (by simp only [step, hf, hd, hu 0 (by decide)]; simp; rfl), ⟨.clearRunning, [.join, .closeAll], by simp [callOps], rfl⟩, by simpa using hw⟩

theorem mono {P : State → Nat → Call → Prop} {Q Q' : Op → Call → Prop} (hQ : ∀ t c, Q t c → Q' t c) {s : State} (h : Reachable P Q s) : Reachable P Q' s := by
  induction h with
  | init => exact .init
  | call _ hc e ih => exact .call ih hc e
  | exec _ hc e ih => exact .exec ih (fun o ho c hm => hQ _ c (hc o ho c hm)) e

theorem not_NoRace : ¬ NoRace := fun h => by
  obtain ⟨s, hr, h2⟩ := running_race
  exact h s _ (mono (fun _ _ h => h.elim) hr) h2

/-- While the worker calls `unsolicited`, another thread that asks for the endpoints waits. -/
example : ∃ s, [Act.exec 1 [] { client := some ⟨false, .endpoint true⟩ }, .exec 1 [] {}, .exec 1 [] {}, .exec 1 [] {}, .exec 1 [] {}, .exec 1 [] {}, .call 2 .endpoints].foldlM step {} = some s ∧
    s.holder .endpoint = some 1 ∧ (s.ops 1).head? = some .unsolicited ∧ s.ops 2 = callOps .endpoints ∧ (step s (.exec 2 [] {})).isNone := ⟨_, rfl, rfl, rfl, rfl, rfl⟩

end Scalopus.C92

namespace Scalopus.C93

open UnixThreads

/-- **C93** in full: an endpoint may use the transport it is called by; no thread is ever stuck in a call of the transport, or in its destructor, for good. -/
def NeverHangs : Prop := ∀ s t, Reachable Proper AnyUse s → t ≠ 1 → ¬ Hangs s t

/-- Calls that need the mutex of requests or the one of endpoints. -/
def Locks : Call → Prop
  | .addEndpoint | .endpoints | .getEndpoint | .pendingRequests | .request true => True
  | _ => False

/-- The mutexes that the worker holds while it calls `unsolicited`. -/
def Big (m : Mutex) : Prop := m = .request ∨ m = .endpoint

/-- Steps that do not let the worker give up these mutexes. -/
def Keeps (o : Op) : Prop := (∀ m, Big m → o ≠ .unlock m) ∧ o ≠ .handle ∧ o ≠ .unsolicited ∧ o ≠ .loop

/-- Steps that wait for the worker. -/
def Waits (o : Op) : Prop := o = .join ∨ ∃ m, Big m ∧ o = .lock m

structure Doomed (s : State) : Prop where
  holds : ∀ m, Big m → s.holder m = some 1
  again : ∃ pre m r, s.ops 1 = pre ++ .lock m :: r ∧ Big m ∧ ∀ o ∈ pre, Keeps o
  users : ∀ t, t ≠ 1 → ∃ c, s.ops t <:+ callOps c

theorem doomed_step {s s' : State} (hl : LockInv false s) (h : Doomed s) {a : Act} (e : step s a = some s') :
    Doomed s' ∧ ∀ u, u ≠ 1 → (∃ o ∈ s.ops u, Waits o) → ∃ o ∈ s'.ops u, Waits o := by
  obtain ⟨pre, m, r, h1, hm, hk⟩ := h.again
  cases a with
  | call u c =>
    simp only [step] at e
    split at e
    · rename_i hc
      obtain ⟨_, hu, hn, _⟩ := hc
      simp only [Option.some.injEq] at e
      subst e
      refine ⟨⟨h.holds, ⟨pre, m, r, ?_, hm, hk⟩, fun t ht => ?_⟩, fun x hx ⟨o, ho, hw⟩ => ?_⟩
      · show (if 1 = u then callOps c else s.ops 1) = _
        rw [if_neg (Ne.symm hu)]; exact h1
      · show ∃ c', (if t = u then callOps c else s.ops t) <:+ callOps c'
        split
        · exact ⟨c, List.suffix_refl _⟩
        · exact h.users t ht
      · refine ⟨o, ?_, hw⟩
        show o ∈ (if x = u then callOps c else s.ops x)
        split
        · rename_i hxu; rw [hxu, hn] at ho; cases ho
        · exact ho
    · cases e
  | exec u cs f =>
    simp only [step] at e
    split at e
    · cases e
    split at e
    · cases e
    rename_i o rest ho
    by_cases hu : u = 1
    · subst hu
      -- the worker
      cases pre with
      | nil =>
        rw [h1] at ho
        injection ho with h2 h3
        subst h2
        simp [exec, h.holds m hm] at e
      | cons o' pre =>
        rw [h1] at ho
        injection ho with h2 h3
        subst h2
        have hko := hk o' (by simp)
        have hkr : ∀ x ∈ pre, Keeps x := fun x hx => hk x (by simp [hx])
        have same : ∀ s' : State, s'.ops = (s.set 1 rest).ops → (∀ m, Big m → s'.holder m = some 1) →
            Doomed s' ∧ ∀ u, u ≠ 1 → (∃ o ∈ s.ops u, Waits o) → ∃ o ∈ s'.ops u, Waits o := by
          intro s' k1 k2
          refine ⟨⟨k2, ⟨pre, m, r, by rw [k1, ← h3]; simp, hm, hkr⟩, fun t ht => ?_⟩, fun x hx hw => ?_⟩
          · rw [k1, set_ops, if_neg ht]; exact h.users t ht
          · rw [k1, set_ops, if_neg hx]; exact hw
        cases o' with
        | lock m' =>
          simp only [exec] at e
          split at e
          · rename_i hf
            simp only [Option.some.injEq] at e; subst e
            refine same _ rfl fun x hx => ?_
            simp only [hold_holder]
            split
            · rfl
            · exact h.holds x hx
          · cases e
        | unlock m' =>
          simp only [exec, Option.some.injEq] at e; subst e
          refine same _ rfl fun x hx => ?_
          simp only [hold_holder]
          split
          · rename_i hxm; exact absurd (by rw [hxm]) (hko.1 x hx)
          · exact h.holds x hx
        | handle => exact absurd rfl hko.2.1
        | unsolicited => exact absurd rfl hko.2.2.1
        | loop => exact absurd rfl hko.2.2.2
        | join =>
          simp only [exec, if_true, Option.some.injEq] at e; subst e
          exact ⟨⟨h.holds, ⟨.join :: pre, m, r, h1, hm, hk⟩, h.users⟩, fun x _ hw => hw⟩
        | read v => simp only [exec, Option.some.injEq] at e; subst e; exact same _ rfl h.holds
        | write v => simp only [exec, Option.some.injEq] at e; subst e; exact same _ rfl h.holds
        | lookup => simp only [exec, Option.some.injEq] at e; subst e; exact same _ rfl h.holds
        | clearRunning => simp only [exec, Option.some.injEq] at e; subst e; exact same _ rfl h.holds
        | closeAll => simp only [exec, Option.some.injEq] at e; subst e; exact same _ rfl h.holds
    · obtain ⟨c, hc⟩ := h.users u hu
      rw [ho] at hc
      have hmem : o ∈ callOps c := hc.subset (by simp)
      have hnot := not_in_calls c
      have same : ∀ s' : State, s'.ops = (s.set u rest).ops → (∀ m, Big m → s'.holder m = some 1) → ¬ Waits o →
          Doomed s' ∧ ∀ u, u ≠ 1 → (∃ o ∈ s.ops u, Waits o) → ∃ o ∈ s'.ops u, Waits o := by
        intro s' k1 k2 k3
        refine ⟨⟨k2, ⟨pre, m, r, by rw [k1, set_ops, if_neg (Ne.symm hu)]; exact h1, hm, hk⟩, fun t ht => ?_⟩, fun x hx hw => ?_⟩
        · rw [k1, set_ops]
          split
          · exact ⟨c, suffix_tail hc⟩
          · exact h.users t ht
        · obtain ⟨o2, ho2, hw⟩ := hw
          refine ⟨o2, ?_, hw⟩
          rw [k1, set_ops]
          split
          · rename_i hxu
            rw [hxu, ho] at ho2
            rcases List.mem_cons.mp ho2 with h2 | h2
            · rw [h2] at hw; exact absurd hw k3
            · exact h2
          · exact ho2
      have nw : (∀ m, o ≠ .lock m) → o ≠ .join → ¬ Waits o := by
        intro k1 k2 k3
        rcases k3 with k3 | ⟨m, _, k3⟩
        · exact k2 k3
        · exact k1 m k3
      cases o with
      | lock m' =>
        simp only [exec] at e
        split at e
        · rename_i hf
          have hnb : ¬ Big m' := fun hb => by rw [h.holds m' hb] at hf; cases hf
          simp only [Option.some.injEq] at e; subst e
          refine same _ rfl (fun x hx => ?_) ?_
          · simp only [hold_holder]
            split
            · rename_i hxm; rw [hxm] at hx; exact absurd hx hnb
            · exact h.holds x hx
          · rintro (hw | ⟨x, hx, hw⟩)
            · cases hw
            · cases hw; exact hnb hx
        · cases e
      | unlock m' =>
        have hlu := hl u
        rw [ho] at hlu
        have hh := hs_iff.mp hlu.1
        simp only [exec, Option.some.injEq] at e; subst e
        refine same _ rfl (fun x hx => ?_) (nw (by simp) (by simp))
        simp only [hold_holder]
        split
        · rename_i hxm
          rw [← hxm, h.holds x hx] at hh
          exact absurd (by simpa using hh.symm) hu
        · exact h.holds x hx
      | join =>
        simp only [exec] at e
        rw [if_neg hu] at e
        split at e
        · rename_i hn; rw [h1] at hn; simp at hn
        · cases e
      | handle => exact absurd hmem hnot.1
      | unsolicited => exact absurd hmem hnot.2.1
      | loop => exact absurd hmem hnot.2.2.1
      | lookup => exact absurd hmem hnot.2.2.2.1
      | read v => simp only [exec, Option.some.injEq] at e; subst e; exact same _ rfl h.holds (nw (by simp) (by simp))
      | write v => simp only [exec, Option.some.injEq] at e; subst e; exact same _ rfl h.holds (nw (by simp) (by simp))
      | clearRunning => simp only [exec, Option.some.injEq] at e; subst e; exact same _ rfl h.holds (nw (by simp) (by simp))
      | closeAll => simp only [exec, Option.some.injEq] at e; subst e; exact same _ rfl h.holds (nw (by simp) (by simp))

theorem doomed_runs : ∀ (as : List Act) (s s' : State), LockInv false s → Doomed s → as.foldlM step s = some s' →
    Doomed s' ∧ ∀ u, u ≠ 1 → (∃ o ∈ s.ops u, Waits o) → ∃ o ∈ s'.ops u, Waits o := by
  intro as
  induction as with
  | nil => intro s s' _ hd e; simp only [List.foldlM_nil, Option.pure_def, Option.some.injEq] at e; subst e; exact ⟨hd, fun _ _ h => h⟩
  | cons a as ih =>
    intro s s' hl hd e
    simp only [List.foldlM_cons] at e
    cases h1 : step s a with
    | none => rw [h1] at e; cases e
    | some s1 =>
      rw [h1] at e
      obtain ⟨k1, k2⟩ := doomed_step hl hd h1
      have hl1 : LockInv false s1 := by
        cases a with
        | call => exact lockInv_call hl h1
        | exec => exact lockInv_exec hl (fun h => by cases h) h1
      obtain ⟨j1, j2⟩ := ih s1 s' hl1 k1 e
      exact ⟨j1, fun u hu hw => j2 u hu (k2 u hu hw)⟩

/-- Other threads than the worker are always in a call of the transport. -/
theorem users {P : State → Nat → Call → Prop} {Q : Op → Call → Prop} {s : State} (h : Reachable P Q s) : ∀ t, t ≠ 1 → ∃ c, s.ops t <:+ callOps c := by
  induction h with
  | init => intro t ht; exact ⟨.isConnected, by simp [ht]⟩
  | @call s s' u c _ _ e ih =>
    intro t ht
    simp only [step] at e
    split at e
    · simp only [Option.some.injEq] at e
      subst e
      show ∃ c', (if t = u then callOps c else s.ops t) <:+ callOps c'
      split
      · exact ⟨c, List.suffix_refl _⟩
      · exact ih t ht
    · cases e
  | @exec s s' u cs r _ _ e ih =>
    intro t ht
    simp only [step] at e
    split at e
    · cases e
    split at e
    · cases e
    rename_i o rest ho
    by_cases htu : t = u
    · subst htu
      obtain ⟨c, hc⟩ := ih t ht
      rw [ho] at hc
      have hmem : o ∈ callOps c := hc.subset (by simp)
      have hnot := not_in_calls c
      refine ⟨c, ?_⟩
      cases o with
      | handle => exact absurd hmem hnot.1
      | unsolicited => exact absurd hmem hnot.2.1
      | loop => exact absurd hmem hnot.2.2.1
      | join =>
        simp only [exec] at e
        rw [if_neg ht] at e
        split at e
        · simp only [Option.some.injEq] at e; subst e; simpa using suffix_tail hc
        · cases e
      | lock m =>
        simp only [exec] at e
        split at e
        · simp only [Option.some.injEq] at e; subst e; simpa using suffix_tail hc
        · cases e
      | _ => simp only [exec, Option.some.injEq] at e; subst e; simpa using suffix_tail hc
    · have hk : s'.ops t = s.ops t := by
        cases o <;> simp only [exec] at e
        case join =>
          split at e
          · simp only [Option.some.injEq] at e; subst e; rfl
          · split at e
            · simp only [Option.some.injEq] at e; subst e; simp [htu]
            · cases e
        case lock =>
          split at e
          · simp only [Option.some.injEq] at e; subst e; simp [htu]
          · cases e
        all_goals simp only [Option.some.injEq] at e; subst e; simp [htu]
      rw [hk]
      exact ih t ht

/-- The first call that needs one of the two mutexes. -/
theorem first_lock (cs : List Call) (rest : List Op) (h : ∃ c ∈ cs, Locks c) : ∃ pre m r, cs.flatMap callOps ++ rest = pre ++ .lock m :: r ∧ Big m ∧ ∀ o ∈ pre, Keeps o := by
  induction cs with
  | nil => obtain ⟨c, hc, _⟩ := h; cases hc
  | cons c cs ih =>
    simp only [List.flatMap_cons, List.append_assoc]
    have now : ∀ pre m r, callOps c = pre ++ .lock m :: r → Big m → (∀ o ∈ pre, Keeps o) →
        ∃ pre m r, callOps c ++ (cs.flatMap callOps ++ rest) = pre ++ .lock m :: r ∧ Big m ∧ ∀ o ∈ pre, Keeps o :=
      fun pre m r k1 k2 k3 => ⟨pre, m, r ++ (cs.flatMap callOps ++ rest), by rw [k1]; simp, k2, k3⟩
    have later : ¬ Locks c → (∀ o ∈ callOps c, Keeps o) → ∃ pre m r, callOps c ++ (cs.flatMap callOps ++ rest) = pre ++ .lock m :: r ∧ Big m ∧ ∀ o ∈ pre, Keeps o := by
      intro hn hk
      obtain ⟨x, hx, hl⟩ := h
      have hx' : x ∈ cs := by
        rcases List.mem_cons.mp hx with h2 | h2
        · rw [h2] at hl; exact absurd hl hn
        · exact h2
      obtain ⟨pre, m, r, k1, k2, k3⟩ := ih ⟨x, hx', hl⟩
      refine ⟨callOps c ++ pre, m, r, by rw [k1]; simp, k2, ?_⟩
      intro o ho
      rcases List.mem_append.mp ho with ho | ho
      · exact hk o ho
      · exact k3 o ho
    cases c with
    | addEndpoint => exact now [] _ _ rfl (Or.inr rfl) (by simp)
    | endpoints => exact now [] _ _ rfl (Or.inr rfl) (by simp)
    | getEndpoint => exact now [] _ _ rfl (Or.inr rfl) (by simp)
    | pendingRequests => exact now [] _ _ rfl (Or.inl rfl) (by simp)
    | request sent =>
      cases sent with
      | false => exact later (by simp [Locks]) (by simp [callOps, Keeps, Big])
      | true => exact now [.lock .write, .read .clientFd, .write .socket, .unlock .write] _ _ rfl (Or.inl rfl) (by simp [Keeps, Big])
    | broadcast => exact later (by simp [Locks]) (by simp [callOps, Keeps, Big])
    | isConnected => exact later (by simp [Locks]) (by simp [callOps, Keeps])
    | setLogger => exact later (by simp [Locks]) (by simp [callOps, Keeps])
    | destroy => exact later (by simp [Locks]) (by simp [callOps, Keeps])

/-- **C93 fails:** if an endpoint, in `unsolicited`, sends a request over the transport that called it, adds an endpoint to it or asks it for its endpoints or its pending requests, then the worker
    hangs, and so does every other thread that is in one of these calls, and the destructor. This holds in each state in which `unsolicited` is called. -/
theorem reentrant_hangs (P : State → Nat → Call → Prop) (Q : Op → Call → Prop) (s : State) (h : Reachable P Q s) (ht : s.terminated = false) (rest : List Op) (hop : s.ops 1 = .unsolicited :: rest)
    (cs : List Call) (hc : ∃ c ∈ cs, Locks c) (r : Round) :
    ∃ s', step s (.exec 1 cs r) = some s' ∧ Hangs s' 1 ∧ (∀ s'', Hangs.Leads s' s'' → (s''.ops 1).head? ≠ some .loop) ∧
      ∀ u, u ≠ 1 → (.join ∈ s.ops u ∨ .lock .request ∈ s.ops u ∨ .lock .endpoint ∈ s.ops u) → Hangs s' u := by
  have hl := lockInv h
  have e : step s (.exec 1 cs r) = some (s.set 1 (cs.flatMap callOps ++ rest)) := by simp [step, ht, hop, exec]
  have hh : hs s 1 = inUnsolicited := by
    have := hl 1
    rw [hop] at this
    exact this.1
  have hl' : LockInv false (s.set 1 (cs.flatMap callOps ++ rest)) := lockInv_exec hl (fun h => by cases h) e
  have hd : Doomed (s.set 1 (cs.flatMap callOps ++ rest)) := by
    refine ⟨?_, ?_, ?_⟩
    · intro m hm
      show s.holder m = some 1
      rw [← hs_iff, hh]
      rcases hm with rfl | rfl <;> rfl
    · simpa using first_lock cs rest hc
    · intro t ht; simpa [ht] using users h t ht
  refine ⟨_, e, ?_, ?_, ?_⟩
  · rintro s' ⟨as, ha⟩ hn
    obtain ⟨pre, m, r, h1, _⟩ := (doomed_runs as _ s' hl' hd ha).1.again
    rw [hn] at h1; simp at h1
  · rintro s' ⟨as, ha⟩ hn
    obtain ⟨pre, m, r, h1, _, hk⟩ := (doomed_runs as _ s' hl' hd ha).1.again
    rw [h1] at hn
    cases pre with
    | nil => simp at hn
    | cons o pre =>
      simp only [List.cons_append, List.head?_cons, Option.some.injEq] at hn
      exact (hk o (by simp)).2.2.2 hn
  · rintro u hu hw s' ⟨as, ha⟩ hn
    obtain ⟨o, ho, _⟩ := (doomed_runs as _ s' hl' hd ha).2 u hu (by
      simp only [set_ops, if_neg hu]
      rcases hw with hw | hw | hw
      · exact ⟨_, hw, Or.inl rfl⟩
      · exact ⟨_, hw, Or.inr ⟨_, Or.inl rfl, rfl⟩⟩
      · exact ⟨_, hw, Or.inr ⟨_, Or.inr rfl, rfl⟩⟩)
    rw [hn] at ho; cases ho

/-- A state in which the worker is about to call `unsolicited`, while another thread wants to add an endpoint. -/
theorem at_unsolicited : ∃ s, Reachable Proper AnyUse s ∧ s.terminated = false ∧ s.ops 0 = callOps .addEndpoint ∧ ∃ rest, s.ops 1 = .unsolicited :: rest := by
  have e : ∃ s, [Act.call 0 .addEndpoint, .exec 1 [] { client := some ⟨false, .endpoint true⟩ }, .exec 1 [] {}, .exec 1 [] {}, .exec 1 [] {}, .exec 1 [] {}, .exec 1 [] {}].foldlM step {} = some s ∧
      s.terminated = false ∧ s.ops 0 = callOps .addEndpoint ∧ ∃ rest, s.ops 1 = .unsolicited :: rest := ⟨_, rfl, rfl, rfl, _, rfl⟩
  obtain ⟨s, e, h⟩ := e
  refine ⟨s, C92.reach _ _ s .init ?_ ?_ e, h⟩
  · intro s t c h; simp only [List.mem_cons, Act.call.injEq, reduceCtorEq, List.not_mem_nil, or_false] at h
    obtain ⟨_, rfl⟩ := h; trivial
  · intro t cs f h; simp at h; rcases h with h | h <;> exact h.2.1

theorem not_NeverHangs : ¬ NeverHangs := fun h => by
  obtain ⟨s, hr, h1, h0, rest, h2⟩ := at_unsolicited
  obtain ⟨s', e, _, _, hh⟩ := reentrant_hangs _ _ s hr h1 _ h2 [.getEndpoint] ⟨.getEndpoint, by simp, trivial⟩ {}
  exact h s' 0 (.exec hr (by simp [AnyUse]) e) (by decide) (hh 0 (by decide) (Or.inr (Or.inr (by rw [h0]; simp [callOps]))))

/-- Dropping the last reference to the transport in an endpoint that it calls terminates the process: the worker would have to wait for itself. -/
theorem destroy_in_endpoint (P : State → Nat → Call → Prop) (Q : Op → Call → Prop) (s : State) (h : Reachable P Q s) (ht : s.terminated = false) (rest : List Op)
    (hop : s.ops 1 = .unsolicited :: rest ∨ s.ops 1 = .handle :: rest) (r : Round) :
    ∃ s', [Act.exec 1 [.destroy] r, .exec 1 [] r, .exec 1 [] r].foldlM step s = some s' ∧ s'.terminated = true := by
  have _ := h
  rcases hop with hop | hop <;> simp [List.foldlM_cons, step, ht, hop, exec, callOps]

/-- **C93, partial.** If endpoints make only broadcasts and ask for the connection in `unsolicited`, and anything but destroying the transport and setting its logger in `handle`, then no call
    hangs, whatever the threads are doing: every call, and the destructor, can finish, with steps of threads in calls they have already made, and the worker can get to the end of its iteration.
    Missing: the other calls in `unsolicited`. Reading from and writing to sockets is taken not to block. -/
theorem never_hangs_partial (s : State) (h : Reachable Proper Careful s) :
    (∀ t, t ≠ 1 → ¬ Hangs s t) ∧ ∃ s', Hangs.Leads s s' ∧ (s'.ops 1 = [] ∨ (s'.ops 1).head? = some .loop) := by
  have hg : Good s := good (Q := Careful) (fun o c hc => by
      have : o = .unsolicited ∨ o ≠ .unsolicited := by cases o <;> simp
      rcases this with rfl | ho
      · cases c <;> simp_all [Careful, Light, Call.owner]
      · have : AnyUse .handle c := by cases o <;> first | exact hc | exact absurd rfl ho
        exact C92.any_owner _ c this) (fun c hc => hc) h
  refine ⟨fun t ht hh => ?_, ?_⟩
  · obtain ⟨s', h1, _, h2⟩ := finishes hg ht
    exact hh s' h1.leads h2
  · obtain ⟨s', h1, _, h2, _⟩ := worker_gets_on hg
    refine ⟨s', h1.leads, ?_⟩
    rcases h2 with h2 | h2
    · exact Or.inl h2
    · exact Or.inr h2.1

/-- A state in which the destructor waits for the worker, which is in `unsolicited` of an endpoint that makes a broadcast. -/
example : ∃ s, Reachable Proper Careful s ∧ s.ops 0 = [.join, .closeAll] ∧ (s.ops 1).head? = some (.lock .broadcast) ∧ s.holder .request = some 1 := by
  have e1 : ∃ s, [Act.exec 1 [] { client := some ⟨false, .endpoint true⟩ }, .exec 1 [] {}, .exec 1 [] {}, .exec 1 [] {}, .exec 1 [] {}, .exec 1 [] {}].foldlM step {} = some s ∧
      (s.ops 1).head? = some .unsolicited ∧ (∀ u, u ≠ 1 → s.ops u = []) ∧
      ∃ s1, step s (.exec 1 [.broadcast] {}) = some s1 ∧ (∀ u, u ≠ 1 → s1.ops u = []) ∧
      ∃ s2, step s1 (.call 0 .destroy) = some s2 ∧ ∃ s3, step s2 (.exec 0 [] {}) = some s3 ∧ s3.ops 0 = [.join, .closeAll] ∧ (s3.ops 1).head? = some (.lock .broadcast) ∧ s3.holder .request = some 1 := by
    refine ⟨_, rfl, rfl, fun u hu => ?_, _, rfl, fun u hu => ?_, _, rfl, _, rfl, rfl, rfl, rfl⟩
    · simp [hu]
    · simp [hu]
  obtain ⟨s, e, hu, _, s1, es1, hn, s2, es2, s3, es3, h⟩ := e1
  have r0 : Reachable Proper Careful s := C92.reach _ _ s .init (by intro s t c h; simp at h) (by intro t cs f h; simp at h; rcases h with h | h <;> exact h.2.1) e
  have r1 : Reachable Proper Careful s1 := .exec r0 (by rw [hu]; intro o ho c hc; simp at ho hc; subst ho; subst hc; trivial) es1
  exact ⟨s3, .exec (.call (t := 0) (c := .destroy) r1 ⟨rfl, hn⟩ es2) (by simp) es3, h⟩

end Scalopus.C93
