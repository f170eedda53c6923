import Verif.Proofs.ManagerProgress

/-!
# C88, C89: the threads that use an endpoint manager
-/

namespace Scalopus.C88

open ManagerThreads

/-- **C88** in full: used by any number of threads, of which one sets the logger and starts and stops the polling, the manager has no data race. -/
def NoRace : Prop := ∀ s v, Reachable Owner Owner s → ¬ RaceOn s v

/-- A history: each action with the calls of the functions of the user. -/
theorem reach {P Q : Nat → Call → Prop} (as : List Act) (s s' : State) (hs : Reachable P Q s) (hP : ∀ t c, .call t c ∈ as → P t c)
    (hQ : ∀ t cs f, .exec t cs f ∈ as → cs = []) (e : as.foldlM step s = some s') : Reachable P Q s' := by
  induction as generalizing s with
  | nil => simp only [List.foldlM_nil, Option.pure_def, Option.some.injEq] at e; subst e; exact hs
  | cons a as ih =>
    simp only [List.foldlM_cons] at e
    cases h1 : step s a with
    | none => rw [h1] at e; cases e
    | some s1 =>
      rw [h1] at e
      refine ih s1 ?_ (fun t c h => hP t c (by simp [h])) (fun t cs f h => hQ t cs f (by simp [h])) e
      cases a with
      | call t c => exact .call hs (hP t c (by simp)) h1
      | exec t cs f =>
        refine .exec hs ?_ h1
        rw [hQ t cs f (by simp)]
        simp

/-- **C88 fails** whenever the polling is stopped, or the manager destroyed: `is_polling_` is written while the polling thread may be reading it. -/
theorem polling_race : ∃ s, Reachable Owner Quiet s ∧ RaceOn s .polling := by
  have e : ∃ s, [Act.call 0 .start, .exec 0 [] {}, .exec 0 [] {}, .exec 0 [] {}, .exec 0 [] {}, .call 0 .stop, .exec 0 [] {}].foldlM step {} = some s ∧
      s.ops 0 = [.clearPolling, .join] ∧ s.ops 1 = [.loop] := ⟨_, rfl, rfl, rfl⟩
  obtain ⟨s, e, h0, h1⟩ := e
  refine ⟨s, reach _ _ s .init ?_ ?_ e, 0, 1, false, by decide, ⟨_, _, h0, rfl⟩, ⟨_, _, h1, rfl⟩⟩
  · intro t c h; simp only [List.mem_cons, Act.call.injEq, reduceCtorEq, List.not_mem_nil, or_false, false_or] at h
    rcases h with ⟨rfl, rfl⟩ | ⟨rfl, rfl⟩ <;> rfl
  · intro t cs f h; simp at h; exact h.2.1

/-- **C88 fails** when the logger is set after the polling has started, as the command of the Python package does: the polling thread may be about to call it. -/
theorem logger_race : ∃ s, Reachable Owner Quiet s ∧ RaceOn s .logger := by
  have e : ∃ s, [Act.call 0 .start, .exec 0 [] {}, .exec 0 [] {}, .exec 0 [] {}, .exec 0 [] {}, .exec 1 [] { lost := 0, dests := [.failed] }, .exec 1 [] {}, .exec 1 [] {}, .exec 1 [] {},
      .call 0 .setLogger].foldlM step {} = some s ∧
      s.ops 0 = [.setLogger] ∧ s.ops 1 = [.log, .log, .unlock, .sleep, .loop] := ⟨_, rfl, rfl, rfl⟩
  obtain ⟨s, e, h0, h1⟩ := e
  refine ⟨s, reach _ _ s .init ?_ ?_ e, 0, 1, false, by decide, ⟨_, _, h0, rfl⟩, ⟨_, _, h1, rfl⟩⟩
  · intro t c h; simp only [List.mem_cons, Act.call.injEq, reduceCtorEq, List.not_mem_nil, or_false, false_or] at h
    rcases h with ⟨rfl, rfl⟩ | ⟨rfl, rfl⟩ <;> rfl
  · intro t cs f h; simp at h; rcases h with h | h | h | h | h | h <;> simp_all

theorem mono {P Q Q' : Nat → Call → Prop} (hQ : ∀ t c, Q t c → Q' t c) {s : State} (h : Reachable P Q s) : Reachable P Q' s := by
  induction h with
  | init => exact .init
  | call _ hc e ih => exact .call ih hc e
  | exec _ hc e ih => exact .exec ih (fun c hm => hQ _ c (hc c hm)) e

theorem not_NoRace : ¬ NoRace := fun h => by
  obtain ⟨s, hr, h2⟩ := polling_race
  exact h s _ (mono (fun _ _ h => h.elim) hr) h2

/-! ### The races are possible every time -/

/-- Steps of threads other than the owner, in calls they have already made; the functions of the user return at once, and rounds of the polling thread find what they find. -/
inductive Others : State → State → Prop
  | refl (s : State) : Others s s
  | cons {s s1 s' : State} {t : Nat} {f : Found} : t ≠ 0 → step s (.exec t [] f) = some s1 → Others s1 s' → Others s s'

theorem Others.trans {a b c : State} (h : Others a b) (h2 : Others b c) : Others a c := by
  induction h with
  | refl => exact h2
  | cons ht e _ ih => exact .cons ht e (ih h2)

theorem Others.reachable {s s' : State} (h : Others s s') (hr : Reachable Owner Quiet s) : Reachable Owner Quiet s' := by
  induction h with
  | refl => exact hr
  | cons _ e _ ih => exact ih (.exec hr (by simp) e)

/-- The polling thread exists as long as it is told to poll. -/
theorem loop_inv {s : State} (h : Reachable Owner Quiet s) : s.polling = true → s.joinable = true → Op.loop ∈ s.ops 1 := by
  induction h with
  | init => intro h; cases h
  | @call s s' t c hr _ e ih =>
    simp only [step] at e
    split at e
    · next h1 =>
      cases e
      intro h2 h3
      have := ih h2 h3
      simpa [Ne.symm h1.2.1] using this
    · cases e
  | @exec s s' t cs f hr hc e ih =>
    have hcs : cs = [] := by
      cases cs with
      | nil => rfl
      | cons c cs => exact (hc c (by simp)).elim
    subst hcs
    have hg := good hr
    have hfine := hg.owner.fine
    simp only [step, hfine] at e
    cases ho : s.ops t with
    | nil => rw [ho] at e; simp at e
    | cons o rest =>
      rw [ho] at e
      simp only [Bool.false_eq_true, if_false] at e
      have keep : o ≠ .loop → s.polling = true → s.joinable = true → Op.loop ∈ (if 1 = t then rest else s.ops 1) := by
        intro hno h2 h3
        have := ih h2 h3
        split
        · next e1 => subst e1; rw [ho] at this; simpa [Ne.symm hno] using this
        · exact this
      have hph := hg.owner.phase
      have h0 : o.owner = true → t = 0 := fun hw => Classical.byContradiction fun ht => by
        have := hg.owner.others t ht o (by rw [ho]; simp)
        rw [hw] at this; cases this
      cases o <;> simp only [exec] at e
      case lock => split at e <;> cases e; exact keep (by simp)
      case unlock => cases e; exact keep (by simp)
      case readMaps => cases e; exact keep (by simp)
      case writeMaps => cases e; exact keep (by simp)
      case log => cases e; intro h2 h3; have := keep (by simp) h2 h3; simpa using this
      case factory => cases e; intro h2 h3; have := keep (by simp) h2 h3; simpa using this
      case setLogger => cases e; exact keep (by simp)
      case testStop =>
        cases e
        have ht := h0 rfl
        subst ht
        intro h2 h3
        have := ih h2 h3
        simpa using this
      case clearPolling => cases e; intro h2; cases h2
      case join =>
        split at e
        · cases e; intro h2 h3; exact ih h2 h3
        · split at e <;> cases e
          intro _ h3; cases h3
      case setPolling =>
        cases e
        have ht := h0 rfl
        subst ht
        rw [ho] at hph
        intro _ h3
        simp only [set_joinable] at h3
        rw [h3] at hph
        generalize s.polling = p at hph
        cases hph with
        | tidy ht => cases ht; simp_all
      case setInterval => cases e; exact keep (by simp)
      case spawn =>
        split at e <;> cases e
        · intro h2 h3; exact ih h2 h3
        · intro _ _; simp
      case loop =>
        cases e
        intro h2 h3
        simp only [set_polling] at h2
        by_cases ht : 1 = t
        · simp [ht, h2]
        · simpa [ht] using ih h2 h3
      case sleep => cases e; exact keep (by simp)

/-- Another thread than the owner that holds the lock releases it. -/
theorem release_other {u : Nat} (hu : u ≠ 0) : ∀ (n : Nat) (s : State), (s.ops u).length ≤ n → Good s → s.holder = some u →
    ∃ s', Others s s' ∧ s'.holder = none ∧ s'.polling = s.polling ∧ s'.joinable = s.joinable ∧ ∀ t, t ≠ u → s'.ops t = s.ops t := by
  intro n
  induction n with
  | zero =>
    intro s hn hg hh
    have h0 : s.ops u = [] := List.eq_nil_of_length_eq_zero (by omega)
    have := hg.strict u
    rw [h0] at this
    have h1 : held s.holder u = false := this
    simp [held, hh] at h1
  | succ n ih =>
    intro s hn hg hh
    have hst := hg.strict u
    have hterm := hg.owner.fine
    rw [show held s.holder u = true from held_iff.mpr hh] at hst
    cases hs : s.ops u with
    | nil => rw [hs] at hst; simp [Strict] at hst
    | cons o rest =>
      rw [hs] at hst
      have hlen : rest.length ≤ n := by rw [hs] at hn; simp at hn; exact hn
      have one : step s (.exec u [] {}) = some (s.set u rest) → ∃ s', Others s s' ∧ s'.holder = none ∧ s'.polling = s.polling ∧ s'.joinable = s.joinable ∧ ∀ t, t ≠ u → s'.ops t = s.ops t := by
        intro e
        obtain ⟨s', h1, h2, h3, h4, h5⟩ := ih (s.set u rest) (by simpa using hlen) (good_step hg e) hh
        exact ⟨s', .cons hu e h1, h2, h3, h4, fun t ht => by rw [h5 t ht]; simp [ht]⟩
      cases o <;> simp [Strict] at hst
      case unlock =>
        have e : step s (.exec u [] {}) = some { s.set u rest with holder := none } := by simp [step, hterm, hs, exec]
        exact ⟨_, .cons hu e (.refl _), rfl, rfl, rfl, fun t ht => by simp [ht]⟩
      case readMaps => exact one (by simp [step, hterm, hs, exec])
      case writeMaps => exact one (by simp [step, hterm, hs, exec])
      case log => exact one (by simp [step, hterm, hs, exec])
      case factory => exact one (by simp [step, hterm, hs, exec])

/-- The polling thread, if no other thread holds the lock, comes to where it looks whether it should go on. -/
theorem to_loop : ∀ (n : Nat) (s : State), (s.ops 1).length ≤ n → Good s → (s.holder = none ∨ s.holder = some 1) → Op.loop ∈ s.ops 1 →
    ∃ s', Others s s' ∧ s'.holder = none ∧ s'.polling = s.polling ∧ (∃ rest, s'.ops 1 = .loop :: rest) ∧ ∀ t, t ≠ 1 → s'.ops t = s.ops t := by
  intro n
  induction n with
  | zero =>
    intro s hn _ _ hl
    rw [List.eq_nil_of_length_eq_zero (by omega : (s.ops 1).length = 0)] at hl
    cases hl
  | succ n ih =>
    intro s hn hg hh hl
    have hst := hg.strict 1
    have hterm := hg.owner.fine
    cases hs : s.ops 1 with
    | nil => rw [hs] at hl; cases hl
    | cons o rest =>
      rw [hs] at hst hl
      have hlen : rest.length ≤ n := by rw [hs] at hn; simp at hn; exact hn
      have hown : o.owner = false := hg.owner.others 1 (by decide) o (by rw [hs]; simp)
      have one : o ≠ .loop → ∀ hd : Option Nat, step s (.exec 1 [] {}) = some { s.set 1 rest with holder := hd } → (hd = none ∨ hd = some 1) →
          ∃ s', Others s s' ∧ s'.holder = none ∧ s'.polling = s.polling ∧ (∃ rest, s'.ops 1 = .loop :: rest) ∧ ∀ t, t ≠ 1 → s'.ops t = s.ops t := by
        intro hno hd e hhd
        obtain ⟨s', h1, h2, h3, h4, h5⟩ := ih { s.set 1 rest with holder := hd } (by simpa using hlen) (good_step hg e) hhd (by simpa [Ne.symm hno] using hl)
        exact ⟨s', .cons (by decide) e h1, h2, h3, h4, fun t ht => by rw [h5 t ht]; simp [ht]⟩
      cases o <;> simp [Op.owner] at hown
      case lock =>
        have hno : s.holder = none := by
          rcases hh with hh | hh
          · exact hh
          · have := hst.1
            simp [held, hh] at this
        exact one (by simp) (some 1) (by simp [step, hterm, hs, exec, hno]) (Or.inr rfl)
      case unlock => exact one (by simp) none (by simp [step, hterm, hs, exec]) (Or.inl rfl)
      case readMaps => exact one (by simp) s.holder (by show _ = some (s.set 1 rest); simp [step, hterm, hs, exec]) hh
      case writeMaps => exact one (by simp) s.holder (by show _ = some (s.set 1 rest); simp [step, hterm, hs, exec]) hh
      case log => exact one (by simp) s.holder (by show _ = some (s.set 1 rest); simp [step, hterm, hs, exec]) hh
      case factory => exact one (by simp) s.holder (by show _ = some (s.set 1 rest); simp [step, hterm, hs, exec]) hh
      case sleep => exact one (by simp) s.holder (by show _ = some (s.set 1 rest); simp [step, hterm, hs, exec]) hh
      case loop =>
        refine ⟨s, .refl s, ?_, rfl, ⟨rest, hs⟩, fun _ _ => rfl⟩
        rcases hh with hh | hh
        · exact hh
        · have := hst.1
          simp [held, hh] at this

/-- While polling is on and the owner does not hold the lock, the other threads can go on so that the polling thread is about to look whether it should go on. -/
theorem poller_looks {s : State} (h : Reachable Owner Quiet s) (hp : s.polling = true) (hj : s.joinable = true) (hh : s.holder ≠ some 0) :
    ∃ s', Others s s' ∧ s'.holder = none ∧ s'.polling = true ∧ (∃ rest, s'.ops 1 = .loop :: rest) ∧ s'.ops 0 = s.ops 0 := by
  have hl := loop_inv h hp hj
  cases hd : s.holder with
  | none =>
    obtain ⟨s', h1, h2, h3, h4, h5⟩ := to_loop _ s (Nat.le_refl _) (good h) (.inl hd) hl
    exact ⟨s', h1, h2, h3.trans hp, h4, h5 0 (by decide)⟩
  | some u =>
    by_cases hu : u = 1
    · subst hu
      obtain ⟨s', h1, h2, h3, h4, h5⟩ := to_loop _ s (Nat.le_refl _) (good h) (.inr hd) hl
      exact ⟨s', h1, h2, h3.trans hp, h4, h5 0 (by decide)⟩
    · have hu0 : u ≠ 0 := fun e => hh (by rw [hd, e])
      obtain ⟨s1, h1, h2, h3, h4, h5⟩ := release_other hu0 _ s (Nat.le_refl _) (good h) hd
      obtain ⟨s', g1, g2, g3, g4, g5⟩ := to_loop _ s1 (Nat.le_refl _) (good (h1.reachable h)) (.inl h2) (by rw [h5 1 (Ne.symm hu)]; exact hl)
      exact ⟨s', h1.trans g1, g2, by rw [g3, h3, hp], g4, by rw [g5 0 (by decide), h5 0 (Ne.symm hu0)]⟩

theorem not_holding {s : State} (hg : Good s) {t : Nat} {o : Op} {rest : List Op} (ho : s.ops t = o :: rest) (hs : Strict true (o :: rest) → False) : s.holder ≠ some t := by
  intro hh
  have := hg.strict t
  rw [ho, held_iff.mpr hh] at this
  exact hs this

/-- **C88 fails, every time the polling is stopped:** whenever the owner is about to tell the polling thread to end, the other threads can go on so that the polling thread is about to look at the same bool. -/
theorem polling_race_always (s : State) (h : Reachable Owner Quiet s) (rest : List Op) (h0 : s.ops 0 = .clearPolling :: rest) : ∃ s', Others s s' ∧ s'.ops 0 = .clearPolling :: rest ∧ RaceOn s' .polling := by
  have hg := good h
  have hph := hg.owner.phase
  rw [h0] at hph
  have hpj : s.polling = true ∧ s.joinable = true := by
    generalize s.polling = p, s.joinable = j at hph
    cases hph with
    | tidy ht => cases ht; simp_all
    | clear => exact ⟨rfl, rfl⟩
  obtain ⟨s', h1, _, _, ⟨r, h4⟩, h5⟩ := poller_looks h hpj.1 hpj.2 (not_holding hg h0 (by simp [Strict]))
  rw [h0] at h5
  exact ⟨s', h1, h5, 0, 1, false, by decide, ⟨_, _, h5, rfl⟩, ⟨_, _, h4, rfl⟩⟩

/-- **C88 fails, every time the logger is set while polling is on:** whatever the threads are doing, the other threads can go on so that the polling thread, which has found a destination it cannot connect to, is about to
    use the logger. -/
theorem logger_race_always (s : State) (h : Reachable Owner Quiet s) (hp : s.polling = true) (rest : List Op) (h0 : s.ops 0 = .setLogger :: rest) : ∃ s', Others s s' ∧ s'.ops 0 = .setLogger :: rest ∧ RaceOn s' .logger := by
  have hg := good h
  have hph := hg.owner.phase
  rw [h0, hp] at hph
  have hj : s.joinable = true := by
    generalize s.joinable = j at hph
    cases hph with
    | tidy ht => rfl
  obtain ⟨s1, h1, h2, h3, ⟨r, h4⟩, h5⟩ := poller_looks h hp hj (not_holding hg h0 (by simp [Strict]))
  rw [h0] at h5
  have ht := (good (h1.reachable h)).owner.fine
  let l : List Op := [.sleep, .loop]
  have e1 : step s1 (.exec 1 [] { dests := [.failed] }) = some (s1.set 1 (.lock :: .readMaps :: .readMaps :: .log :: .log :: .unlock :: l)) := by simp [step, ht, h4, exec, h3, manageOps, destOps, l]
  let s2 := s1.set 1 (.lock :: .readMaps :: .readMaps :: .log :: .log :: .unlock :: l)
  let s3 : State := { s2.set 1 (.readMaps :: .readMaps :: .log :: .log :: .unlock :: l) with holder := some 1 }
  let s4 := s3.set 1 (.readMaps :: .log :: .log :: .unlock :: l)
  let s5 := s4.set 1 (.log :: .log :: .unlock :: l)
  have e2 : step s2 (.exec 1 [] {}) = some s3 := by simp [step, s2, s3, ht, exec, h2]
  have e3 : step s3 (.exec 1 [] {}) = some s4 := by simp [step, s2, s3, s4, ht, exec]
  have e4 : step s4 (.exec 1 [] {}) = some s5 := by simp [step, s2, s3, s4, s5, ht, exec]
  have h6 : s5.ops 0 = .setLogger :: rest := by simp [s2, s3, s4, s5, h5]
  exact ⟨s5, h1.trans (.cons (by decide) e1 (.cons (by decide) e2 (.cons (by decide) e3 (.cons (by decide) e4 (.refl _))))), h6, 0, 1, false, by decide, ⟨_, _, h6, rfl⟩, ⟨.log, .log :: .unlock :: l, by simp [s5], rfl⟩⟩

/-- The owner stops the polling while the polling thread waits for a lock that another thread holds. -/
example : ∃ s, Reachable Owner Quiet s ∧ s.ops 0 = [.clearPolling, .join] ∧ (s.ops 1).head? = some .lock ∧ s.holder = some 2 := by
  have e : ∃ s, [Act.call 0 .start, .exec 0 [] {}, .exec 0 [] {}, .exec 0 [] {}, .exec 0 [] {}, .call 2 .endpoints, .exec 2 [] {}, .exec 1 [] {}, .call 0 .stop, .exec 0 [] {}].foldlM step {} = some s ∧
      s.ops 0 = [.clearPolling, .join] ∧ (s.ops 1).head? = some .lock ∧ s.holder = some 2 := ⟨_, rfl, rfl, rfl, rfl⟩
  obtain ⟨s, e, h⟩ := e
  refine ⟨s, reach _ _ s .init ?_ ?_ e, h⟩
  · intro t c h; simp only [List.mem_cons, Act.call.injEq, reduceCtorEq, List.not_mem_nil, or_false, false_or] at h
    rcases h with ⟨rfl, rfl⟩ | ⟨rfl, rfl⟩ | ⟨rfl, rfl⟩ <;> trivial
  · intro t cs f h; simp at h; rcases h with h | h | h | h <;> exact h.2.1

/-- **C88, the maps.** Whatever the threads call, and whatever the functions of the user call, no two threads race for the maps of transports, endpoints and factories. -/
theorem maps_safe (P Q : Nat → Call → Prop) (s : State) (h : Reachable P Q s) : ¬ RaceOn s .maps := by
  rintro ⟨t, u, w, htu, ⟨o1, r1, e1, a1⟩, ⟨o2, r2, e2, a2⟩⟩
  have hl := lockInv h
  have key : ∀ (o : Op) (w : Bool), o.access = some (.maps, w) → o ∈ [Op.readMaps, .writeMaps, .log, .factory, .unlock] := by
    intro o w; cases o <;> simp [Op.access]
  have h1 := holds hl e1 (key _ _ a1)
  have h2 := holds hl e2 (key _ _ a2)
  rw [h1] at h2
  exact htu (by simpa using h2)

/-- **C88, partial.** There are no other races: if one thread sets the logger and starts and stops the polling, then a race is either between this thread, which is stopping the
    polling, and the polling thread, which looks whether it should go on, or between this thread, which is setting the logger, and a thread that is about to write to the log.
    Missing: these two. -/
theorem no_other_race_partial (s : State) (v : Var) (h : Reachable Owner Owner s) (hr : RaceOn s v) :
    (v = .polling ∧ s.accesses 0 .polling true ∧ s.polling = true ∧ s.ops 1 = [.loop] ++ (s.ops 1).tail) ∨
    (v = .logger ∧ s.accesses 0 .logger true ∧ ∃ u, u ≠ 0 ∧ s.accesses u .logger false) := by
  have hl := lockInv h
  have ho := ownerInv (fun _ _ h => h) h
  have hrr := hr
  obtain ⟨t, u, w, htu, ⟨o1, r1, e1, a1⟩, ⟨o2, r2, e2, a2⟩⟩ := hr
  have own : ∀ t o r, s.ops t = o :: r → o.owner = true → t = 0 := by
    intro t o r e hw
    refine Classical.byContradiction fun ht => ?_
    have := ho.others t ht o (by rw [e]; simp)
    rw [hw] at this
    cases this
  have wor : ∀ t o r, s.ops t = o :: r → o = .loop ∨ o = .sleep → t = 1 := by
    intro t o r e hw
    refine Classical.byContradiction fun ht => ?_
    have := ho.worker t ht o (by rw [e]; simp)
    rcases hw with hw | hw
    · exact this.1 hw
    · exact this.2 hw
  cases v with
  | maps => exact absurd hrr (maps_safe _ _ s h)
  | logger =>
    have ht : t = 0 := own t o1 r1 e1 (by cases o1 <;> simp_all [Op.access, Op.owner])
    subst ht
    refine Or.inr ⟨rfl, ⟨o1, r1, e1, a1⟩, u, Ne.symm htu, ?_⟩
    cases w with
    | false => exact ⟨o2, r2, e2, a2⟩
    | true => exact absurd (own u o2 r2 e2 (by cases o2 <;> simp_all [Op.access, Op.owner])) (Ne.symm htu)
  | polling =>
    have ht : t = 0 := own t o1 r1 e1 (by cases o1 <;> simp_all [Op.access, Op.owner])
    subst ht
    have hu : o2 = .loop := by
      cases o2 <;> simp [Op.access] at a2
      · exact absurd (own u _ r2 e2 rfl) (Ne.symm htu)
      · exact absurd (own u _ r2 e2 rfl) (Ne.symm htu)
      · exact absurd (own u _ r2 e2 rfl) (Ne.symm htu)
      · rfl
    subst hu
    have hu1 := wor u _ r2 e2 (Or.inl rfl)
    subst hu1
    have hj := hl.alive (by rw [e2]; simp)
    have hp := ho.phase
    rw [e1, hj] at hp
    refine Or.inl ⟨rfl, ⟨o1, r1, e1, a1⟩, ?_, by rw [e2]; rfl⟩
    generalize s.polling = p at hp
    cases hp with
    | tidy _ => rfl
    | clear _ => rfl
    | join _ => simp [Op.access] at a1
  | interval =>
    have ht : t = 0 := own t o1 r1 e1 (by cases o1 <;> simp_all [Op.access, Op.owner])
    subst ht
    have h1 : o1 = .setInterval := by cases o1 <;> simp [Op.access] at a1; rfl
    subst h1
    have hj : s.joinable = false := by
      have hp := ho.phase
      rw [e1] at hp
      generalize s.polling = p, s.joinable = j at hp
      cases hp with
      | tidy ht => cases ht with | one hn => simp at hn
      | setInterval _ => rfl
    have hu : o2 = .sleep := by
      cases o2 <;> simp [Op.access] at a2
      · exact absurd (own u _ r2 e2 rfl) (Ne.symm htu)
      · rfl
    subst hu
    have hu1 := wor u _ r2 e2 (Or.inr rfl)
    subst hu1
    have := hl.alive (by rw [e2]; simp)
    rw [hj] at this
    cases this

/-- Used in this way, starting and stopping the polling never terminates the process. -/
theorem never_terminates (s : State) (h : Reachable Owner Owner s) : s.terminated = false := (ownerInv (fun _ _ h => h) h).fine

/-- While the polling thread is in `manage`, another thread that asks for the endpoints waits. -/
example : ∃ s, [Act.call 0 .start, .exec 0 [] {}, .exec 0 [] {}, .exec 0 [] {}, .exec 0 [] {}, .exec 1 [] { lost := 0, dests := [.connected [.made, .null]] }, .exec 1 [] {}, .exec 1 [] {},
    .call 2 .endpoints].foldlM step {} = some s ∧ s.holder = some 1 ∧ s.ops 2 = [.lock, .readMaps, .unlock] ∧ (step s (.exec 2 [] {})).isNone := ⟨_, rfl, rfl, rfl, rfl⟩

end Scalopus.C88

namespace Scalopus.C89

open ManagerThreads

/-- **C89** in full: a logger or a factory may use the manager; no thread is ever stuck in a call for good. -/
def NeverHangs : Prop := ∀ s t, Reachable Owner Owner s → t ≠ 1 → ¬ Hangs s t

/-- A call that needs the lock. -/
def Locks : Call → Prop
  | .manage _ | .endpoints | .addFactory => True
  | _ => False

theorem hang_keep {s s' : State} {t : Nat} (hl : LockInv s) (hh : s.holder = some t) {r : List Op} (ht : s.ops t = .lock :: r) {a : Act} (e : step s a = some s') :
    s'.holder = some t ∧ s'.ops t = .lock :: r ∧ (∀ u r', u ≠ t → s.ops u = .lock :: r' → s'.ops u = .lock :: r') := by
  cases a with
  | call u c =>
    simp only [step] at e
    split at e
    · rename_i hc
      simp only [Option.some.injEq] at e
      subst e
      have hu : t ≠ u := by rintro rfl; rw [ht] at hc; simp at hc
      refine ⟨hh, by simpa [hu] using ht, ?_⟩
      intro x r' hx e'
      have : x ≠ u := by rintro rfl; rw [e'] at hc; simp at hc
      simpa [this] using e'
    · cases e
  | exec u cs f =>
    simp only [step] at e
    split at e
    · cases e
    · split at e
      · cases e
      rename_i o rest ho
      have hlk : o ≠ .lock := by
        rintro rfl
        simp [exec, hh] at e
      have hul : o ≠ .unlock := by
        rintro rfl
        have := holds hl ho (by simp)
        rw [hh] at this
        simp only [Option.some.injEq] at this
        subst this
        rw [ht] at ho
        cases ho
      have hut : t ≠ u := by
        rintro rfl
        rw [ht] at ho
        injection ho with h1 h2
        exact hlk h1.symm
      have hx : ∀ x r', s.ops x = .lock :: r' → x ≠ u := by
        intro x r' e' hxu
        subst hxu
        rw [ho] at e'
        injection e' with h1 h2
        exact hlk h1
      have h1 : o = .spawn → s.joinable = false → s.ops 1 = [] := by
        intro _ hj
        refine Classical.byContradiction fun hn => ?_
        have := hl.alive hn
        rw [hj] at this
        cases this
      cases o <;> simp only [exec] at e
      case lock => exact absurd rfl hlk
      case unlock => exact absurd rfl hul
      case join =>
        split at e
        · simp only [Option.some.injEq] at e
          subst e
          exact ⟨hh, ht, fun _ _ _ h => h⟩
        · split at e
          · simp only [Option.some.injEq] at e
            subst e
            exact ⟨hh, by simpa [hut] using ht, fun x r' _ e' => by simpa [hx x r' e'] using e'⟩
          · cases e
      case spawn =>
        split at e
        · simp only [Option.some.injEq] at e
          subst e
          exact ⟨hh, ht, fun _ _ _ h => h⟩
        · rename_i hj
          have h1 := h1 rfl (by simpa using hj)
          simp only [Option.some.injEq] at e
          subst e
          have hne : ∀ x r', s.ops x = .lock :: r' → x ≠ 1 := by
            rintro x r' e' rfl
            rw [h1] at e'
            cases e'
          exact ⟨hh, by simpa [hut, hne t r ht] using ht, fun x r' _ e' => by simpa [hx x r' e', hne x r' e'] using e'⟩
      all_goals
        simp only [Option.some.injEq] at e
        subst e
        exact ⟨hh, by simpa [hut] using ht, fun x r' _ e' => by simpa [hx x r' e'] using e'⟩

theorem hang_runs {t : Nat} {r : List Op} : ∀ (as : List Act) (s s' : State), LockInv s → s.holder = some t → s.ops t = .lock :: r → as.foldlM step s = some s' →
    s'.ops t = .lock :: r ∧ ∀ u r', u ≠ t → s.ops u = .lock :: r' → s'.ops u = .lock :: r' := by
  intro as
  induction as with
  | nil => intro s s' _ _ ht e; simp only [List.foldlM_nil, Option.pure_def, Option.some.injEq] at e; subst e; exact ⟨ht, fun _ _ _ h => h⟩
  | cons a as ih =>
    intro s s' hl hh ht e
    simp only [List.foldlM_cons] at e
    cases h1 : step s a with
    | none => rw [h1] at e; cases e
    | some s1 =>
      rw [h1] at e
      obtain ⟨k1, k2, k3⟩ := hang_keep hl hh ht h1
      have hl1 : LockInv s1 := by
        cases a with
        | call => exact lockInv_call hl h1
        | exec => exact lockInv_exec hl h1
      obtain ⟨j1, j2⟩ := ih s1 s' hl1 k1 k2 e
      exact ⟨j1, fun u r' hu e' => j2 u r' hu (k3 u r' hu e')⟩

/-- **C89 fails:** a factory, or a logger that is set, that first of all asks the manager for its endpoints, adds a factory or calls `manage`, hangs; and with it every thread that
    waits for the manager. This holds for each thread and in each state. -/
theorem reentrant_hangs (P Q : Nat → Call → Prop) (s : State) (h : Reachable P Q s) (ht : s.terminated = false) (t : Nat) (rest : List Op)
    (hop : s.ops t = .factory :: rest ∨ (s.ops t = .log :: rest ∧ s.hasLogger = true)) (c : Call) (hc : Locks c) (cs : List Call) (f : Found) :
    ∃ s', step s (.exec t (c :: cs) f) = some s' ∧ Hangs s' t ∧ ∀ u, u ≠ t → (s.ops u).head? = some .lock → Hangs s' u := by
  have hl := lockInv h
  have hh : s.holder = some t := by
    rcases hop with e | ⟨e, _⟩
    · exact holds hl e (by simp)
    · exact holds hl e (by simp)
  obtain ⟨r, hr⟩ : ∃ r, callOps c = .lock :: r := by
    cases c with
    | manage f => exact ⟨_, rfl⟩
    | endpoints => exact ⟨_, rfl⟩
    | addFactory => exact ⟨_, rfl⟩
    | _ => exact hc.elim
  have e : step s (.exec t (c :: cs) f) = some (s.set t ((c :: cs).flatMap callOps ++ rest)) := by
    rcases hop with e | ⟨e, hlg⟩
    · simp [step, ht, e, exec]
    · simp [step, ht, e, exec, hlg]
  refine ⟨_, e, ?_, ?_⟩
  · rintro s' ⟨as, ha⟩
    have := (hang_runs (t := t) (r := r ++ cs.flatMap callOps ++ rest) as _ s' (lockInv_exec hl e) hh (by simp [hr]) ha).1
    rw [this]; simp
  · intro u hu hlock s' ⟨as, ha⟩
    obtain ⟨r', hr'⟩ : ∃ r', s.ops u = .lock :: r' := by
      cases hs : s.ops u with
      | nil => rw [hs] at hlock; cases hlock
      | cons o l => rw [hs] at hlock; simp only [List.head?_cons, Option.some.injEq] at hlock; exact ⟨l, by rw [hlock]⟩
    have := (hang_runs (t := t) (r := r ++ cs.flatMap callOps ++ rest) as _ s' (lockInv_exec hl e) hh (by simp [hr]) ha).2 u r' hu (by simpa [hu] using hr')
    rw [this]; simp

/-- A state in which the owner is about to call a factory. -/
theorem at_factory : ∃ s, Reachable Owner Owner s ∧ s.terminated = false ∧ s.ops 0 = [.factory, .writeMaps, .unlock] := by
  have e : ∃ s, [Act.call 0 (.manage { dests := [.connected [.made]] }), .exec 0 [] {}, .exec 0 [] {}, .exec 0 [] {}, .exec 0 [] {}, .exec 0 [] {}, .exec 0 [] {}].foldlM step {} = some s ∧
      s.terminated = false ∧ s.ops 0 = [.factory, .writeMaps, .unlock] := ⟨_, rfl, rfl, rfl⟩
  obtain ⟨s, e, h1, h2⟩ := e
  refine ⟨s, C88.reach _ _ s .init ?_ ?_ e, h1, h2⟩
  · intro t c h; simp only [List.mem_cons, Act.call.injEq, reduceCtorEq, List.not_mem_nil, or_false] at h
    obtain ⟨_, rfl⟩ := h; trivial
  · intro t cs f h; simp at h; exact h.2.1

theorem not_NeverHangs : ¬ NeverHangs := fun h => by
  obtain ⟨s, hr, h1, h2⟩ := at_factory
  obtain ⟨s', e, hh, _⟩ := reentrant_hangs _ _ s hr h1 0 _ (Or.inl h2) .endpoints trivial [] {}
  exact h s' 0 (.exec hr (by simp [Owner]) e) (by decide) hh

/-- Stopping the polling in a function that the polling thread calls terminates the process: the thread would have to wait for itself. -/
theorem stop_in_poller (P Q : Nat → Call → Prop) (s : State) (h : Reachable P Q s) (ht : s.terminated = false) (hp : s.polling = true) (rest : List Op) (hop : s.ops 1 = .factory :: rest) (f : Found) :
    ∃ s', [Act.exec 1 [.stop] f, .exec 1 [] f, .exec 1 [] f, .exec 1 [] f].foldlM step s = some s' ∧ s'.terminated = true := by
  have _ := h
  simp [List.foldlM_cons, step, ht, hop, exec, callOps, hp]

example : ∃ s, Reachable Owner (fun _ _ => True) s ∧ s.terminated = false ∧ s.polling = true ∧ ∃ rest, s.ops 1 = .factory :: rest := by
  have e : ∃ s, [Act.call 0 .start, .exec 0 [] {}, .exec 0 [] {}, .exec 0 [] {}, .exec 0 [] {}, .exec 1 [] { lost := 0, dests := [.connected [.made]] }, .exec 1 [] {}, .exec 1 [] {},
      .exec 1 [] {}, .exec 1 [] {}, .exec 1 [] {}, .exec 1 [] {}].foldlM step {} = some s ∧ s.terminated = false ∧ s.polling = true ∧ ∃ rest, s.ops 1 = .factory :: rest :=
    ⟨_, rfl, rfl, rfl, _, rfl⟩
  obtain ⟨s, e, h⟩ := e
  refine ⟨s, C88.reach _ _ s .init ?_ ?_ e, h⟩
  · intro t c h; simp only [List.mem_cons, Act.call.injEq, reduceCtorEq, List.not_mem_nil, or_false] at h
    obtain ⟨rfl, rfl⟩ := h; rfl
  · intro t cs f h; simp at h; rcases h with h | h | h <;> simp_all

/-- **C89, partial.** If the functions of the user do not use the manager, then no call hangs, whatever the threads are doing: in particular stopping the polling, and destroying the manager,
    can finish, with steps of threads in calls they have already made. Missing: functions that use the manager. -/
theorem never_hangs_partial (s : State) (h : Reachable Owner Quiet s) (t : Nat) (ht : t ≠ 1) : ¬ Hangs s t := by
  intro hh
  obtain ⟨s', h1, h2⟩ := finishes (good h) t ht
  exact hh s' h1.relation h2

/-- A state in which the owner waits for the polling thread, which waits for another thread. -/
example : ∃ s, Reachable Owner Quiet s ∧ s.ops 0 = [.join] ∧ (s.ops 1).head? = some .lock ∧ s.holder = some 2 := by
  have e : ∃ s, [Act.call 0 .start, .exec 0 [] {}, .exec 0 [] {}, .exec 0 [] {}, .exec 0 [] {}, .call 2 .endpoints, .exec 2 [] {}, .exec 1 [] {}, .call 0 .stop, .exec 0 [] {},
      .exec 0 [] {}].foldlM step {} = some s ∧ s.ops 0 = [.join] ∧ (s.ops 1).head? = some .lock ∧ s.holder = some 2 := ⟨_, rfl, rfl, rfl, rfl⟩
  obtain ⟨s, e, h⟩ := e
  refine ⟨s, C88.reach _ _ s .init ?_ ?_ e, h⟩
  · intro t c h; simp only [List.mem_cons, Act.call.injEq, reduceCtorEq, List.not_mem_nil, or_false, false_or] at h
    rcases h with ⟨rfl, rfl⟩ | ⟨rfl, rfl⟩ | ⟨rfl, rfl⟩ <;> trivial
  · intro t cs f h; simp at h; rcases h with h | h | h | h <;> exact h.2.1

end Scalopus.C89
