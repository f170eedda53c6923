import Verif.Proofs.ManagerThreads

/-!
# Calls of the endpoint manager can finish if the functions of the user do not use it
-/

namespace Scalopus.ManagerThreads

variable {s s' : State}

/-- Stricter rules: with the lock held, a thread only accesses the maps, logs and calls factories until it unlocks. -/
def Strict : Bool → List Op → Prop
  | b, [] => b = false
  | b, .lock :: l => b = false ∧ Strict true l
  | b, .unlock :: l => b = true ∧ Strict false l
  | b, .readMaps :: l => b = true ∧ Strict true l
  | b, .writeMaps :: l => b = true ∧ Strict true l
  | b, .factory :: l => b = true ∧ Strict true l
  | b, .log :: l => b = true ∧ Strict true l
  | b, _ :: l => b = false ∧ Strict false l

theorem strict_body {body l : List Op} (hb : ∀ o ∈ body, o ∈ [Op.readMaps, .writeMaps, .log, .factory]) (h : Strict true l) : Strict true (body ++ l) := by
  induction body with
  | nil => exact h
  | cons o body ih =>
    have h1 := hb o (by simp)
    have h2 := ih (fun o ho => hb o (by simp [ho]))
    simp only [List.mem_cons, List.not_mem_nil, or_false] at h1
    rcases h1 with rfl | rfl | rfl | rfl <;> exact ⟨rfl, h2⟩

theorem strict_manage (f : Found) {l : List Op} (h : Strict false l) : Strict false (manageOps f ++ l) := by
  obtain ⟨body, e, hb⟩ := manage_eq f
  rw [e]
  refine ⟨rfl, ?_⟩
  show Strict true ((body ++ [.unlock]) ++ l)
  rw [List.append_assoc]
  exact strict_body hb ⟨rfl, h⟩

theorem strict_call (c : Call) : Strict false (callOps c) := by
  cases c with
  | manage f =>
    have h := strict_manage f (l := []) rfl
    rw [List.append_nil] at h
    exact h
  | _ => simp [callOps, Strict]

def StrictInv (s : State) : Prop := ∀ t, Strict (held s.holder t) (s.ops t)

theorem strict_exec {t : Nat} {f : Found} (hl : LockInv s) (h : StrictInv s) (e : step s (.exec t [] f) = some s') : StrictInv s' := by
  simp only [step] at e
  split at e
  · cases e
  · split at e
    · cases e
    rename_i o rest ho
    have hr := h t
    rw [ho] at hr
    have simple : ∀ l : List Op, Strict (held s.holder t) l → StrictInv (s.set t l) := by
      intro l hl u
      by_cases hu : u = t
      · subst hu; simpa using hl
      · simpa [hu] using h u
    cases o <;> simp only [exec] at e
    case lock =>
      split at e
      · rename_i hn
        simp only [Option.some.injEq] at e
        subst e
        intro u
        by_cases hu : u = t
        · subst hu
          simpa [held] using hr.2
        · have h1 := h u
          rw [show held s.holder u = false by simp [held, hn]] at h1
          rw [show held _ u = false by simp [held, Ne.symm hu]]
          simpa [hu] using h1
      · cases e
    case unlock =>
      have hh := held_iff.mp hr.1
      simp only [Option.some.injEq] at e
      subst e
      intro u
      by_cases hu : u = t
      · subst hu
        simpa [held] using hr.2
      · have h1 := h u
        rw [show held s.holder u = false by simp [held, hh, Ne.symm hu]] at h1
        rw [show held _ u = false by simp [held]]
        simpa [hu] using h1
    case join =>
      split at e
      · simp only [Option.some.injEq] at e
        subst e
        exact h
      · split at e
        · simp only [Option.some.injEq] at e
          subst e
          exact simple rest (by rw [hr.1]; exact hr.2)
        · cases e
    case spawn =>
      split at e
      · simp only [Option.some.injEq] at e
        subst e
        exact h
      · rename_i hj
        simp only [Option.some.injEq] at e
        subst e
        have h1 : s.ops 1 = [] := Classical.byContradiction fun hn => hj (hl.alive hn)
        have h2 := h 1
        rw [h1] at h2
        intro u
        by_cases hu : u = 1
        · subst hu
          show Strict (held s.holder 1) _
          simp only [set_ops, if_true]
          exact ⟨h2, rfl⟩
        · have := simple rest (by rw [hr.1]; exact hr.2) u
          simpa [hu] using this
    case log =>
      simp only [Option.some.injEq] at e
      subst e
      have h0 : (if s.hasLogger then ([] : List Call).flatMap callOps ++ rest else rest) = rest := by split <;> rfl
      rw [h0]
      exact simple rest (by rw [hr.1]; exact hr.2)
    case testStop =>
      simp only [Option.some.injEq] at e
      subst e
      apply simple
      rw [hr.1]
      split
      · exact ⟨rfl, rfl, hr.2⟩
      · exact hr.2
    case loop =>
      simp only [Option.some.injEq] at e
      subst e
      apply simple
      rw [hr.1]
      split
      · exact strict_manage f (by simp [Strict])
      · exact hr.2
    all_goals
      simp only [Option.some.injEq] at e
      subst e
      exact simple rest (by rw [hr.1]; exact hr.2)

theorem strict_inv (h : Reachable Owner Quiet s) : StrictInv s := by
  induction h with
  | init => intro t; rfl
  | @call s s' t c hr _ e ih =>
    simp only [step] at e
    split at e
    · rename_i hc
      simp only [Option.some.injEq] at e
      subst e
      intro u
      by_cases hu : u = t
      · subst hu
        have := ih u
        rw [hc.2.2] at this
        have h1 : held s.holder u = false := this
        simp only [set_ops, if_true, set_holder]
        rw [h1]
        exact strict_call c
      · simpa [hu] using ih u
    · cases e
  | @exec s s' t cs f hr hc e ih =>
    have : cs = [] := by
      cases cs with
      | nil => rfl
      | cons c cs => exact (hc c (by simp)).elim
    subst this
    exact strict_exec (lockInv hr) ih e

/-- What holds of every state if the functions of the user do not use the manager. -/
structure Good (s : State) : Prop where
  lock : LockInv s
  strict : StrictInv s
  owner : OwnerInv s

theorem good (h : Reachable Owner Quiet s) : Good s := ⟨lockInv h, strict_inv h, ownerInv (fun _ _ h => h.elim) h⟩

/-- Steps of the threads in calls they have already made, in which the functions of the user return at once. -/
inductive Steps : State → State → Prop
  | refl (s : State) : Steps s s
  | cons {s s1 s' : State} {t : Nat} : step s (.exec t [] {}) = some s1 → Steps s1 s' → Steps s s'

theorem Steps.trans {a b c : State} (h : Steps a b) (h2 : Steps b c) : Steps a c := by
  induction h with
  | refl => exact h2
  | cons e _ ih => exact .cons e (ih h2)

theorem good_step {t : Nat} (h : Good s) (e : step s (.exec t [] {}) = some s') : Good s' :=
  ⟨lockInv_exec h.lock e, strict_exec h.lock h.strict e, ownerInv_exec h.lock h.owner (by simp) e⟩

/-- The owner's time for a step. -/
def weight : Op → Nat
  | .testStop => 3
  | _ => 1

def time (l : List Op) : Nat := (l.map weight).sum

/-- A thread other than the owner, or the owner if it does not have to wait for the polling thread, finishes if it is not the polling thread or polling is over, and the lock is
    not held by another. Only this thread takes steps. -/
theorem run_alone {t : Nat} (ht : t ≠ 0) : ∀ (n : Nat) (s : State), time (s.ops t) ≤ n → Good s → (s.holder = none ∨ s.holder = some t) → (t = 1 → s.polling = false) →
    ∃ s', Steps s s' ∧ Good s' ∧ s'.ops t = [] ∧ s'.holder = none ∧ s'.polling = s.polling ∧ s'.joinable = s.joinable ∧ ∀ u, u ≠ t → s'.ops u = s.ops u := by
  intro n
  induction n with
  | zero =>
    intro s hn hg hh hp
    have h0 : s.ops t = [] := by
      cases hs : s.ops t with
      | nil => rfl
      | cons o l => rw [hs] at hn; cases o <;> simp [time, weight] at hn
    refine ⟨s, .refl s, hg, h0, ?_, rfl, rfl, fun _ _ => rfl⟩
    rcases hh with hh | hh
    · exact hh
    · have := hg.strict t
      rw [h0] at this
      have h1 : held s.holder t = false := this
      simp [held, hh] at h1
  | succ n ih =>
    intro s hn hg hh hp
    cases hs : s.ops t with
    | nil =>
      refine ⟨s, .refl s, hg, hs, ?_, rfl, rfl, fun _ _ => rfl⟩
      rcases hh with hh | hh
      · exact hh
      · have := hg.strict t
        rw [hs] at this
        have h1 : held s.holder t = false := this
        simp [held, hh] at h1
    | cons o rest =>
      have hown : o.owner = false := hg.owner.others t ht o (by rw [hs]; simp)
      have hlen : time rest ≤ n := by
        rw [hs] at hn
        have : 1 ≤ weight o := by cases o <;> simp [weight]
        simp only [time, List.map_cons, List.sum_cons] at hn ⊢
        omega
      have hterm := hg.owner.fine
      have hst := hg.strict t
      rw [hs] at hst
      -- one step, which only changes what `t` has to do and perhaps the lock
      have one : ∀ hd : Option Nat, step s (.exec t [] {}) = some { s.set t rest with holder := hd } → (hd = none ∨ hd = some t) →
          ∃ s', Steps s s' ∧ Good s' ∧ s'.ops t = [] ∧ s'.holder = none ∧ s'.polling = s.polling ∧ s'.joinable = s.joinable ∧ ∀ u, u ≠ t → s'.ops u = s.ops u := by
        intro hd e hhd
        obtain ⟨s', h1, h2, h3, h4, h5, h6, h7⟩ := ih { s.set t rest with holder := hd } (by simpa using hlen) (good_step hg e) hhd hp
        refine ⟨s', .cons e h1, h2, h3, h4, h5, h6, ?_⟩
        intro u hu
        rw [h7 u hu]
        simp [hu]
      cases o <;> simp [Op.owner] at hown
      case lock =>
        have hno : s.holder = none := by
          rcases hh with hh | hh
          · exact hh
          · have := hst.1
            simp [held, hh] at this
        exact one (some t) (by simp [step, hterm, hs, exec, hno]) (Or.inr rfl)
      case unlock => exact one none (by simp [step, hterm, hs, exec]) (Or.inl rfl)
      case readMaps => exact one s.holder (by show _ = some (s.set t rest); simp [step, hterm, hs, exec]) hh
      case writeMaps => exact one s.holder (by show _ = some (s.set t rest); simp [step, hterm, hs, exec]) hh
      case log => exact one s.holder (by show _ = some (s.set t rest); simp [step, hterm, hs, exec]) hh
      case factory => exact one s.holder (by show _ = some (s.set t rest); simp [step, hterm, hs, exec]) hh
      case loop =>
        have ht1 : t = 1 := Classical.byContradiction fun ht => (hg.owner.worker t ht .loop (by rw [hs]; simp)).1 rfl
        exact one s.holder (by show _ = some (s.set t rest); simp [step, hterm, hs, exec, hp ht1]) hh
      case sleep => exact one s.holder (by show _ = some (s.set t rest); simp [step, hterm, hs, exec]) hh

/-- The same for the owner, who may have to wait for the polling thread. -/
theorem run_owner : ∀ (n : Nat) (s : State), time (s.ops 0) ≤ n → Good s → (s.holder = none ∨ s.holder = some 0) → ∃ s', Steps s s' ∧ Good s' ∧ s'.ops 0 = [] := by
  intro n
  induction n with
  | zero =>
    intro s hn hg _
    refine ⟨s, .refl s, hg, ?_⟩
    cases hs : s.ops 0 with
    | nil => rfl
    | cons o l => rw [hs] at hn; cases o <;> simp [time, weight] at hn
  | succ n ih =>
    intro s hn hg hh
    cases hs : s.ops 0 with
    | nil => exact ⟨s, .refl s, hg, hs⟩
    | cons o rest =>
      have hlen : time rest + weight o ≤ n + 1 := by
        rw [hs] at hn
        simp only [time, List.map_cons, List.sum_cons] at hn ⊢
        omega
      have hw : 1 ≤ weight o := by cases o <;> simp [weight]
      have hterm := hg.owner.fine
      have hst := hg.strict 0
      rw [hs] at hst
      have hph := hg.owner.phase
      rw [hs] at hph
      have one : ∀ s1 : State, step s (.exec 0 [] {}) = some s1 → time (s1.ops 0) ≤ n → (s1.holder = none ∨ s1.holder = some 0) → ∃ s', Steps s s' ∧ Good s' ∧ s'.ops 0 = [] := by
        intro s1 e h1 h2
        obtain ⟨s', h3, h4, h5⟩ := ih s1 h1 (good_step hg e) h2
        exact ⟨s', .cons e h3, h4, h5⟩
      cases o
      case lock =>
        have hno : s.holder = none := by
          rcases hh with hh | hh
          · exact hh
          · have := hst.1
            simp [held, hh] at this
        exact one { s.set 0 rest with holder := some 0 } (by simp [step, hterm, hs, exec, hno]) (by simp; omega) (Or.inr rfl)
      case unlock => exact one { s.set 0 rest with holder := none } (by simp [step, hterm, hs, exec]) (by simp; omega) (Or.inl rfl)
      case readMaps => exact one (s.set 0 rest) (by simp [step, hterm, hs, exec]) (by simp; omega) hh
      case writeMaps => exact one (s.set 0 rest) (by simp [step, hterm, hs, exec]) (by simp; omega) hh
      case log => exact one (s.set 0 rest) (by simp [step, hterm, hs, exec]) (by simp; omega) hh
      case factory => exact one (s.set 0 rest) (by simp [step, hterm, hs, exec]) (by simp; omega) hh
      case setInterval => exact one (s.set 0 rest) (by simp [step, hterm, hs, exec]) (by simp; omega) hh
      case sleep => exact absurd rfl (hg.owner.worker 0 (by decide) .sleep (by rw [hs]; simp)).2
      case loop => exact absurd rfl (hg.owner.worker 0 (by decide) .loop (by rw [hs]; simp)).1
      case setLogger => exact one { s.set 0 rest with hasLogger := true } (by simp [step, hterm, hs, exec]) (by simp; omega) hh
      case setPolling => exact one { s.set 0 rest with polling := true } (by simp [step, hterm, hs, exec]) (by simp; omega) hh
      case clearPolling => exact one { s.set 0 rest with polling := false } (by simp [step, hterm, hs, exec]) (by simp; omega) hh
      case testStop =>
        simp only [weight] at hlen
        cases hp : s.polling with
        | true => exact one (s.set 0 (.clearPolling :: .join :: rest)) (by simp [step, hterm, hs, exec, hp]) (by simp [time, weight] at hlen ⊢; omega) hh
        | false => exact one (s.set 0 rest) (by simp [step, hterm, hs, exec, hp]) (by simp; omega) hh
      case spawn =>
        have hj : s.joinable = false := by
          generalize s.polling = p, s.joinable = j at hph
          cases hph with
          | tidy ht => cases ht with | one hn => simp at hn
          | spawn _ => rfl
        exact one { (s.set 0 rest).set 1 [.loop] with joinable := true } (by simp [step, hterm, hs, exec, hj]) (by simp; omega) hh
      case join =>
        have hj : s.joinable = true ∧ s.polling = false := by
          generalize s.polling = p, s.joinable = j at hph
          cases hph with
          | tidy ht => cases ht with | one hn => simp at hn
          | join _ => exact ⟨rfl, rfl⟩
        have hno : s.holder = none := by
          rcases hh with hh | hh
          · exact hh
          · have := hst.1
            simp [held, hh] at this
        obtain ⟨s1, h1, h2, h3, h4, h5, h6, h7⟩ := run_alone (t := 1) (by decide) _ s (Nat.le_refl _) hg (Or.inl hno) (fun _ => hj.2)
        have hs1 : s1.ops 0 = .join :: rest := by rw [h7 0 (by decide), hs]
        have e : step s1 (.exec 0 [] {}) = some { s1.set 0 rest with joinable := false } := by
          have hj1 : s1.joinable = true := h6.trans hj.1
          simp [step, h2.owner.fine, hs1, exec, hj1, h3]
        obtain ⟨s', h8, h9, h10⟩ := ih { s1.set 0 rest with joinable := false } (by simp; omega) (good_step h2 e) (Or.inl h4)
        exact ⟨s', h1.trans (.cons e h8), h9, h10⟩

/-- The thread that holds the lock releases it, without waiting for another. -/
theorem release {u : Nat} : ∀ (n : Nat) (s : State), (s.ops u).length ≤ n → Good s → s.holder = some u →
    ∃ s', Steps s s' ∧ Good s' ∧ s'.holder = none ∧ ∀ t, t ≠ u → s'.ops t = s.ops t := by
  intro n
  induction n with
  | zero =>
    intro s hn hg hh
    have h0 : s.ops u = [] := List.eq_nil_of_length_eq_zero (by omega)
    have := hg.strict u
    rw [h0] at this
    have h1 : held s.holder u = false := this
    simp [held, hh] at h1
  | succ n ih =>
    intro s hn hg hh
    have hst := hg.strict u
    have hterm := hg.owner.fine
    rw [show held s.holder u = true from held_iff.mpr hh] at hst
    cases hs : s.ops u with
    | nil => rw [hs] at hst; simp [Strict] at hst
    | cons o rest =>
      rw [hs] at hst
      have hlen : rest.length ≤ n := by rw [hs] at hn; simp at hn; exact hn
      have one : step s (.exec u [] {}) = some (s.set u rest) → ∃ s', Steps s s' ∧ Good s' ∧ s'.holder = none ∧ ∀ t, t ≠ u → s'.ops t = s.ops t := by
        intro e
        obtain ⟨s', h1, h2, h3, h4⟩ := ih (s.set u rest) (by simpa using hlen) (good_step hg e) hh
        exact ⟨s', .cons e h1, h2, h3, fun t ht => by rw [h4 t ht]; simp [ht]⟩
      cases o <;> simp [Strict] at hst
      case unlock =>
        have e : step s (.exec u [] {}) = some { s.set u rest with holder := none } := by simp [step, hterm, hs, exec]
        exact ⟨_, .cons e (.refl _), good_step hg e, rfl, fun t ht => by simp [ht]⟩
      case readMaps => exact one (by simp [step, hterm, hs, exec])
      case writeMaps => exact one (by simp [step, hterm, hs, exec])
      case log => exact one (by simp [step, hterm, hs, exec])
      case factory => exact one (by simp [step, hterm, hs, exec])

/-- Every thread that uses the manager can finish the call it is in. -/
theorem finishes (hg : Good s) (t : Nat) (ht : t ≠ 1) : ∃ s', Steps s s' ∧ s'.ops t = [] := by
  have free : ∃ s1, Steps s s1 ∧ Good s1 ∧ (s1.holder = none ∨ s1.holder = some t) := by
    cases hh : s.holder with
    | none => exact ⟨s, .refl s, hg, Or.inl hh⟩
    | some u =>
      by_cases hu : u = t
      · subst hu; exact ⟨s, .refl s, hg, Or.inr hh⟩
      · obtain ⟨s1, h1, h2, h3, _⟩ := release _ s (Nat.le_refl _) hg hh
        exact ⟨s1, h1, h2, Or.inl h3⟩
  obtain ⟨s1, h1, hg1, hh1⟩ := free
  by_cases h0 : t = 0
  · subst h0
    obtain ⟨s', h2, _, h3⟩ := run_owner _ s1 (Nat.le_refl _) hg1 hh1
    exact ⟨s', h1.trans h2, h3⟩
  · obtain ⟨s', h2, _, h3, _⟩ := run_alone h0 _ s1 (Nat.le_refl _) hg1 hh1 (fun h => absurd h ht)
    exact ⟨s', h1.trans h2, h3⟩

theorem Steps.relation {s s' : State} (h : Steps s s') : Hangs.Relation s s' := by
  induction h with
  | refl s => exact ⟨[], rfl⟩
  | @cons s s1 s' t e _ ih =>
    obtain ⟨as, ha⟩ := ih
    refine ⟨.exec t [] {} :: as, ?_⟩
    simp only [List.foldlM_cons, e]
    exact ha

end Scalopus.ManagerThreads
