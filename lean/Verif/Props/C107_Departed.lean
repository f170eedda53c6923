import Verif.Model.Departed

/-!
# C107: nothing is recorded for viewers that have left

A history lists what viewers, sessions and traced programs did, in order, from the start of the program with the viewer's server in it.
-/

namespace Scalopus.C107

open Departed

/-- The batches that arrive in a history. -/
def arrivals : List Act → List Nat
  | [] => []
  | .arrive d :: as => d :: arrivals as
  | _ :: as => arrivals as

/-- How many viewers connect in a history. -/
def connects : List Act → Nat
  | [] => 0
  | .connect :: as => connects as + 1
  | _ :: as => connects as

/-- **C107** in full: no data is kept for a viewer that is not connected. -/
def NothingKept : Prop := ∀ as s, run {} as = some s → ∀ v, s.conn v = none → (s.src v).data = []

theorem run_cons (a : Act) (as : List Act) (s : State) : run s (a :: as) = (step s a).bind fun t => run t as := rfl

theorem run_append (as bs : List Act) (s : State) : run s (as ++ bs) = (run s as).bind fun t => run t bs := by
  induction as generalizing s with
  | nil => rfl
  | cons a as ih =>
    rw [List.cons_append, run_cons, run_cons]
    cases step s a with
    | none => rfl
    | some t => exact ih t

/-- The sessions have numbers below the count, and so have the sources that were ever used. -/
structure Inv (s : State) : Prop where
  conn : ∀ v, s.conn v ≠ none → v < s.count
  fresh : ∀ v, s.count ≤ v → s.src v = {}

theorem set_self {α : Type} (f : Nat → α) (v : Nat) (x : α) : set f v x v = x := if_pos rfl

theorem set_ne {α : Type} (f : Nat → α) {v w : Nat} (x : α) (h : w ≠ v) : set f v x w = f w := if_neg h

theorem inv_step {s s' : State} (h : Inv s) {a : Act} (e : step s a = some s') : Inv s' := by
  obtain ⟨h1, h2⟩ := h
  cases a with
  | connect =>
    obtain rfl := Option.some.inj e
    refine ⟨fun v hv => ?_, fun v hv => h2 v (by simp only at hv; omega)⟩
    rcases Nat.lt_trichotomy v s.count with h | h | h
    · simp only; omega
    · simp only; omega
    · have := h1 v (by simpa only [set_ne s.conn (some []) (Nat.ne_of_gt h)] using hv)
      omega
  | send w m =>
    simp only [step, Option.map_eq_some_iff] at e
    obtain ⟨q, hq, rfl⟩ := e
    refine ⟨fun v hv => ?_, h2⟩
    by_cases hw : v = w
    · subst hw; exact h1 v (by simp [hq])
    · exact h1 v (by simpa only [set_ne s.conn _ hw] using hv)
  | work w =>
    simp only [step] at e
    split at e
    · rename_i m q hq
      obtain rfl := Option.some.inj e
      have hw := h1 w (by simp [hq])
      refine ⟨fun v hv => ?_, fun v hv => ?_⟩
      · by_cases hw : v = w
        · subst hw; exact h1 v (by simp [hq])
        · exact h1 v (by simpa only [set_ne s.conn _ hw] using hv)
      · simp only at hv ⊢
        rw [set_ne _ _ (by omega)]
        exact h2 v hv
    · cases e
  | leave w =>
    simp only [step, Option.map_eq_some_iff] at e
    obtain ⟨q, hq, rfl⟩ := e
    refine ⟨fun v hv => ?_, h2⟩
    by_cases hw : v = w
    · subst hw; exact h1 v (by simp [hq])
    · exact h1 v (by simpa only [set_ne s.conn _ hw] using hv)
  | arrive d =>
    obtain rfl := Option.some.inj e
    refine ⟨h1, fun v hv => ?_⟩
    simp only at hv ⊢
    rw [if_neg (by omega)]
    exact h2 v hv

theorem inv_run {as : List Act} {s s' : State} (h : Inv s) (e : run s as = some s') : Inv s' := by
  induction as generalizing s with
  | nil => obtain rfl := Option.some.inj e; exact h
  | cons a as ih =>
    rw [run_cons] at e
    obtain ⟨t, ht, e⟩ := Option.bind_eq_some_iff.1 e
    exact ih (inv_step h ht) e

theorem inv_init : Inv {} := ⟨fun _ h => absurd rfl h, fun _ _ => rfl⟩

/-- What a step that is not a step of the session of `v` does to the source of `v`. -/
theorem step_other {s s' : State} {a : Act} (e : step s a = some s') {v : Nat} (hv : v < s.count) (ha : a ≠ .work v) :
    v < s'.count ∧ s'.src v = { on := (s.src v).on, data := (s.src v).data ++ if (s.src v).on then arrivals [a] else [] } := by
  cases a with
  | connect => obtain rfl := Option.some.inj e; exact ⟨Nat.lt_succ_of_lt hv, by simp [arrivals]⟩
  | send w m =>
    simp only [step, Option.map_eq_some_iff] at e
    obtain ⟨q, hq, rfl⟩ := e
    exact ⟨hv, by simp [arrivals]⟩
  | work w =>
    simp only [step] at e
    split at e
    · obtain rfl := Option.some.inj e
      refine ⟨hv, ?_⟩
      have hw : v ≠ w := fun h => ha (by rw [h])
      simp only [arrivals, ite_self, List.append_nil]
      rw [set_ne _ _ hw]
    · cases e
  | leave w =>
    simp only [step, Option.map_eq_some_iff] at e
    obtain ⟨q, hq, rfl⟩ := e
    exact ⟨hv, by simp [arrivals]⟩
  | arrive d =>
    obtain rfl := Option.some.inj e
    refine ⟨hv, ?_⟩
    by_cases ho : (s.src v).on = true <;> simp [ho, hv, arrivals]
    cases h : s.src v
    simp_all

theorem arrivals_cons (a : Act) (as : List Act) : arrivals (a :: as) = arrivals [a] ++ arrivals as := by
  cases a <;> simp [arrivals]

theorem run_other {as : List Act} {s s' : State} (e : run s as = some s') {v : Nat} (hv : v < s.count) (ha : .work v ∉ as) :
    v < s'.count ∧ s'.src v = { on := (s.src v).on, data := (s.src v).data ++ if (s.src v).on then arrivals as else [] } := by
  induction as generalizing s with
  | nil => obtain rfl := Option.some.inj e; exact ⟨hv, by simp [arrivals]⟩
  | cons a as ih =>
    rw [run_cons] at e
    obtain ⟨t, ht, e⟩ := Option.bind_eq_some_iff.1 e
    have h1 := step_other ht hv (fun h => ha (by simp [h]))
    have h2 := ih e h1.1 (fun h => ha (List.mem_cons_of_mem _ h))
    refine ⟨h2.1, ?_⟩
    rw [h2.2, h1.2, arrivals_cons a as]
    simp only [List.append_assoc]
    by_cases ho : (s.src v).on = true <;> simp [ho]

/-- A viewer that is not connected and has a number already given stays away, and no session works for it. -/
theorem gone_step {s s' : State} {a : Act} (e : step s a = some s') {v : Nat} (hv : v < s.count) (hc : s.conn v = none) : a ≠ .work v ∧ s'.conn v = none := by
  cases a with
  | connect => obtain rfl := Option.some.inj e; exact ⟨by simp, by simp only; rw [set_ne _ _ (by omega)]; exact hc⟩
  | send w m =>
    simp only [step, Option.map_eq_some_iff] at e
    obtain ⟨q, hq, rfl⟩ := e
    refine ⟨by simp, ?_⟩
    have : v ≠ w := fun h => by rw [h, hq] at hc; cases hc
    simp only; rw [set_ne _ _ this]; exact hc
  | work w =>
    simp only [step] at e
    split at e
    · rename_i m q hq
      obtain rfl := Option.some.inj e
      have : v ≠ w := fun h => by rw [h, hq] at hc; cases hc
      exact ⟨fun h => this (by cases h; rfl), by simp only; rw [set_ne _ _ this]; exact hc⟩
    · cases e
  | leave w =>
    simp only [step, Option.map_eq_some_iff] at e
    obtain ⟨q, hq, rfl⟩ := e
    refine ⟨by simp, ?_⟩
    simp only
    by_cases h : v = w
    · subst h; exact set_self _ _ _
    · rw [set_ne _ _ h]; exact hc
  | arrive d => obtain rfl := Option.some.inj e; exact ⟨by simp, hc⟩

theorem gone_run {as : List Act} {s s' : State} (e : run s as = some s') {v : Nat} (hv : v < s.count) (hc : s.conn v = none) : .work v ∉ as ∧ s'.conn v = none := by
  induction as generalizing s with
  | nil => obtain rfl := Option.some.inj e; exact ⟨by simp, hc⟩
  | cons a as ih =>
    rw [run_cons] at e
    obtain ⟨t, ht, e⟩ := Option.bind_eq_some_iff.1 e
    have h1 := gone_step ht hv hc
    have h2 := step_other ht hv h1.1
    have h3 := ih e h2.1 h1.2
    exact ⟨by simp only [List.mem_cons, not_or]; exact ⟨fun h => h1.1 h.symm, h3.1⟩, h3.2⟩

/-- The source of a viewer after it handled its last message, left, and other things happened. -/
theorem after_last {as cs bs : List Act} {m : Msg} {v : Nat} {s s' : State} (e : run {} as = some s) (hq : s.conn v = some [])
    (e' : run s (.send v m :: .work v :: cs ++ .leave v :: bs) = some s') (hcs : .work v ∉ cs) :
    s'.conn v = none ∧
    s'.src v = { on := (m.handle (s.src v)).on, data := (m.handle (s.src v)).data ++ if (m.handle (s.src v)).on then arrivals cs ++ arrivals bs else [] } := by
  have hi := inv_run inv_init e
  have hv := hi.conn v (by simp [hq])
  rw [List.cons_append, List.cons_append, run_cons] at e'
  obtain ⟨t1, ht1, e'⟩ := Option.bind_eq_some_iff.1 e'
  rw [run_cons] at e'
  obtain ⟨t2, ht2, e'⟩ := Option.bind_eq_some_iff.1 e'
  rw [run_append] at e'
  obtain ⟨t3, ht3, e'⟩ := Option.bind_eq_some_iff.1 e'
  rw [run_cons] at e'
  obtain ⟨t4, ht4, e'⟩ := Option.bind_eq_some_iff.1 e'
  have a1 : t2.src v = m.handle (s.src v) ∧ t2.count = s.count := by
    simp only [step, hq, Option.map_some, List.nil_append, Option.some.injEq] at ht1
    subst ht1
    simp only [step, set_self, Option.some.injEq] at ht2
    subst ht2
    exact ⟨set_self _ _ _, rfl⟩
  have a3 := run_other ht3 (v := v) (by rw [a1.2]; exact hv) hcs
  have a4 := step_other ht4 a3.1 (by simp)
  have c4 : t4.conn v = none := by
    simp only [step, Option.map_eq_some_iff] at ht4
    obtain ⟨q, _, rfl⟩ := ht4
    exact set_self _ _ _
  have g := gone_run e' a4.1 c4
  have a5 := run_other e' a4.1 g.1
  refine ⟨g.2, ?_⟩
  rw [a5.2, a4.2, a3.2, a1.1]
  by_cases ho : (m.handle (s.src v)).on = true <;> simp [ho, arrivals]

/-- **C107, the opposite holds for every viewer that leaves while it records.** All messages of the viewer had been handled; it starts tracing, its session handles that message and then
    no other – although the viewer may have sent an end – before the viewer leaves. From then on, for ever, everything that arrived since the start and everything that arrives later is
    kept for it. -/
theorem left_recording (as cs bs : List Act) (v : Nat) (s s' : State) (e : run {} as = some s) (hq : s.conn v = some [])
    (e' : run s (.send v .start :: .work v :: cs ++ .leave v :: bs) = some s') (hcs : .work v ∉ cs) :
    s'.conn v = none ∧ (s'.src v).data = arrivals cs ++ arrivals bs := by
  have := after_last e hq e' hcs
  exact ⟨this.1, by rw [this.2]; simp [Msg.handle]⟩

/-- **C107, partial: viewers that end tracing first.** When the end was the last message that the session handled before the viewer left, nothing is kept for the viewer, whatever arrives
    later. Missing: viewers whose connection closes while they record, or before their session has handled their end. -/
theorem ended_partial (as cs bs : List Act) (v : Nat) (s s' : State) (e : run {} as = some s) (hq : s.conn v = some [])
    (e' : run s (.send v .finish :: .work v :: cs ++ .leave v :: bs) = some s') (hcs : .work v ∉ cs) :
    s'.conn v = none ∧ (s'.src v).data = [] := by
  have := after_last e hq e' hcs
  exact ⟨this.1, by rw [this.2]; simp [Msg.handle]⟩

/-- Nothing is ever kept for a viewer that never starts tracing. -/
theorem never_started (as : List Act) (v : Nat) (s : State) (e : run {} as = some s) (h : .send v .start ∉ as) : (s.src v).data = [] := by
  have key : ∀ (as : List Act) (t : State), run t as = some s → .send v .start ∉ as → (t.src v).on = false → (t.src v).data = [] →
      (∀ q, t.conn v = some q → .start ∉ q) → (s.src v).data = [] := by
    intro as
    induction as with
    | nil => intro t e _ _ hd _; obtain rfl := Option.some.inj e; exact hd
    | cons a as ih =>
      intro t e hn ho hd hq
      rw [run_cons] at e
      obtain ⟨u, hu, e⟩ := Option.bind_eq_some_iff.1 e
      have hn' : .send v .start ∉ as := fun h => hn (List.mem_cons_of_mem _ h)
      cases a with
      | connect =>
        obtain rfl := Option.some.inj hu
        refine ih _ e hn' ho hd fun q h => ?_
        by_cases hw : v = t.count
        · subst hw
          simp only [set_self, Option.some.injEq] at h
          subst h; simp
        · exact hq q (by simpa only [set_ne t.conn _ hw] using h)
      | send w m =>
        simp only [step, Option.map_eq_some_iff] at hu
        obtain ⟨q0, hq0, rfl⟩ := hu
        refine ih _ e hn' ho hd fun q h => ?_
        by_cases hw : v = w
        · subst hw
          simp only [set_self, Option.some.injEq] at h
          subst h
          have : m ≠ .start := fun hm => hn (by simp [hm])
          simp only [List.mem_append, List.mem_singleton, not_or]
          exact ⟨hq q0 hq0, fun h => this h.symm⟩
        · exact hq q (by simpa only [set_ne t.conn _ hw] using h)
      | work w =>
        simp only [step] at hu
        split at hu
        · rename_i m q0 hq0
          obtain rfl := Option.some.inj hu
          by_cases hw : v = w
          · subst hw
            have hm := hq _ hq0
            simp only [List.mem_cons, not_or] at hm
            have : (m.handle (t.src v)).on = false ∧ (m.handle (t.src v)).data = [] := by
              cases m with
              | start => exact absurd rfl hm.1
              | finish => exact ⟨rfl, rfl⟩
              | other => exact ⟨ho, hd⟩
            refine ih _ e hn' (by simp only [set_self]; exact this.1) (by simp only [set_self]; exact this.2) fun q h => ?_
            simp only [set_self, Option.some.injEq] at h
            subst h; exact hm.2
          · refine ih _ e hn' (by simp only [set_ne t.src _ hw]; exact ho) (by simp only [set_ne t.src _ hw]; exact hd) fun q h => ?_
            exact hq q (by simpa only [set_ne t.conn _ hw] using h)
        · cases hu
      | leave w =>
        simp only [step, Option.map_eq_some_iff] at hu
        obtain ⟨q0, hq0, rfl⟩ := hu
        refine ih _ e hn' ho hd fun q h => ?_
        by_cases hw : v = w
        · subst hw
          simp only [set_self] at h
          cases h
        · exact hq q (by simpa only [set_ne t.conn _ hw] using h)
      | arrive d =>
        obtain rfl := Option.some.inj hu
        exact ih _ e hn' (by simp [ho]) (by simp [ho, hd]) hq
  exact key as {} e h rfl rfl (fun q hq => by cases hq)

/-- **C107, the number of sources.** There is a source for every viewer that ever connected, and every batch that arrives is offered to each of them. -/
theorem sources_stay (as : List Act) (s : State) (e : run {} as = some s) : s.count = connects as := by
  have key : ∀ (as : List Act) (t : State), run t as = some s → s.count = t.count + connects as := by
    intro as
    induction as with
    | nil => intro t e; obtain rfl := Option.some.inj e; rfl
    | cons a as ih =>
      intro t e
      rw [run_cons] at e
      obtain ⟨u, hu, e⟩ := Option.bind_eq_some_iff.1 e
      have h := ih u e
      cases a with
      | connect => obtain rfl := Option.some.inj hu; rw [h]; simp only [connects]; omega
      | send w m =>
        simp only [step, Option.map_eq_some_iff] at hu
        obtain ⟨q, _, rfl⟩ := hu
        exact h
      | work w =>
        simp only [step] at hu
        split at hu
        · obtain rfl := Option.some.inj hu; exact h
        · cases hu
      | leave w =>
        simp only [step, Option.map_eq_some_iff] at hu
        obtain ⟨q, _, rfl⟩ := hu
        exact h
      | arrive d => obtain rfl := Option.some.inj hu; exact h
  simpa using key as {} e

/-- **C107 does not hold.** -/
theorem not_NothingKept : ¬ NothingKept := by
  intro h
  have := h [.connect, .send 0 .start, .work 0, .leave 0, .arrive 7] _ rfl 0 rfl
  exact absurd this (by decide)

/-! ## Non-vacuity -/

/-- Two viewers; viewer 0 ends tracing before it leaves, viewer 1 sends its end too late. Batches 8 and 9 are kept for viewer 1, which nobody can ask for any more. -/
example : ∃ s s', run {} [.connect, .connect, .send 0 .start, .work 0, .arrive 7] = some s ∧ s.conn 1 = some [] ∧
    run s ([.send 1 .start, .work 1, .arrive 8, .send 0 .finish, .work 0, .send 1 .finish, .leave 0] ++ [.leave 1, .arrive 9]) = some s' ∧ s'.conn 0 = none ∧
    (s'.src 0).data = [] ∧ s'.conn 1 = none ∧ (s'.src 1).data = [8, 9] ∧ s'.count = 2 :=
  ⟨_, _, rfl, rfl, rfl, rfl, rfl, rfl, rfl, rfl⟩

/-- A history of `ended_partial` in which the same viewer recorded before. -/
example : ∃ s s', run {} [.connect, .send 0 .start, .work 0, .arrive 7] = some s ∧ s.conn 0 = some [] ∧
    run s ([.send 0 .finish, .work 0, .arrive 8] ++ [.leave 0, .arrive 9]) = some s' ∧ (s.src 0).data = [7] ∧ (s'.src 0).data = [] :=
  ⟨_, _, rfl, rfl, rfl, rfl, rfl⟩

end Scalopus.C107
