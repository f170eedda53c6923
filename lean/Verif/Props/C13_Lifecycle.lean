import Verif.Model.Lifecycle

/-!
# C13: a transport that failed to start can be destroyed
-/

namespace Scalopus.C13

open Lifecycle

/-- The system calls of a start all succeed. -/
def succeeds : Call → Bool
  | .serve r => r.socket != -1 && r.bind && r.listen
  | .connect r => r.socket != -1 && r.connect

/-- The full property C13 (false): objects can always be destroyed and the factories report failure as null. -/
def FailedStartIsHarmless : Prop :=
  (∀ cs : List Call, cs.countP succeeds ≤ 1 → (lifetime cs).isOk = true) ∧
  (∀ r, succeeds (.serve r) = false → factoryServe r = .ok none) ∧
  (∀ r, succeeds (.connect r) = false → factoryConnect true r = .ok none)

theorem call_spec (o : Obj) (c : Call) :
    (succeeds c = false → ∃ o', call o c = .ok (false, o') ∧ o'.joinable = o.joinable) ∧
    (succeeds c = true → o.joinable = false → ∃ o', call o c = .ok (true, o') ∧ o'.joinable = true) ∧
    (succeeds c = true → o.joinable = true → call o c = .terminate) := by
  cases c with
  | serve r =>
    obtain ⟨s, b, l⟩ := r
    by_cases hs : s = -1 <;> cases b <;> cases l <;> cases hj : o.joinable <;>
      simp [succeeds, call, serve, startThread, Res.bind, hs, hj]
  | connect r =>
    obtain ⟨s, b⟩ := r
    by_cases hs : s = -1 <;> cases b <;> cases hj : o.joinable <;>
      simp [succeeds, call, connect, startThread, Res.bind, hs, hj]

theorem lifetimeFrom_spec (cs : List Call) : ∀ o : Obj,
    lifetimeFrom o cs =
      if cs.countP succeeds + (if o.joinable then 1 else 0) = 1 then .ok (cs.map succeeds) else .terminate := by
  induction cs with
  | nil =>
    intro o
    cases hj : o.joinable <;> simp [lifetimeFrom, destroy, hj, Res.bind]
  | cons c cs ih =>
    intro o
    obtain ⟨h1, h2, h3⟩ := call_spec o c
    cases hs : succeeds c with
    | false =>
      obtain ⟨o', ho, hj'⟩ := h1 hs
      simp only [lifetimeFrom, ho, Res.bind, ih, hj', List.countP_cons, hs, List.map_cons]
      by_cases hc : List.countP succeeds cs + (if o.joinable then 1 else 0) = 1
      · simp [hc]
      · simp [hc]
    | true =>
      cases hj : o.joinable with
      | false =>
        obtain ⟨o', ho, hj'⟩ := h2 hs hj
        simp only [lifetimeFrom, ho, Res.bind, ih, hj', List.countP_cons, hs, List.map_cons, if_true]
        by_cases hc : List.countP succeeds cs + 1 = 1
        · rw [if_pos hc, if_pos (by simpa using hc)]
        · rw [if_neg hc, if_neg (by simpa using hc)]
      | true =>
        simp only [lifetimeFrom, h3 hs hj, Res.bind, List.countP_cons, hs, if_true]
        rw [if_neg (by omega)]

/-- **C13, partial, and what happens otherwise.** For every sequence of starts with any system call results: if exactly one
    start succeeds, the object is destroyed normally and every start has reported its success or failure; in all other
    cases, in particular if none succeeds, the process is terminated. Missing from the full property: objects without a
    successful start. -/
theorem destruction_partial (cs : List Call) :
    (cs.countP succeeds = 1 → lifetime cs = .ok (cs.map succeeds)) ∧
    (cs.countP succeeds ≠ 1 → lifetime cs = .terminate) := by
  have := lifetimeFrom_spec cs {}
  simp only [Bool.false_eq_true, if_false, Nat.add_zero] at this
  unfold lifetime
  constructor
  · intro h; rw [this, if_pos h]
  · intro h; rw [this, if_neg h]

/-- **C13, factories.** The factories terminate the process instead of returning a null pointer, for every kind of
    failure; they return a transport when everything succeeds, and null for a foreign destination. -/
theorem factories (r : ServeOutcome) (q : ConnectOutcome) :
    (succeeds (.serve r) = false → factoryServe r = .terminate) ∧
    (succeeds (.connect q) = false → factoryConnect true q = .terminate) ∧
    (succeeds (.serve r) = true → ∃ o, factoryServe r = .ok (some o) ∧ destroy o = .ok ()) ∧
    (succeeds (.connect q) = true → ∃ o, factoryConnect true q = .ok (some o) ∧ destroy o = .ok ()) ∧
    factoryConnect false q = .ok none := by
  obtain ⟨s, b, l⟩ := r
  obtain ⟨s', b'⟩ := q
  refine ⟨?_, ?_, ?_, ?_, ?_⟩
  · by_cases hs : s = -1 <;> cases b <;> cases l <;> simp [succeeds, factoryServe, serve, startThread, Res.bind, destroy, hs]
  · by_cases hs : s' = -1 <;> cases b' <;> simp [succeeds, factoryConnect, connect, startThread, Res.bind, destroy, hs]
  · by_cases hs : s = -1 <;> cases b <;> cases l <;> simp [succeeds, factoryServe, serve, startThread, Res.bind, destroy, hs]
  · by_cases hs : s' = -1 <;> cases b' <;> simp [succeeds, factoryConnect, connect, startThread, Res.bind, destroy, hs]
  · rfl

/-- **C13 is violated**, for example by a factory connecting to a process that has just exited. -/
theorem failed_start_violated : ¬ FailedStartIsHarmless := by
  intro h
  have := h.2.2 { socket := 5, connect := false } rfl
  revert this
  decide

example : lifetime [.connect { socket := 4, connect := false }, .connect { socket := 5, connect := true }] =
    .ok [false, true] := by decide

end Scalopus.C13
