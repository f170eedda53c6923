import Verif.Proofs.MapTracker

/-!
# C45: trackers behave as maps under concurrency

All statements quantify over all key and value types, all numbers of threads, all calls and all interleavings of their steps.
-/

namespace Scalopus.C45

open MapTracker

variable {K V : Type} [DecidableEq K] [Inhabited V]

/-- **C45, linearizability.** The calls of all threads, in the order in which they give up the lock, are a sequential history of a map: every lookup
    returns the value last inserted (`value none` is the exception for a missing key), every snapshot is the map at that moment. -/
theorem calls_are_sequential (acts : List (Act K V)) : Spec.Valid (fun _ => none) (run ({} : State K V) acts).hist := by
  obtain ⟨m, h⟩ := inv_run (inv_init (K := K) (V := V)) acts
  exact h.valid

/-- **C45, real time.** A call takes its place in that order during the call: only the last step of a call of thread `t` extends the history, by that
    call and its result; the call then returns. Everything that returned before a call was made is before it in the history. -/
theorem placed_within_call (s : State K V) (a : Act K V) :
    (step s a).hist = s.hist ∨
    ∃ t op r, a = .go t ∧ s.pc t = .release op r ∧ (step s a).pc t = .idle ∧ (step s a).hist = s.hist ++ [(t, op, r)] := by
  cases a with
  | call t op =>
    left
    simp only [step]
    split <;> rfl
  | go t =>
    cases hpc : s.pc t with
    | release op r =>
      right
      refine ⟨t, op, r, rfl, hpc, ?_, ?_⟩ <;>
      · simp only [step, hpc]
        split <;> simp [State.at]
    | idle => left; simp [step, hpc]
    | called op =>
      left
      simp only [step, hpc]
      repeat' split
      all_goals rfl
    | shared op i acc =>
      left
      simp only [step, hpc]
      repeat' split
      all_goals rfl
    | unique op half =>
      left
      simp only [step, hpc]
      repeat' split
      all_goals rfl

/-- The operation of the call that a thread is in. -/
def opOf : Pc K V → Option (Op K V)
  | .idle => none
  | .called op | .shared op _ _ | .unique op _ | .release op _ => some op

/-- **C45, calls keep their operation.** From call to return a thread executes the operation that it was called with; only a call starts one, and only
    the return ends one. -/
theorem call_keeps_operation (s : State K V) (a : Act K V) (t : Nat) :
    opOf ((step s a).pc t) = opOf (s.pc t) ∨
    (∃ op, a = .call t op ∧ s.pc t = .idle ∧ (step s a).pc t = .called op) ∨
    (∃ op r, a = .go t ∧ s.pc t = .release op r ∧ (step s a).pc t = .idle) := by
  cases a with
  | call t' op =>
    by_cases ht : t = t'
    · subst ht
      cases hpc : s.pc t with
      | idle => right; left; exact ⟨op, rfl, hpc ▸ rfl, by simp [step, hpc, State.at]⟩
      | _ => left; simp [step, hpc]
    · left
      simp only [step]
      split
      · simp [State.at, ht]
      · rfl
  | go t' =>
    by_cases ht : t = t'
    · subst ht
      cases hpc : s.pc t with
      | release op r =>
        right; right
        refine ⟨op, r, rfl, hpc ▸ rfl, ?_⟩
        simp only [step, hpc]
        split <;> simp [State.at]
      | idle => left; simp [step, hpc]
      | called op =>
        left
        simp only [step, hpc]
        repeat' split
        all_goals simp [State.at, opOf, hpc]
      | shared op i acc =>
        left
        simp only [step, hpc]
        repeat' split
        all_goals simp [State.at, opOf, hpc]
      | unique op half =>
        left
        simp only [step, hpc]
        repeat' split
        all_goals simp [State.at, opOf, hpc]
    · left
      simp only [step]
      repeat' split
      all_goals simp [State.at, ht]

/-- **C45, no deadlock.** If any thread is in a call, some thread in a call can take a step that moves it on. -/
theorem no_deadlock (acts : List (Act K V)) (t : Nat) (ht : (run ({} : State K V) acts).pc t ≠ .idle) :
    ∃ t', (run ({} : State K V) acts).pc t' ≠ .idle ∧
      (step (run ({} : State K V) acts) (.go t')).pc t' ≠ (run ({} : State K V) acts).pc t' := by
  obtain ⟨m, h⟩ := inv_run (inv_init (K := K) (V := V)) acts
  generalize run ({} : State K V) acts = s at *
  -- a thread that holds a lock can go on
  have holder : ∀ t, (s.pc t).holdsU = true ∨ (s.pc t).holdsS = true → s.pc t ≠ .idle ∧ (step s (.go t)).pc t ≠ s.pc t := by
    intro t hh
    have hk := h.kind t
    cases hpc : s.pc t with
    | idle => rw [hpc] at hh; simp [Pc.holdsU, Pc.holdsS] at hh
    | called op => rw [hpc] at hh; simp [Pc.holdsU, Pc.holdsS] at hh
    | shared op i acc =>
      have hw := hk.1 _ _ _ hpc
      refine ⟨by simp, ?_⟩
      cases op with
      | getMap =>
        simp only [step, hpc]
        split <;> simp [State.at]
      | getValue k => simp [step, hpc, State.at]
      | «exists» k => simp [step, hpc, State.at]
      | insert k v => cases hw
      | erase k => cases hw
      | clear => cases hw
    | unique op half =>
      have hw := hk.2 _ _ hpc
      refine ⟨by simp, ?_⟩
      cases op with
      | insert k v =>
        simp only [step, hpc]
        cases half <;> (repeat' split) <;> simp_all [State.at]
      | erase k => simp [step, hpc, State.at]
      | clear => simp [step, hpc, State.at]
      | getMap => cases hw
      | getValue k => cases hw
      | «exists» k => cases hw
    | release op r =>
      refine ⟨by simp, ?_⟩
      simp only [step, hpc]
      split <;> simp [State.at]
  cases hw : s.writer with
  | some u => exact ⟨u, holder u (.inl ((h.writer u).mp hw))⟩
  | none =>
    cases hr : s.readers with
    | cons u us => exact ⟨u, holder u (.inr ((h.readers u).mp (by rw [hr]; simp)))⟩
    | nil =>
      -- nobody holds a lock: a waiting thread gets it
      cases hpc : s.pc t with
      | idle => exact absurd hpc ht
      | called op =>
        refine ⟨t, by rw [hpc]; simp, ?_⟩
        simp only [step, hpc, hw, hr]
        cases hop : op.writes <;> simp [State.at]
      | shared op i acc => exact ⟨t, holder t (.inr (by rw [hpc]; rfl))⟩
      | unique op half => exact ⟨t, holder t (.inl (by rw [hpc]; rfl))⟩
      | release op r =>
        refine ⟨t, holder t ?_⟩
        rw [hpc]
        cases hop : op.writes
        · right; simp [Pc.holdsS, hop]
        · left; simp [Pc.holdsU, hop]

/-- Thread 0 inserts while thread 1 takes a snapshot and thread 2 looks up a missing key. -/
example : (run ({} : State Nat Nat) [.call 0 (.insert 5 50), .call 1 .getMap, .call 2 (.getValue 6), .go 0, .go 1, .go 0, .go 1, .go 0, .go 2, .go 0,
      .go 1, .go 2, .go 1, .go 2, .go 1, .go 2, .go 1]).hist =
    [(0, .insert 5 50, .done), (2, .getValue 6, .value none), (1, .getMap, .map [(5, 50)])] := by decide

end Scalopus.C45
