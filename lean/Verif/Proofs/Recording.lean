import Verif.Spec.Recording
import Mathlib.Data.List.Nodup
import Mathlib.Data.List.Induction

/-!
# Invariants of recording intervals
-/

namespace Scalopus.Recording

variable {δ : Type}

/-- What the log so far says about source `i` and arrival `n`. -/
structure Q where
  called : Bool := false
  completed : Bool := false
  /-- a start began -/
  seen : Bool := false
  /-- no stop or finish began since the last start began -/
  opened : Bool := false
  /-- the arrival was called before the first stop or finish after the last start -/
  inTime : Bool := false
  /-- the arrival completed before the last start began -/
  early : Bool := false
  /-- a start returned, and no start, stop or finish began since -/
  recs : Bool := false
  /-- the arrival was called while `recs`, which was true ever since -/
  whole : Bool := false
  /-- the arrival completed while `whole`; no start began and no data was taken since -/
  kept : Bool := false

def Q.next (i n : Nat) (q : Q) : Obs δ → Q
  | .starting j => if j = i then { q with seen := true, opened := true, inTime := q.called, early := q.completed, recs := false, whole := false, kept := false } else q
  | .started j => if j = i then { q with recs := true } else q
  | .stopping j => if j = i then { q with opened := false, recs := false, whole := false } else q
  | .finishing j => if j = i then { q with opened := false, recs := false, whole := false } else q
  | .returned j _ => if j = i then { q with kept := false } else q
  | .failed _ => q
  | .called m _ => if m = n then { q with called := true, inTime := q.inTime || q.opened, whole := q.recs } else q
  | .completed m => if m = n then { q with completed := true, kept := q.whole || q.kept } else q

def track (i n : Nat) (l : List (Obs δ)) : Q := l.foldl (Q.next i n) {}

theorem track_snoc (i n : Nat) (l : List (Obs δ)) (o : Obs δ) : track i n (l ++ [o]) = (track i n l).next i n o := by
  simp [track, List.foldl_append]

theorem track_nil (i n : Nat) (l : List (Obs δ)) : track i n (l ++ []) = track i n l := by simp

/-- The arrival will still ask the source, or still give it the data. -/
def willAdd (i : Nat) : Arrival δ → Prop
  | .checking _ _ chosen => i ∈ chosen
  | .adding _ todo => i ∈ todo
  | _ => False

/-- The arrival has not dealt with the source yet. -/
def before (i : Nat) : Arrival δ → Prop
  | .none => True
  | .called _ => True
  | .checking _ todo _ => i ∈ todo
  | _ => False

def isNone : Arrival δ → Prop
  | .none => True
  | _ => False

def isDone : Arrival δ → Prop
  | .done => True
  | _ => False

def WF : Arrival δ → Prop
  | .checking _ todo chosen => (todo ++ chosen).Nodup
  | .adding _ todo => todo.Nodup
  | _ => True

/-- The part that the next steps depend on, for source `i` and arrival `n`. -/
structure LInv (i : Nat) (count : Nat) (x : Src δ) (n : Nat) (a : Arrival δ) (q : Q) : Prop where
  wf : WF a
  called : q.called = true ↔ ¬ isNone a
  completed : q.completed = true ↔ isDone a
  early : q.early = true → q.completed = true
  onIdle : x.on = true → x.ctl = .idle
  recs : q.recs = true ↔ x.on = true
  onOpen : x.on = true ∨ x.ctl = .start1 ∨ x.ctl = .start2 → q.opened = true ∧ q.seen = true ∧ i < count
  inTime : q.opened = true → q.called = true → q.inTime = true
  will : willAdd i a → q.seen = true ∧ q.inTime = true
  data : (∃ d, (n, d) ∈ x.data) → x.ctl ≠ .start1 → q.seen = true ∧ q.inTime = true ∧ q.early = false
  inTimeCalled : q.inTime = true → q.called = true
  dataCalled : (∃ d, (n, d) ∈ x.data) → q.called = true ∧ q.seen = true
  whole : q.whole = true → q.recs = true ∧ q.called = true ∧ (before i a ∨ willAdd i a ∨ ∃ d, (n, d) ∈ x.data)
  kept : q.kept = true → (∃ d, (n, d) ∈ x.data) ∧ x.ctl ≠ .start1 ∧ x.ctl ≠ .start2

/-- The states that steps lead to, as seen by source `i` and arrival `n`. -/
theorem LInv.step {i n : Nat} {s s' : State δ} {a : Act δ} (h : LInv i s.count (s.src i) n (s.arr n) (track i n s.log)) (e : step s a = some s') :
    LInv i s'.count (s'.src i) n (s'.arr n) (track i n s'.log) := by
  obtain ⟨h1, h2, h3, h4, h5, h6, h7, h8, h9, h10, h11, h12, h13, h14⟩ := h
  cases a with
  | make =>
    simp only [Recording.step, Option.some.injEq] at e
    subst e
    constructor <;> grind
  | start j =>
    simp only [Recording.step] at e
    split at e <;> simp only [Option.some.injEq, reduceCtorEq] at e
    subst e
    rcases eq_or_ne i j with rfl | hj
    · simp only [State.setSrc, track_snoc, track_nil, Q.next, if_true]
      constructor <;> grind [willAdd, before, isNone, isDone, WF]
    · simp only [State.setSrc, track_snoc, track_nil, Q.next, if_neg hj, if_neg hj.symm]
      constructor <;> grind [willAdd, before, isNone, isDone, WF]
  | clear j =>
    simp only [Recording.step] at e
    split at e <;> simp only [Option.some.injEq, reduceCtorEq] at e
    subst e
    rcases eq_or_ne i j with rfl | hj
    · simp only [State.setSrc, track_snoc, track_nil, Q.next, if_true]
      constructor <;> grind [willAdd, before, isNone, isDone, WF]
    · simp only [State.setSrc, track_snoc, track_nil, Q.next, if_neg hj, if_neg hj.symm]
      constructor <;> grind [willAdd, before, isNone, isDone, WF]
  | on j =>
    simp only [Recording.step] at e
    split at e <;> simp only [Option.some.injEq, reduceCtorEq] at e
    subst e
    rcases eq_or_ne i j with rfl | hj
    · simp only [State.setSrc, track_snoc, track_nil, Q.next, if_true]
      constructor <;> grind [willAdd, before, isNone, isDone, WF]
    · simp only [State.setSrc, track_snoc, track_nil, Q.next, if_neg hj, if_neg hj.symm]
      constructor <;> grind [willAdd, before, isNone, isDone, WF]
  | stop j =>
    simp only [Recording.step] at e
    split at e <;> simp only [Option.some.injEq, reduceCtorEq] at e
    subst e
    rcases eq_or_ne i j with rfl | hj
    · simp only [State.setSrc, track_snoc, track_nil, Q.next, if_true]
      constructor <;> grind [willAdd, before, isNone, isDone, WF]
    · simp only [State.setSrc, track_snoc, track_nil, Q.next, if_neg hj, if_neg hj.symm]
      constructor <;> grind [willAdd, before, isNone, isDone, WF]
  | finish j =>
    simp only [Recording.step] at e
    split at e <;> simp only [Option.some.injEq, reduceCtorEq] at e
    subst e
    rcases eq_or_ne i j with rfl | hj
    · simp only [State.setSrc, track_snoc, track_nil, Q.next, if_true]
      constructor <;> grind [willAdd, before, isNone, isDone, WF]
    · simp only [State.setSrc, track_snoc, track_nil, Q.next, if_neg hj, if_neg hj.symm]
      constructor <;> grind [willAdd, before, isNone, isDone, WF]
  | swap j =>
    simp only [Recording.step] at e
    split at e <;> simp only [Option.some.injEq, reduceCtorEq] at e
    subst e
    rcases eq_or_ne i j with rfl | hj
    · simp only [State.setSrc, track_snoc, track_nil, Q.next, if_true]
      constructor <;> grind [willAdd, before, isNone, isDone, WF]
    · simp only [State.setSrc, track_snoc, track_nil, Q.next, if_neg hj, if_neg hj.symm]
      constructor <;> grind [willAdd, before, isNone, isDone, WF]
  | fail j =>
    simp only [Recording.step] at e
    split at e <;> simp only [Option.some.injEq, reduceCtorEq] at e
    subst e
    rcases eq_or_ne i j with rfl | hj
    · simp only [State.setSrc, track_snoc, track_nil, Q.next, if_true]
      constructor <;> grind [willAdd, before, isNone, isDone, WF]
    · simp only [State.setSrc, track_snoc, track_nil, Q.next, if_neg hj, if_neg hj.symm]
      constructor <;> grind [willAdd, before, isNone, isDone, WF]
  | call m d =>
    simp only [Recording.step] at e
    split at e
    · rename_i hx
      simp only [Option.some.injEq, reduceCtorEq] at e
      subst e
      rcases eq_or_ne n m with rfl | hm
      · rw [hx] at h1 h2 h3 h9 h13
        simp only [State.setArr, State.setSrc, track_snoc, track_nil, Q.next, if_true]
        constructor <;> grind [willAdd, before, isNone, isDone, WF]
      · simp only [State.setArr, State.setSrc, track_snoc, track_nil, Q.next, if_neg hm, if_neg hm.symm]
        constructor <;> grind [willAdd, before, isNone, isDone, WF]
    · cases e
  | lock m =>
    simp only [Recording.step] at e
    split at e
    · rename_i hx
      simp only [Option.some.injEq, reduceCtorEq] at e
      subst e
      rcases eq_or_ne n m with rfl | hm
      · rw [hx] at h1 h2 h3 h9 h13
        simp only [State.setArr, State.setSrc, track_snoc, track_nil, Q.next, if_true]
        constructor <;> grind [willAdd, before, isNone, isDone, WF]
      · simp only [State.setArr, State.setSrc, track_snoc, track_nil, Q.next, if_neg hm, if_neg hm.symm]
        constructor <;> grind [willAdd, before, isNone, isDone, WF]
    · cases e
  | check m j =>
    simp only [Recording.step] at e
    split at e
    · rename_i hx
      split at e <;> simp only [Option.some.injEq, reduceCtorEq] at e
      subst e
      rcases eq_or_ne n m with rfl | hm
      · rw [hx] at h1 h2 h3 h9 h13
        simp only [State.setArr, State.setSrc, track_snoc, track_nil, Q.next, if_true]
        constructor <;> grind [willAdd, before, isNone, isDone, WF]
      · simp only [State.setArr, State.setSrc, track_snoc, track_nil, Q.next, if_neg hm, if_neg hm.symm]
        constructor <;> grind [willAdd, before, isNone, isDone, WF]
    · cases e
  | unlock m =>
    simp only [Recording.step] at e
    split at e
    · rename_i hx
      simp only [Option.some.injEq, reduceCtorEq] at e
      subst e
      rcases eq_or_ne n m with rfl | hm
      · rw [hx] at h1 h2 h3 h9 h13
        simp only [State.setArr, State.setSrc, track_snoc, track_nil, Q.next, if_true]
        constructor <;> grind [willAdd, before, isNone, isDone, WF]
      · simp only [State.setArr, State.setSrc, track_snoc, track_nil, Q.next, if_neg hm, if_neg hm.symm]
        constructor <;> grind [willAdd, before, isNone, isDone, WF]
    · cases e
  | add m j =>
    simp only [Recording.step] at e
    split at e
    · rename_i hx
      split at e <;> simp only [Option.some.injEq, reduceCtorEq] at e
      subst e
      rcases eq_or_ne n m with rfl | hm
      · rw [hx] at h1 h2 h3 h9 h13
        simp only [State.setArr, State.setSrc, track_snoc, track_nil, Q.next, if_true]
        constructor <;> grind [willAdd, before, isNone, isDone, WF]
      · simp only [State.setArr, State.setSrc, track_snoc, track_nil, Q.next, if_neg hm, if_neg hm.symm]
        constructor <;> grind [willAdd, before, isNone, isDone, WF]
    · cases e
  | ret m =>
    simp only [Recording.step] at e
    split at e
    · rename_i hx
      simp only [Option.some.injEq, reduceCtorEq] at e
      subst e
      rcases eq_or_ne n m with rfl | hm
      · rw [hx] at h1 h2 h3 h9 h13
        simp only [State.setArr, State.setSrc, track_snoc, track_nil, Q.next, if_true]
        constructor <;> grind [willAdd, before, isNone, isDone, WF]
      · simp only [State.setArr, State.setSrc, track_snoc, track_nil, Q.next, if_neg hm, if_neg hm.symm]
        constructor <;> grind [willAdd, before, isNone, isDone, WF]
    · cases e

theorem linv (i n : Nat) {s : State δ} (h : Reachable s) : LInv i s.count (s.src i) n (s.arr n) (track i n s.log) := by
  induction h with
  | init => constructor <;> simp [track, willAdd, isNone, isDone, WF]
  | step _ e ih => exact ih.step e

/-! ### Each arrival is recorded at most once -/

theorem returnedBy_snoc (i : Nat) (l : List (Obs δ)) (o : Obs δ) : returnedBy i (l ++ [o]) = returnedBy i l ++ taken i o := by
  simp [returnedBy]

structure OInv (i : Nat) (x : Src δ) (n : Nat) (a : Arrival δ) (l : List (Obs δ)) : Prop where
  wf : WF a
  le : (returnedBy i l ++ x.data).countP (fun p => p.1 = n) ≤ 1
  zero : before i a ∨ willAdd i a → (returnedBy i l ++ x.data).countP (fun p => p.1 = n) = 0
  known : ∀ d, (n, d) ∈ returnedBy i l ++ x.data → .called n d ∈ l
  mine : ∀ d, (a = .called d ∨ (∃ t c, a = .checking d t c) ∨ ∃ t, a = .adding d t) → .called n d ∈ l

theorem OInv.step {i n : Nat} {s s' : State δ} {a : Act δ} (h : OInv i (s.src i) n (s.arr n) s.log) (e : step s a = some s') :
    OInv i (s'.src i) n (s'.arr n) s'.log := by
  obtain ⟨h1, h2, h3, h4, h5⟩ := h
  cases a with
  | make =>
    simp only [Recording.step, Option.some.injEq] at e
    subst e
    constructor <;> assumption
  | start j =>
    simp only [Recording.step] at e
    split at e <;> simp only [Option.some.injEq, reduceCtorEq] at e
    subst e
    rcases eq_or_ne i j with rfl | hj
    · simp only [State.setSrc, returnedBy_snoc, List.append_nil, if_true]
      constructor <;> grind [willAdd, before, WF, taken, = returnedBy_snoc]
    · simp only [State.setSrc, returnedBy_snoc, List.append_nil, if_neg hj, if_neg hj.symm]
      constructor <;> grind [willAdd, before, WF, taken, = returnedBy_snoc]
  | clear j =>
    simp only [Recording.step] at e
    split at e <;> simp only [Option.some.injEq, reduceCtorEq] at e
    subst e
    rcases eq_or_ne i j with rfl | hj
    · simp only [State.setSrc, returnedBy_snoc, List.append_nil, if_true]
      constructor <;> grind [willAdd, before, WF, taken, = returnedBy_snoc]
    · simp only [State.setSrc, returnedBy_snoc, List.append_nil, if_neg hj, if_neg hj.symm]
      constructor <;> grind [willAdd, before, WF, taken, = returnedBy_snoc]
  | on j =>
    simp only [Recording.step] at e
    split at e <;> simp only [Option.some.injEq, reduceCtorEq] at e
    subst e
    rcases eq_or_ne i j with rfl | hj
    · simp only [State.setSrc, returnedBy_snoc, List.append_nil, if_true]
      constructor <;> grind [willAdd, before, WF, taken, = returnedBy_snoc]
    · simp only [State.setSrc, returnedBy_snoc, List.append_nil, if_neg hj, if_neg hj.symm]
      constructor <;> grind [willAdd, before, WF, taken, = returnedBy_snoc]
  | stop j =>
    simp only [Recording.step] at e
    split at e <;> simp only [Option.some.injEq, reduceCtorEq] at e
    subst e
    rcases eq_or_ne i j with rfl | hj
    · simp only [State.setSrc, returnedBy_snoc, List.append_nil, if_true]
      constructor <;> grind [willAdd, before, WF, taken, = returnedBy_snoc]
    · simp only [State.setSrc, returnedBy_snoc, List.append_nil, if_neg hj, if_neg hj.symm]
      constructor <;> grind [willAdd, before, WF, taken, = returnedBy_snoc]
  | finish j =>
    simp only [Recording.step] at e
    split at e <;> simp only [Option.some.injEq, reduceCtorEq] at e
    subst e
    rcases eq_or_ne i j with rfl | hj
    · simp only [State.setSrc, returnedBy_snoc, List.append_nil, if_true]
      constructor <;> grind [willAdd, before, WF, taken, = returnedBy_snoc]
    · simp only [State.setSrc, returnedBy_snoc, List.append_nil, if_neg hj, if_neg hj.symm]
      constructor <;> grind [willAdd, before, WF, taken, = returnedBy_snoc]
  | swap j =>
    simp only [Recording.step] at e
    split at e <;> simp only [Option.some.injEq, reduceCtorEq] at e
    subst e
    rcases eq_or_ne i j with rfl | hj
    · simp only [State.setSrc, returnedBy_snoc, List.append_nil, if_true]
      constructor <;> grind [willAdd, before, WF, taken, = returnedBy_snoc]
    · simp only [State.setSrc, returnedBy_snoc, List.append_nil, if_neg hj, if_neg hj.symm]
      constructor <;> grind [willAdd, before, WF, taken, = returnedBy_snoc]
  | fail j =>
    simp only [Recording.step] at e
    split at e <;> simp only [Option.some.injEq, reduceCtorEq] at e
    subst e
    rcases eq_or_ne i j with rfl | hj
    · simp only [State.setSrc, returnedBy_snoc, List.append_nil, if_true]
      constructor <;> grind [willAdd, before, WF, taken, = returnedBy_snoc]
    · simp only [State.setSrc, returnedBy_snoc, List.append_nil, if_neg hj, if_neg hj.symm]
      constructor <;> grind [willAdd, before, WF, taken, = returnedBy_snoc]
  | call m d =>
    simp only [Recording.step] at e
    split at e
    · rename_i hx
      simp only [Option.some.injEq, reduceCtorEq] at e
      subst e
      rcases eq_or_ne n m with rfl | hm
      · rw [hx] at h1 h3 h5
        simp only [State.setArr, State.setSrc, returnedBy_snoc, List.append_nil, if_true]
        constructor <;> grind [willAdd, before, WF, taken, = returnedBy_snoc]
      · simp only [State.setArr, State.setSrc, returnedBy_snoc, List.append_nil, if_neg hm, if_neg hm.symm]
        constructor <;> grind [willAdd, before, WF, taken, = returnedBy_snoc]
    · cases e
  | lock m =>
    simp only [Recording.step] at e
    split at e
    · rename_i hx
      simp only [Option.some.injEq, reduceCtorEq] at e
      subst e
      rcases eq_or_ne n m with rfl | hm
      · rw [hx] at h1 h3 h5
        simp only [State.setArr, State.setSrc, returnedBy_snoc, List.append_nil, if_true]
        constructor <;> grind [willAdd, before, WF, taken, = returnedBy_snoc]
      · simp only [State.setArr, State.setSrc, returnedBy_snoc, List.append_nil, if_neg hm, if_neg hm.symm]
        constructor <;> grind [willAdd, before, WF, taken, = returnedBy_snoc]
    · cases e
  | check m j =>
    simp only [Recording.step] at e
    split at e
    · rename_i hx
      split at e <;> simp only [Option.some.injEq, reduceCtorEq] at e
      subst e
      rcases eq_or_ne n m with rfl | hm
      · rw [hx] at h1 h3 h5
        simp only [State.setArr, State.setSrc, returnedBy_snoc, List.append_nil, if_true]
        constructor <;> grind [willAdd, before, WF, taken, = returnedBy_snoc]
      · simp only [State.setArr, State.setSrc, returnedBy_snoc, List.append_nil, if_neg hm, if_neg hm.symm]
        constructor <;> grind [willAdd, before, WF, taken, = returnedBy_snoc]
    · cases e
  | unlock m =>
    simp only [Recording.step] at e
    split at e
    · rename_i hx
      simp only [Option.some.injEq, reduceCtorEq] at e
      subst e
      rcases eq_or_ne n m with rfl | hm
      · rw [hx] at h1 h3 h5
        simp only [State.setArr, State.setSrc, returnedBy_snoc, List.append_nil, if_true]
        constructor <;> grind [willAdd, before, WF, taken, = returnedBy_snoc]
      · simp only [State.setArr, State.setSrc, returnedBy_snoc, List.append_nil, if_neg hm, if_neg hm.symm]
        constructor <;> grind [willAdd, before, WF, taken, = returnedBy_snoc]
    · cases e
  | add m j =>
    simp only [Recording.step] at e
    split at e
    · rename_i hx
      split at e <;> simp only [Option.some.injEq, reduceCtorEq] at e
      subst e
      rcases eq_or_ne n m with rfl | hm
      · rw [hx] at h1 h3 h5
        simp only [State.setArr, State.setSrc, returnedBy_snoc, List.append_nil, if_true]
        constructor <;> grind [willAdd, before, WF, taken, = returnedBy_snoc]
      · simp only [State.setArr, State.setSrc, returnedBy_snoc, List.append_nil, if_neg hm, if_neg hm.symm]
        constructor <;> grind [willAdd, before, WF, taken, = returnedBy_snoc]
    · cases e
  | ret m =>
    simp only [Recording.step] at e
    split at e
    · rename_i hx
      simp only [Option.some.injEq, reduceCtorEq] at e
      subst e
      rcases eq_or_ne n m with rfl | hm
      · rw [hx] at h1 h3 h5
        simp only [State.setArr, State.setSrc, returnedBy_snoc, List.append_nil, if_true]
        constructor <;> grind [willAdd, before, WF, taken, = returnedBy_snoc]
      · simp only [State.setArr, State.setSrc, returnedBy_snoc, List.append_nil, if_neg hm, if_neg hm.symm]
        constructor <;> grind [willAdd, before, WF, taken, = returnedBy_snoc]
    · cases e

theorem oinv (i n : Nat) {s : State δ} (h : Reachable s) : OInv i (s.src i) n (s.arr n) s.log := by
  induction h with
  | init => constructor <;> simp [willAdd, WF, returnedBy]
  | step _ e ih => exact ih.step e

/-! ### Arrivals that follow each other are recorded in this order -/

/-- (arrival `n` completed, arrival `m` was called after that) -/
def nextAfter (n m : Nat) (q : Bool × Bool) : Obs δ → Bool × Bool
  | .completed k => (q.1 || k = n, q.2)
  | .called k _ => if k = m then (q.1, q.1) else q
  | _ => q

def after (n m : Nat) (l : List (Obs δ)) : Bool × Bool := l.foldl (nextAfter n m) (false, false)

theorem after_snoc (n m : Nat) (l : List (Obs δ)) (o : Obs δ) : after n m (l ++ [o]) = nextAfter n m (after n m l) o := by
  simp [after, List.foldl_append]

structure RInv (n m : Nat) (x : Src δ) (an am : Arrival δ) (q : Bool × Bool) : Prop where
  done : q.1 = true → isDone an
  le : q.2 = true → q.1 = true ∧ ¬ isNone am
  none : isNone am → ∀ d, (m, d) ∉ x.data
  ord : q.2 = true → x.data.Pairwise fun a b => ¬ (a.1 = m ∧ b.1 = n)

theorem pairwise_of_not_mem {m n : Nat} {l : List (Nat × δ)} (h : ∀ d, (m, d) ∉ l) : l.Pairwise fun a b => ¬ (a.1 = m ∧ b.1 = n) := by
  apply List.pairwise_of_forall_mem_list
  intro a ha b _ hc
  exact h a.2 (by rw [← hc.1]; exact ha)

theorem RInv.step {i n m : Nat} {s s' : State δ} {a : Act δ} (h : RInv n m (s.src i) (s.arr n) (s.arr m) (after n m s.log)) (e : step s a = some s') :
    RInv n m (s'.src i) (s'.arr n) (s'.arr m) (after n m s'.log) := by
  obtain ⟨h1, h2, h3, h4⟩ := h
  cases a with
  | make =>
    simp only [Recording.step, Option.some.injEq] at e
    subst e
    constructor <;> assumption
  | start j =>
    simp only [Recording.step] at e
    split at e <;> simp only [Option.some.injEq, reduceCtorEq] at e
    subst e
    rcases eq_or_ne i j with rfl | hj
    · simp only [State.setSrc, after_snoc, List.append_nil, if_true, nextAfter]
      constructor <;> grind
    · simp only [State.setSrc, after_snoc, List.append_nil, if_neg hj, nextAfter]
      constructor <;> grind
  | clear j =>
    simp only [Recording.step] at e
    split at e <;> simp only [Option.some.injEq, reduceCtorEq] at e
    subst e
    rcases eq_or_ne i j with rfl | hj
    · simp only [State.setSrc, after_snoc, List.append_nil, if_true, nextAfter]
      constructor <;> grind
    · simp only [State.setSrc, after_snoc, List.append_nil, if_neg hj, nextAfter]
      constructor <;> grind
  | on j =>
    simp only [Recording.step] at e
    split at e <;> simp only [Option.some.injEq, reduceCtorEq] at e
    subst e
    rcases eq_or_ne i j with rfl | hj
    · simp only [State.setSrc, after_snoc, List.append_nil, if_true, nextAfter]
      constructor <;> grind
    · simp only [State.setSrc, after_snoc, List.append_nil, if_neg hj, nextAfter]
      constructor <;> grind
  | stop j =>
    simp only [Recording.step] at e
    split at e <;> simp only [Option.some.injEq, reduceCtorEq] at e
    subst e
    rcases eq_or_ne i j with rfl | hj
    · simp only [State.setSrc, after_snoc, List.append_nil, if_true, nextAfter]
      constructor <;> grind
    · simp only [State.setSrc, after_snoc, List.append_nil, if_neg hj, nextAfter]
      constructor <;> grind
  | finish j =>
    simp only [Recording.step] at e
    split at e <;> simp only [Option.some.injEq, reduceCtorEq] at e
    subst e
    rcases eq_or_ne i j with rfl | hj
    · simp only [State.setSrc, after_snoc, List.append_nil, if_true, nextAfter]
      constructor <;> grind
    · simp only [State.setSrc, after_snoc, List.append_nil, if_neg hj, nextAfter]
      constructor <;> grind
  | swap j =>
    simp only [Recording.step] at e
    split at e <;> simp only [Option.some.injEq, reduceCtorEq] at e
    subst e
    rcases eq_or_ne i j with rfl | hj
    · simp only [State.setSrc, after_snoc, List.append_nil, if_true, nextAfter]
      constructor <;> grind
    · simp only [State.setSrc, after_snoc, List.append_nil, if_neg hj, nextAfter]
      constructor <;> grind
  | fail j =>
    simp only [Recording.step] at e
    split at e <;> simp only [Option.some.injEq, reduceCtorEq] at e
    subst e
    rcases eq_or_ne i j with rfl | hj
    · simp only [State.setSrc, after_snoc, List.append_nil, if_true, nextAfter]
      constructor <;> grind
    · simp only [State.setSrc, after_snoc, List.append_nil, if_neg hj, nextAfter]
      constructor <;> grind
  | call k d =>
    simp only [Recording.step] at e
    split at e
    · rename_i hx
      simp only [Option.some.injEq, reduceCtorEq] at e
      subst e
      have hp := @pairwise_of_not_mem δ m n
      simp only [State.setArr, State.setSrc, after_snoc, List.append_nil, nextAfter]
      constructor <;> grind [isNone, isDone]
    · cases e
  | lock k =>
    simp only [Recording.step] at e
    split at e
    · rename_i hx
      simp only [Option.some.injEq, reduceCtorEq] at e
      subst e
      have hp := @pairwise_of_not_mem δ m n
      simp only [State.setArr, State.setSrc, after_snoc, List.append_nil, nextAfter]
      constructor <;> grind [isNone, isDone]
    · cases e
  | check k j =>
    simp only [Recording.step] at e
    split at e
    · rename_i hx
      split at e <;> simp only [Option.some.injEq, reduceCtorEq] at e
      subst e
      have hp := @pairwise_of_not_mem δ m n
      simp only [State.setArr, State.setSrc, after_snoc, List.append_nil, nextAfter]
      constructor <;> grind [isNone, isDone]
    · cases e
  | unlock k =>
    simp only [Recording.step] at e
    split at e
    · rename_i hx
      simp only [Option.some.injEq, reduceCtorEq] at e
      subst e
      have hp := @pairwise_of_not_mem δ m n
      simp only [State.setArr, State.setSrc, after_snoc, List.append_nil, nextAfter]
      constructor <;> grind [isNone, isDone]
    · cases e
  | add k j =>
    simp only [Recording.step] at e
    split at e
    · rename_i hx
      split at e <;> simp only [Option.some.injEq, reduceCtorEq] at e
      subst e
      have hp := @pairwise_of_not_mem δ m n
      simp only [State.setArr, State.setSrc, after_snoc, List.append_nil, nextAfter]
      constructor <;> grind [isNone, isDone]
    · cases e
  | ret k =>
    simp only [Recording.step] at e
    split at e
    · rename_i hx
      simp only [Option.some.injEq, reduceCtorEq] at e
      subst e
      have hp := @pairwise_of_not_mem δ m n
      simp only [State.setArr, State.setSrc, after_snoc, List.append_nil, nextAfter]
      constructor <;> grind [isNone, isDone]
    · cases e

theorem rinv (i n m : Nat) {s : State δ} (h : Reachable s) : RInv n m (s.src i) (s.arr n) (s.arr m) (after n m s.log) := by
  induction h with
  | init => constructor <;> simp [after]
  | step _ e ih => exact ih.step e

/-! ### What is taken -/

theorem snoc_split {α : Type} {l l1 l2 : List α} {o r : α} (h : l ++ [o] = l1 ++ r :: l2) :
    (l1 = l ∧ r = o ∧ l2 = []) ∨ ∃ l2', l2 = l2' ++ [o] ∧ l = l1 ++ r :: l2' := by
  rcases List.eq_nil_or_concat l2 with rfl | ⟨l2', x, rfl⟩
  · left
    have := List.append_inj' h rfl
    simp at this
    exact ⟨this.1.symm, this.2.symm, rfl⟩
  · right
    have h' : l ++ [o] = (l1 ++ r :: l2') ++ [x] := by rw [h]; simp
    have := List.append_inj' h' rfl
    simp only [List.cons.injEq, and_true] at this
    exact ⟨l2', by simp [this.2], this.1⟩

/-- What holds for data taken after the log `l`. -/
def Good (l : List (Obs δ)) (i : Nat) (ds : List (Nat × δ)) : Prop :=
  ∀ n, ((track i n l).kept = true → ∃ d, (n, d) ∈ ds) ∧
    ((∃ d, (n, d) ∈ ds) → (track i n l).seen = true ∧ (track i n l).inTime = true ∧ (track i n l).early = false) ∧
    (∀ d, (n, d) ∈ ds → .called n d ∈ l) ∧
    ∀ m, (after n m l).2 = true → ds.Pairwise fun a b => ¬ (a.1 = m ∧ b.1 = n)

/-- Only `swap` logs data. -/
theorem step_log {s s' : State δ} {a : Act δ} (e : step s a = some s') :
    s'.log = s.log ∨ (∃ o, s'.log = s.log ++ [o] ∧ ∀ i ds, o ≠ .returned i ds) ∨
      ∃ i, (s.src i).ctl = .fin1 ∧ s'.log = s.log ++ [.returned i (s.src i).data] := by
  cases a <;> simp only [Recording.step] at e <;> grind [State.setSrc, State.setArr]

theorem good {s : State δ} (h : Reachable s) : ∀ l1 i ds l2, s.log = l1 ++ .returned i ds :: l2 → Good l1 i ds := by
  induction h with
  | init => intro l1 i ds l2 e; simp at e
  | @step s s' a hr e ih =>
    intro l1 i ds l2 hl
    rcases step_log e with h | ⟨o, h, ho⟩ | ⟨j, hj, h⟩
    · exact ih l1 i ds l2 (h ▸ hl)
    · rw [h] at hl
      rcases snoc_split hl with ⟨_, h2, _⟩ | ⟨l2', _, h2⟩
      · exact absurd h2.symm (ho i ds)
      · exact ih l1 i ds l2' h2
    · rw [h] at hl
      rcases snoc_split hl with ⟨rfl, h2, _⟩ | ⟨l2', _, h2⟩
      · simp only [Obs.returned.injEq] at h2
        obtain ⟨rfl, rfl⟩ := h2
        intro n
        have L := linv i n hr
        refine ⟨fun hk => (L.kept hk).1, fun hd => L.data hd (by rw [hj]; simp), ?_, ?_⟩
        · intro d hd
          exact (oinv i n hr).known d (by simp [hd])
        · intro m hm
          exact (rinv i n m hr).ord hm
      · exact ih l1 i ds l2' h2

/-! ### From the trackers to parts of the log -/

theorem track_append (i n : Nat) (l l' : List (Obs δ)) : track i n (l ++ l') = l'.foldl (Q.next i n) (track i n l) := by
  simp [track, List.foldl_append]

theorem fold_recs (i n : Nat) (l : List (Obs δ)) (h : Undisturbed i l) (q : Q) (hq : q.recs = true) : (l.foldl (Q.next i n) q).recs = true := by
  induction l generalizing q with
  | nil => exact hq
  | cons o l ih =>
    apply ih (by simp only [Undisturbed, List.mem_cons, not_or] at h ⊢; exact ⟨h.1.2, h.2.1.2, h.2.2.2⟩)
    simp only [Undisturbed, List.mem_cons, not_or] at h
    cases o <;> grind [Q.next]

theorem fold_whole (i n : Nat) (l : List (Obs δ)) (h : Undisturbed i l) (q : Q) (hq : q.recs = true) (hw : q.whole = true) :
    (l.foldl (Q.next i n) q).whole = true := by
  induction l generalizing q with
  | nil => exact hw
  | cons o l ih =>
    simp only [Undisturbed, List.mem_cons, not_or] at h
    apply ih (by simp only [Undisturbed]; exact ⟨h.1.2, h.2.1.2, h.2.2.2⟩)
    · cases o <;> grind [Q.next]
    · cases o <;> grind [Q.next]

theorem fold_kept (i n : Nat) (l : List (Obs δ)) (h1 : .starting i ∉ l) (h2 : ∀ ds, .returned i ds ∉ l) (q : Q) (hk : q.kept = true) :
    (l.foldl (Q.next i n) q).kept = true := by
  induction l generalizing q with
  | nil => exact hk
  | cons o l ih =>
    simp only [List.mem_cons, not_or] at h1 h2
    apply ih h1.2 (fun ds => (h2 ds).2)
    cases o <;> grind [Q.next]

theorem track_called (i n : Nat) (l : List (Obs δ)) : (track i n l).called = true ↔ ∃ d, .called n d ∈ l := by
  induction l using List.reverseRecOn with
  | nil => simp [track]
  | append_singleton l o ih => rw [track_snoc]; cases o <;> grind [Q.next]

theorem track_completed (i n : Nat) (l : List (Obs δ)) : (track i n l).completed = true ↔ .completed n ∈ l := by
  induction l using List.reverseRecOn with
  | nil => simp [track]
  | append_singleton l o ih => rw [track_snoc]; cases o <;> grind [Q.next]

/-- The last start. -/
theorem track_seen (i n : Nat) (l : List (Obs δ)) (h : (track i n l).seen = true) :
    ∃ a b, l = a ++ .starting i :: b ∧ .starting i ∉ b ∧ ((track i n l).early = true ↔ .completed n ∈ a) ∧
      ((track i n l).opened = true ↔ (.stopping i ∉ b ∧ .finishing i ∉ b)) ∧
      ((track i n l).inTime = true → ∃ b1 b2, b = b1 ++ b2 ∧ (∃ d, .called n d ∈ a ++ .starting i :: b1) ∧ .stopping i ∉ b1 ∧ .finishing i ∉ b1) := by
  induction l using List.reverseRecOn with
  | nil => simp [track] at h
  | append_singleton l o ih =>
    by_cases ho : o = .starting i
    · subst ho
      refine ⟨l, [], by simp, by simp, ?_, ?_, ?_⟩
      · rw [track_snoc]; simp [Q.next, track_completed]
      · rw [track_snoc]; simp [Q.next]
      · rw [track_snoc]
        intro hc
        simp only [Q.next, if_true] at hc
        obtain ⟨d, hd⟩ := (track_called i n l).mp hc
        exact ⟨[], [], rfl, ⟨d, by simp [hd]⟩, by simp, by simp⟩
    · have hs : (track i n l).seen = true := by
        rw [track_snoc] at h
        cases o <;> grind [Q.next]
      obtain ⟨a, b, h1, h2, h3, h4, h5⟩ := ih hs
      refine ⟨a, b ++ [o], by simp [h1], ?_, ?_, ?_, ?_⟩
      · simp only [List.mem_append, List.mem_singleton, not_or]
        exact ⟨h2, fun c => ho c.symm⟩
      · rw [track_snoc, ← h3]
        cases o <;> grind [Q.next]
      · rw [track_snoc]
        cases o <;> grind [Q.next]
      · intro hi
        rw [track_snoc] at hi
        by_cases hold : (track i n l).inTime = true
        · obtain ⟨b1, b2, h6, h7⟩ := h5 hold
          exact ⟨b1, b2 ++ [o], by simp [h6], h7⟩
        · have hc : (∃ d, o = .called n d) ∧ (track i n l).opened = true := by
            cases o <;> grind [Q.next]
          obtain ⟨⟨d, rfl⟩, hop⟩ := hc
          have := h4.mp hop
          refine ⟨b ++ [.called n d], [], by simp, ⟨d, by simp⟩, ?_, ?_⟩
          · simpa using this.1
          · simpa using this.2

theorem after_append (n m : Nat) (l l' : List (Obs δ)) : after n m (l ++ l') = l'.foldl (nextAfter n m) (after n m l) := by
  simp [after, List.foldl_append]

theorem fold_after1 (n m : Nat) (l : List (Obs δ)) (q : Bool × Bool) (hq : q.1 = true) : (l.foldl (nextAfter n m) q).1 = true := by
  induction l generalizing q with
  | nil => exact hq
  | cons o l ih => apply ih; cases o <;> grind [nextAfter]

theorem fold_after2 (n m : Nat) (l : List (Obs δ)) (q : Bool × Bool) (hq : q.1 = true) (h2 : q.2 = true) : (l.foldl (nextAfter n m) q).2 = true := by
  induction l generalizing q with
  | nil => exact h2
  | cons o l ih => apply ih <;> cases o <;> grind [nextAfter]

/-- Each arrival is called once. -/
theorem called_once {s : State δ} (h : Reachable s) (n : Nat) (d d' : δ) : .called n d ∈ s.log → .called n d' ∈ s.log → d = d' := by
  induction h with
  | init => simp
  | @step s s' a hr e ih =>
    by_cases hc : ∃ c, a = .call n c
    · obtain ⟨c, rfl⟩ := hc
      have L := (linv 0 n hr).called
      rw [track_called] at L
      simp only [Recording.step] at e
      cases ha : s.arr n with
      | none =>
        rw [ha] at L
        simp only [isNone, not_true, iff_false] at L
        rw [ha] at e
        simp only [Option.some.injEq] at e
        subst e
        intro h1 h2
        simp only [State.setArr, List.mem_append, List.mem_singleton, Obs.called.injEq, true_and] at h1 h2
        rcases h1 with h1 | rfl
        · exact absurd ⟨d, h1⟩ L
        · rcases h2 with h2 | rfl
          · exact absurd ⟨d', h2⟩ L
          · rfl
      | _ => rw [ha] at e; cases e
    · have : ∀ x, .called n x ∈ s'.log → .called n x ∈ s.log := by
        intro x hx
        have hc' : ∀ c, a ≠ .call n c := fun c hh => hc ⟨c, hh⟩
        cases a <;> simp only [Recording.step, ne_eq, Act.call.injEq] at e hc' <;> grind [State.setSrc, State.setArr]
      intro h1 h2
      exact ih (this d h1) (this d' h2)

end Scalopus.Recording
