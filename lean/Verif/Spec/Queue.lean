/-!
# Specification: a bounded first-in first-out queue

Written without reference to the ring buffer. `Op` is the calls a user can make, `Out` what they observe.
-/

namespace Scalopus.Spec.Queue

/-- A call on the queue. -/
inductive Op (α : Type u) where
  | push (v : α)
  | pop
  | popInto (maxCount : Nat)
  | size
  | empty
  deriving Repr

/-- What a call returns. -/
inductive Out (α : Type u) where
  | accepted (b : Bool)
  | popped (v : Option α)
  | poppedMany (vs : List α)
  | count (n : Nat)
  | isEmpty (b : Bool)
  deriving Repr, DecidableEq

/-- One call on a queue holding `q` (oldest first) that may hold at most `cap` elements. -/
def step (cap : Nat) (q : List α) : Op α → List α × Out α
  | .push v => if q.length < cap then (q ++ [v], .accepted true) else (q, .accepted false)
  | .pop =>
    match q with
    | [] => ([], .popped none)
    | v :: q => (q, .popped (some v))
  | .popInto n => (q.drop n, .poppedMany (q.take n))
  | .size => (q, .count q.length)
  | .empty => (q, .isEmpty q.isEmpty)

/-- The answers to a sequence of calls. -/
def run (cap : Nat) (q : List α) : List (Op α) → List (Out α)
  | [] => []
  | o :: os => (step cap q o).2 :: run cap (step cap q o).1 os

end Scalopus.Spec.Queue
