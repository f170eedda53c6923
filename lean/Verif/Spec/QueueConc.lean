import Verif.Model.RingBufferConc

/-!
# What the two threads observe

Projections of the logs of returned calls: the values whose `push` returned true, and the values handed out by `pop` and
`pop_into`, in order.
-/

namespace Scalopus.Spec.QueueConc

open RingConc

/-- Values of the pushes that returned true, in order. -/
def accepted : List (Ret α) → List α
  | [] => []
  | .pushed v :: l => v :: accepted l
  | _ :: l => accepted l

/-- Values handed out by pops, in order. -/
def popped : List (Ret α) → List α
  | [] => []
  | .popped v :: l => v :: popped l
  | .poppedMany vs :: l => vs ++ popped l
  | _ :: l => popped l

end Scalopus.Spec.QueueConc
