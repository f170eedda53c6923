import Verif.Model.Broadcast

/-!
# Specification vocabulary for broadcasts
-/

namespace Scalopus.Spec.Broadcast

open Protocol Scalopus.Broadcast

/-- The calls of `broadcast` in a history, in order. -/
def called : List Act → List (Bytes × Bytes)
  | [] => []
  | .broadcast n d :: as => (n, d) :: called as
  | _ :: as => called as

/-- The message that a broadcast of `data` by the endpoint `name` puts on the wire: request id 0, which no request has. -/
def carrying (m : Bytes × Bytes) : Msg := ⟨0, m.1, m.2⟩

/-- The messages that were put on the wire to client `c`, in order. -/
def deliveredTo (c : Nat) (s : State) : List Msg := (s.sent.filter (fun e => e.1 = c)).map (·.2)

/-- The client neither connects, nor disconnects, nor has a broken connection during the history. -/
def Undisturbed (c : Nat) : List Act → Prop
  | [] => True
  | .connect d :: as => d ≠ c ∧ Undisturbed c as
  | .disconnect d :: as => d ≠ c ∧ Undisturbed c as
  | .process broken :: as => c ∉ broken ∧ Undisturbed c as
  | .broadcast _ _ :: as => Undisturbed c as

/-- Every call of `broadcast` finds all earlier broadcasts already sent. -/
def OneAtATime : State → List Act → Prop
  | _, [] => True
  | s, a :: as => (∀ n d, a = .broadcast n d → s.queue = []) ∧ OneAtATime (step s a) as

end Scalopus.Spec.Broadcast
