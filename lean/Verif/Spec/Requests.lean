import Verif.Model.Unix

/-!
# Specification vocabulary for requests over the unix transport
-/

namespace Scalopus.Spec.Requests

open Protocol Unix

/-- The server's endpoint of the requested name was invoked for this very request (its id and its payload) and
    returned `d`. -/
def AnsweredBy (calls : List Call) (q : Req) (d : Bytes) : Prop :=
  ({ endpoint := q.endpoint, id := q.id, payload := q.payload, result := some d } : Call) ∈ calls

/-- During the schedule no client endpoint answers, through `unsolicited`, a message that carries the id of a request
    whose call has sent its message and has not yet stored its promise. -/
def NoReplyWhileUnregistered : Conn → List Act → Prop
  | _, [] => True
  | c, a :: as =>
    (∀ d m, a = .dispatch (some d) → c.received = some m → ∀ q ∈ c.reqs, q.pc = .sent → q.id ≠ m.requestId) ∧
    NoReplyWhileUnregistered (step c a) as

/-- During the schedule no response is looked up while the call that sent its request has not yet stored its promise. -/
def RegisteredFirst : Conn → List Act → Prop
  | _, [] => True
  | c, a :: as =>
    (∀ d m, a = .dispatch d → c.received = some m → ∀ q ∈ c.reqs, q.pc = .sent → q.id ≠ m.requestId) ∧
    RegisteredFirst (step c a) as

/-- Number of steps of the schedule in which the client's worker takes a message from the wire or handles one. -/
def workerSteps : Conn → List Act → Nat
  | _, [] => 0
  | c, a :: as => (if (step c a).received.isSome = c.received.isSome then 0 else 1) + workerSteps (step c a) as

/-- The future of call number `r` has a value, or the caller has dropped it. -/
def Resolved (c : Conn) (r : Nat) : Prop :=
  ∃ q, c.reqs[r]? = some q ∧ ((∃ d, q.fut = .value d) ∨ q.held = false)

/-- The calls of `request` that completed sending, whose futures have neither been completed nor dropped. -/
def outstanding (c : Conn) : List Req :=
  c.reqs.filter (fun q => q.pc = .registered && q.fut = .waiting && q.held)

end Scalopus.Spec.Requests
