/-!
# Endpoints that use loopback clients (scalopus_transport/src/transport_loopback.cpp)

The worker of a loopback client holds `request_lock_` while it lets the server's endpoints handle the requests (transport_loopback.cpp:86-117). The same mutex is locked by `request` (:62-73) and
`pendingRequests` (:75-79). Requests are only counted; what is modelled is which mutexes are held and waited for. `request` and `pendingRequests` themselves are one step: they hold the mutex for a moment.
The delivery of broadcasts (:119-148) holds no mutex while endpoints are called, and is left out.
-/

namespace Scalopus.LoopbackCalls

/-- A client. -/
structure Client where
  /-- length of `ongoing_requests_` -/
  queue : Nat := 0
  /-- the worker holds `request_lock_` -/
  busy : Bool := false
  /-- requests that the worker has still to handle -/
  todo : Nat := 0
  /-- in a handler: the clients whose `request` or `pendingRequests` it still calls -/
  calls : Option (List Nat) := none
deriving DecidableEq, Repr

abbrev State := Nat → Client

inductive Act
  /-- A user's thread calls `request` (:62-73). -/
  | request (k : Nat)
  /-- The worker locks `request_lock_` (:87). -/
  | start (j : Nat)
  /-- The worker calls a handler, which will use these clients (:110). -/
  | handle (j : Nat) (uses : List Nat)
  /-- The handler calls `request` of the next client. -/
  | call (j : Nat)
  /-- The handler returns. -/
  | ret (j : Nat)
  /-- `ongoing_requests_.clear()`, and the mutex is unlocked (:116-117). -/
  | finish (j : Nat)
deriving DecidableEq, Repr

def upd (s : State) (j : Nat) (c : Client) : State := fun i => if i = j then c else s i

/-- One step; `none` if it is not possible, for a call: if it has to wait. -/
def step (s : State) : Act → Option State
  | .request k => if (s k).busy then none else some (upd s k { s k with queue := (s k).queue + 1 })
  | .start j => if (s j).busy then none else some (upd s j { s j with busy := true, todo := (s j).queue, calls := none })
  | .handle j uses => if (s j).busy = true ∧ (s j).calls = none ∧ 0 < (s j).todo then some (upd s j { s j with todo := (s j).todo - 1, calls := some uses }) else none
  | .call j => match (s j).calls with
    | some (k :: rest) =>
      if (s k).busy then none
      else
        let s1 := upd s k { s k with queue := (s k).queue + 1 }
        some (upd s1 j { s1 j with calls := some rest })
    | _ => none
  | .ret j => if (s j).calls = some [] then some (upd s j { s j with calls := none }) else none
  | .finish j => if (s j).busy = true ∧ (s j).calls = none ∧ (s j).todo = 0 then some (upd s j { s j with busy := false, queue := 0 }) else none

def run (s : State) (as : List Act) : Option State := as.foldlM step s

def init : State := fun _ => {}

end Scalopus.LoopbackCalls
