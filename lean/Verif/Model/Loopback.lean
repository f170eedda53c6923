import Verif.Model.Protocol

/-!
# Loopback transport (scalopus_transport/src/transport_loopback.cpp)

The results of the endpoints' handlers are inputs: the oracle gets the number of the invocation, the endpoint name and the
data, so that handlers may keep state.
-/

namespace Scalopus.Loopback

open Protocol

/-- What a handler does. -/
inductive Handled where
  /-- returns false -/
  | declines
  /-- returns true with this response -/
  | answers (d : Bytes)
  /-- lets an exception escape -/
  | throws
  deriving Repr, DecidableEq

/-- State of the future of a request. -/
inductive Fut where
  | waiting
  | value (d : Bytes)
  /-- the promise was destroyed without a value (`broken_promise`) -/
  | broken
  deriving Repr, DecidableEq

/-- An entry of `ongoing_requests_` or a past one, transport_loopback.h:79. -/
structure Req where
  endpoint : Bytes
  payload : Bytes
  /-- the caller still holds the future -/
  held : Bool := true
  fut : Fut := .waiting
  deriving Repr, DecidableEq

/-- An invocation of `handle` by the worker, transport_loopback.cpp:110; `req` is the number of the request. -/
structure Call where
  req : Nat
  endpoint : Bytes
  payload : Bytes
  result : Handled
  deriving Repr, DecidableEq

/-- A client transport and the server it is connected to. -/
structure State where
  /-- all requests so far -/
  reqs : List Req := []
  /-- how many of them have been taken from `ongoing_requests_` -/
  done : Nat := 0
  /-- names of the server's endpoints -/
  serverEndpoints : List Bytes := []
  /-- all invocations of `handle` so far -/
  calls : List Call := []
  deriving Repr, DecidableEq

/-- Results of the handlers. -/
abbrev Oracle := (callNo : Nat) → (endpoint payload : Bytes) → Handled

/-- One iteration of the loop over the ongoing requests, transport_loopback.cpp:88-115, for request number `i`. The null
    endpoint of a missing name is dereferenced in line 110. An exception that leaves the thread function terminates the process.
    The promise without a value is destroyed by `clear()` in line 116. -/
def serveOne (H : Oracle) (s : State) (i : Nat) : Res State :=
  match s.reqs[i]? with
  | none => .ok s
  | some q =>
    if q.held = false then .ok s
    else if q.endpoint ∉ s.serverEndpoints then .ub
    else
      let result := H s.calls.length q.endpoint q.payload
      let call : Call := { req := i, endpoint := q.endpoint, payload := q.payload, result := result }
      let s := { s with calls := s.calls ++ [call] }
      match result with
      | .answers d => .ok { s with reqs := s.reqs.modify i (fun q => { q with fut := .value d }) }
      | .declines => .ok { s with reqs := s.reqs.modify i (fun q => { q with fut := .broken }) }
      | .throws => .terminate

/-- The loop, transport_loopback.cpp:88-115, over the next `n` requests. -/
def serveMany (H : Oracle) (s : State) : Nat → Res State
  | 0 => .ok s
  | n + 1 => (serveOne H s s.done).bind fun s => serveMany H { s with done := s.done + 1 } n

/-- Lines 86-117: all ongoing requests are processed and removed, under the lock. -/
def serveRequests (H : Oracle) (s : State) : Res State := serveMany H s (s.reqs.length - s.done)

/-- `pendingRequests`, transport_loopback.cpp:75-79. -/
def pendingRequests (s : State) : Nat := s.reqs.length - s.done

/-- What happens over time. -/
inductive Act where
  /-- `request`, transport_loopback.cpp:62-73 -/
  | request (endpoint payload : Bytes)
  /-- the caller drops the future of request `i` -/
  | drop (i : Nat)
  /-- the worker comes by, transport_loopback.cpp:86-117 -/
  | work
  /-- `addEndpoint` on the server -/
  | addServerEndpoint (name : Bytes)
  deriving Repr, DecidableEq

/-- One step. -/
def step (H : Oracle) (s : State) : Act → Res State
  | .request ep p => .ok { s with reqs := s.reqs ++ [{ endpoint := ep, payload := p }] }
  | .drop i => .ok { s with reqs := s.reqs.modify i (fun q => { q with held := false }) }
  | .work => serveRequests H s
  | .addServerEndpoint n => .ok { s with serverEndpoints := n :: s.serverEndpoints }

/-- A history. -/
def run (H : Oracle) (s : State) : List Act → Res State
  | [] => .ok s
  | a :: as => (step H s a).bind fun s => run H s as

/-! ## Broadcasts -/

/-- A client known to the server (`clients_`, transport_loopback.h:83). -/
structure Client where
  /-- the weak pointer can be locked -/
  alive : Bool
  /-- names of the client's endpoints -/
  endpoints : List Bytes
  /-- what the client's endpoint of the broadcast's name does in `unsolicited` -/
  unsolicited : Handled
  deriving Repr, DecidableEq

/-- What happened while a broadcast was processed. -/
structure Log where
  /-- numbers of the clients whose endpoint got the data -/
  delivered : List Nat := []
  /-- replies of clients that were given to the server's endpoint: client number and data -/
  replies : List (Nat × Bytes) := []
  deriving Repr, DecidableEq

/-- Lines 126-146 for one broadcast, client after client; `i` is the number of the first client in the list. `serverHas` says
    whether the server has an endpoint of that name (a null pointer is dereferenced in line 138 otherwise), `H` is what its
    `handle` does with a reply of client `i`: returning true makes the worker throw (line 141). -/
def deliver (name : Bytes) (serverHas : Bool) (H : Nat → Bytes → Handled) (log : Log) (i : Nat) : List Client → Res Log
  | [] => .ok log
  | c :: cs =>
    if c.alive = false ∨ name ∉ c.endpoints then deliver name serverHas H log (i + 1) cs
    else
      let log := { log with delivered := log.delivered ++ [i] }
      match c.unsolicited with
      | .throws => .terminate
      | .declines => deliver name serverHas H log (i + 1) cs
      | .answers d =>
        if serverHas = false then .ub
        else
          let log := { log with replies := log.replies ++ [(i, d)] }
          match H i d with
          | .declines => deliver name serverHas H log (i + 1) cs
          | _ => .terminate

end Scalopus.Loopback
