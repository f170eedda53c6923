import Verif.Model.Endpoints

/-!
# The endpoint manager

Models `EndpointManagerPoll` (scalopus_general/src/endpoint_manager_poll.cpp:40-159). Transports are numbered in the order in which they are made: `Transport::Ptr` is a key
of a map, and the manager holds the transports it compares with, so no two of them have the same address. `manage`, `endpoints` and `addEndpointFactory` hold `mutex_` from
beginning to end, so each is one step. Logging is left out.
-/

namespace Scalopus.Manager

open Endpoints (Answer supported)

structure State where
  /-- `transports_`: hash of the destination, transport -/
  transports : List (Nat × Nat) := []
  /-- `transport_endpoints_`: transport, and its endpoints by name -/
  tables : List (Nat × List (String × Nat)) := []
  /-- `endpoint_factories_`: name, factory; the constructor adds the one for introspection (40-46) -/
  factories : List (String × Nat) := [("introspect", 0)]
  /-- number of transports made -/
  next : Nat := 0
  /-- ghost: the calls of `addEndpoint`: transport, endpoint -/
  added : List (Nat × Nat) := []

/-- A discovered destination, and how it behaves. -/
structure Dest where
  /-- `hash_code()` -/
  hash : Nat
  /-- What `factory_->connect(destination)` yields: `none` is the null pointer, `some b` a transport for which `isConnected()` is `b`. -/
  conn : Res (Option Bool)
  /-- how the introspection request is answered -/
  answer : Answer

/-- What happens outside the manager during one call of `manage`. -/
structure Poll where
  /-- `isConnected()` of the transports that are held -/
  connected : Nat → Bool
  /-- the result of `factory_->discover()` -/
  found : List Dest
  /-- the result of calling a factory with a transport; `none` is the null pointer -/
  call : Nat → Nat → Res (Option Nat)

/-- `map[k] = v` -/
def assign {α β : Type} [DecidableEq α] (k : α) (v : β) (m : List (α × β)) : List (α × β) := (k, v) :: m.filter (fun x => x.1 ≠ k)

/-- The abnormal outcome `r`, for another type of result. -/
def fail {α β : Type} : Res α → Res β
  | .ok _ => .terminate  -- not used
  | .throws w => .throws w
  | .ub => .ub
  | .terminate => .terminate

/-- The cleaning up in `manage`, endpoint_manager_poll.cpp:58-68. The argument is the copy that is iterated over. Erasing the end iterator is undefined behaviour. -/
def cleanup (connected : Nat → Bool) : List (Nat × Nat) → State → Res State
  | [], s => .ok s
  | (h, t) :: r, s =>
    if connected t then cleanup connected r s
    else match s.tables.lookup t with
      | none => .ub
      | some _ =>
        let s1 : State := { s with transports := s.transports.filter (fun x => x.1 ≠ h), tables := s.tables.filter (fun x => x.1 ≠ t) }
        cleanup connected r s1

/-- The loop over the supported endpoints, endpoint_manager_poll.cpp:99-121, for transport `t`. The state that is reached is also given if a factory throws. -/
def create (call : Nat → Nat → Res (Option Nat)) (t : Nat) : List String → State → State × Res Unit
  | [], s => (s, .ok ())
  | n :: ns, s =>
    match s.factories.lookup n with
    | none => create call t ns s
    | some f => match call f t with
      | .ok none => create call t ns s
      | .ok (some e) =>
        let s1 : State := { s with tables := assign t (assign n e ((s.tables.lookup t).getD [])) s.tables, added := s.added ++ [(t, e)] }
        create call t ns s1
      | r => (s, fail r)

/-- `connect`, endpoint_manager_poll.cpp:78-122. Calling a member of the null pointer is undefined behaviour. -/
def connectTo (call : Nat → Nat → Res (Option Nat)) (s : State) (d : Dest) : State × Res Unit :=
  if (s.transports.lookup d.hash).isSome then (s, .ok ())
  else match d.conn with
    | .ok none => (s, .ub)
    | .ok (some false) => ({ s with next := s.next + 1 }, .ok ())
    | .ok (some true) =>
      let s1 : State := { s with transports := assign d.hash s.next s.transports, tables := assign s.next [] s.tables, next := s.next + 1 }
      match supported true d.answer with
      | .ok names => create call s.next names s1
      | r => (s1, fail r)
    | r => (s, fail r)

/-- The loop over the discovered destinations, endpoint_manager_poll.cpp:72-75 -/
def connectAll (call : Nat → Nat → Res (Option Nat)) : List Dest → State → State × Res Unit
  | [], s => (s, .ok ())
  | d :: ds, s =>
    match connectTo call s d with
    | (s1, .ok ()) => connectAll call ds s1
    | r => r

/-- `manage`, endpoint_manager_poll.cpp:53-76 -/
def manage (p : Poll) (s : State) : State × Res Unit :=
  match cleanup p.connected s.transports s with
  | .ok s1 => connectAll p.call p.found s1
  | r => (s, fail r)

/-- `addEndpointFactory`, endpoint_manager_poll.cpp:155-159 -/
def addFactory (name : String) (f : Nat) (s : State) : State := { s with factories := assign name f s.factories }

/-- Histories of a manager. A call of `manage` that throws leaves the manager as it is then (called by the user; the thread of the manager would terminate). -/
inductive Reachable : State → Prop
  | init : Reachable {}
  | manage {s s' : State} {p : Poll} {r : Res Unit} : Reachable s → manage p s = (s', r) → (∃ x, r = .ok x) ∨ (∃ w, r = .throws w) → Reachable s'
  | addFactory {s : State} {name : String} {f : Nat} : Reachable s → Reachable (addFactory name f s)

/-! ## Polling, endpoint_manager_poll.cpp:48-51, 124-147 -/

/-- `is_polling_` and `thread_`: whether it is joinable -/
structure Polling where
  isPolling : Bool := false
  joinable : Bool := false
  /-- ghost: threads that run `work` -/
  threads : Nat := 0

/-- `stopPolling`, endpoint_manager_poll.cpp:132-139; `work` ends when `is_polling_` is false, so `join` returns. -/
def stopPolling (p : Polling) : Res Polling :=
  if p.isPolling then
    if p.joinable then .ok { isPolling := false, joinable := false, threads := p.threads - 1 } else .throws "system_error"
  else .ok p

/-- `startPolling`, endpoint_manager_poll.cpp:124-130; assigning to a joinable thread terminates. -/
def startPolling (p : Polling) : Res Polling := do
  let p ← stopPolling p
  if p.joinable then .terminate else .ok { isPolling := true, joinable := true, threads := p.threads + 1 }

/-- The destructor, endpoint_manager_poll.cpp:48-51; destroying a joinable thread terminates, and so does an exception. -/
def destroy (p : Polling) : Res Unit :=
  match stopPolling p with
  | .ok p => if p.joinable then .terminate else .ok ()
  | .ub => .ub
  | _ => .terminate

inductive Call where
  | start | stop
  deriving DecidableEq

def pollingRun : List Call → Polling → Res Polling
  | [], p => .ok p
  | .start :: cs, p => do
    let p ← startPolling p
    pollingRun cs p
  | .stop :: cs, p => do
    let p ← stopPolling p
    pollingRun cs p

end Scalopus.Manager
