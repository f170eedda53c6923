import Verif.Model.Base

/-!
# `None` given from Python

In Python every object of the library that a function takes as a `shared_ptr` may be `None`, which becomes a null pointer (pybind11; scalopus_python/lib/pybind_fix.h:129-168 for the classes that can be
written in Python). Models where such a pointer is used:

* `Transport.addEndpoint` (scalopus_interface/src/transport.cpp:59-64): used at once.
* `EndpointManagerPoll(factory)` (scalopus_general/src/endpoint_manager_poll.cpp:40-46): kept; used by each round, of `manage` and of the polling thread (53-76, 140-147).
* `EndpointManagerPoll.setLogger` (161-171): an empty function, which is not called.
* `GeneralProvider(manager)` (scalopus_general/src/general_provider.cpp:37-39): kept; used by `updateMapping` (52-68), which the source calls at the end of a recording (general_source.cpp:40-42).
* `NativeTraceProvider(manager)` (scalopus_tracing/src/scope_tracing_provider.cpp:36-38): kept as a `weak_ptr`; looked at before it is used (46-56).
* `TransportFactory.connect` (scalopus_transport/src/transport_unix.cpp:457-471, transport_loopback.cpp:200-214): looked at, gives `None`.
* The static functions `factory` of endpoints (endpoint_process_info.cpp:101-106, scalopus_interface/src/endpoint.cpp:48-51): the endpoint has no transport; asking it is an exception
  (endpoint_process_info.cpp:80-83).
* `CatapultServer.addProvider` (scalopus_catapult/src/catapult_server.cpp:45-48): kept; used when a viewer connects (catapult_backend.cpp:171-174).
* `CatapultServer.setLogger` (scalopus_python/lib/scalopus_catapult.cpp:45-50): kept as a Python object; called when a viewer connects (catapult_backend.cpp:94), where the exception that calling `None` is
  leaves the thread of the server.
* `Transport.request` (scalopus_interface.cpp:66-74, 186-188): an exception (`ValueError`).

Objects are numbered in the order in which they are made; functions of objects that have not been made cannot be called. What the calls do otherwise is in the other models: a call that finds its objects
returns here.
-/

namespace Scalopus.PyNone

/-- A provider with its manager: general_provider.cpp:37-39 or scope_tracing_provider.cpp:36-38. -/
inductive Prov
  | general (manager : Option Nat) | native (manager : Option Nat)
deriving DecidableEq, Repr

/-- The logger of a server: the one of the constructor (catapult_server.cpp:42), a function, `None`. -/
inductive Log
  | initial | fn | none
deriving DecidableEq, Repr

/-- A server: its providers and its logger. -/
structure Server where
  providers : List (Option Nat) := []
  log : Log := .initial
deriving DecidableEq, Repr

/-- The objects of the program. `managers`: whether each has a factory. `clients`: for each endpoint made by a `factory` function, whether it has a transport. -/
structure State where
  managers : List Bool := []
  provs : List Prov := []
  servers : List Server := []
  clients : List Bool := []
deriving DecidableEq, Repr

/-- The calls, with `none` or `false` for `None`. -/
inductive Op
  | newManager (factory : Bool)
  /-- `manage`, or one round of the polling thread. -/
  | round (m : Nat)
  | endpoints (m : Nat)
  | managerLogger (m : Nat) (fn : Bool)
  | newGeneral (manager : Option Nat)
  | newNative (manager : Option Nat)
  /-- `updateMapping`, or the end of a recording with a source of the provider. -/
  | update (p : Nat)
  | addEndpoint (endpoint : Bool)
  | connect (destination : Bool)
  | clientFor (transport : Bool)
  | ask (c : Nat)
  | newServer
  | addProvider (s : Nat) (p : Option Nat)
  | serverLogger (s : Nat) (fn : Bool)
  | viewer (s : Nat)
  | request (data : Bool)
deriving DecidableEq, Repr

/-- Do the objects that a call names exist? -/
def exists_ (s : State) : Op → Bool
  | .round m | .endpoints m | .managerLogger m _ => m < s.managers.length
  | .newGeneral (some m) | .newNative (some m) => m < s.managers.length
  | .update p => p < s.provs.length
  | .ask c => c < s.clients.length
  | .addProvider v p => decide (v < s.servers.length) && (match p with | some p => decide (p < s.provs.length) | none => true)
  | .serverLogger v _ | .viewer v => v < s.servers.length
  | _ => true

/-- One call. Returns the new state and whether Python gets `None` as the result of a call that gives an object. -/
def step (s : State) : Op → Res (State × Bool)
  | .newManager f => .ok ({ s with managers := s.managers ++ [f] }, false)
  | .round m => if s.managers.getD m true then .ok (s, false) else .ub
  | .endpoints _ => .ok (s, false)
  | .managerLogger _ _ => .ok (s, false)
  | .newGeneral m => .ok ({ s with provs := s.provs ++ [.general m] }, false)
  | .newNative m => .ok ({ s with provs := s.provs ++ [.native m] }, false)
  | .update p =>
    match s.provs.getD p (.native none) with
    | .general none => .ub
    | _ => .ok (s, false)
  | .addEndpoint e => if e then .ok (s, false) else .ub
  | .connect d => .ok (s, !d)
  | .clientFor t => .ok ({ s with clients := s.clients ++ [t] }, false)
  | .ask c => if s.clients.getD c true then .ok (s, false) else .throws "communication_error"
  | .newServer => .ok ({ s with servers := s.servers ++ [{}] }, false)
  | .addProvider v p => .ok ({ s with servers := s.servers.modify v fun x => { x with providers := x.providers ++ [p] } }, false)
  | .serverLogger v f => .ok ({ s with servers := s.servers.modify v fun x => { x with log := if f then .fn else .none } }, false)
  | .viewer v =>
    let x := s.servers.getD v {}
    if x.log = .none then .terminate
    else if x.providers.contains none then .ub
    else .ok (s, false)
  | .request d => if d then .ok (s, false) else .throws "value_error"

/-- A program: calls of functions of objects that exist; an exception is handled and the program goes on. -/
def run (s : State) : List Op → Res State
  | [] => .ok s
  | o :: os =>
    if exists_ s o then
      match step s o with
      | .ok (s', _) => run s' os
      | .throws _ => run s os
      | .ub => .ub
      | .terminate => .terminate
    else .throws "no such object"

end Scalopus.PyNone
