import Verif.Model.BsonEndpoints
import Verif.Model.Unix

/-!
# Queries to a process that runs

The built-in endpoints (`Model/BsonEndpoints`) in the server of a process (`Model/Unix`), with any number of clients that are connected to it and any number of threads in each of them that ask. While they do, the
threads of the process go on: they get names, pass tracepoints for the first time, change switches. What an endpoint answers is computed from what the process has when its worker handles the query.

Simplifications: messages are exchanged whole (C03-C05); the handler is one step (the tables are read under their locks, C45; the switches of a thread are read one by one, C24, C25). An exception in a handler ends
the process (C63). Endpoints of other names answer anything.
-/

namespace Scalopus.Query

open Unix (Conn System)
open BsonEndpoints

abbrev Bytes := List UInt8

/-- `EndpointProcessInfo::name`, scalopus_general/src/endpoint_process_info.cpp:43: "process_info" -/
def infoName : Bytes := [112, 114, 111, 99, 101, 115, 115, 95, 105, 110, 102, 111]
/-- `EndpointIntrospect::name`, scalopus_general/src/endpoint_introspect.cpp:38: "introspect" -/
def introspectName : Bytes := [105, 110, 116, 114, 111, 115, 112, 101, 99, 116]
/-- `EndpointTraceMapping::name`, scalopus_tracing/src/endpoint_trace_mapping.cpp:42: "scope_tracing" -/
def mappingName : Bytes := [115, 99, 111, 112, 101, 95, 116, 114, 97, 99, 105, 110, 103]
/-- `EndpointTraceConfigurator::name`, scalopus_tracing/src/endpoint_trace_configurator.cpp:39: "trace_configurator" -/
def configName : Bytes := [116, 114, 97, 99, 101, 95, 99, 111, 110, 102, 105, 103, 117, 114, 97, 116, 111, 114]

/-- What a process has that its endpoints tell. -/
structure Facts where
  /-- `info_.pid`, endpoint_process_info.cpp:52 -/
  pid : Int
  /-- `info_.name`, endpoint_process_info.cpp:57 -/
  name : Bytes := []
  /-- the map of `ThreadNameTracker`, endpoint_process_info.cpp:70 -/
  threads : List (Nat × Bytes) := []
  /-- the map of `StaticStringTracker`, endpoint_trace_mapping.cpp:51 -/
  names : List (Nat × Bytes) := []
  /-- the switches, endpoint_trace_configurator.cpp:110-111 -/
  switches : TraceState.State := {}
  /-- the names in `endpoints_`, scalopus_interface/src/transport.cpp:66-70, in the order of the `std::map` -/
  endpoints : List Bytes := []
  deriving DecidableEq

/-- The types of the maps: keys are different, an `int` has 32 bits; every thread has its own switch (trace_configurator.cpp:55-66; `C130.own_switches`). Strings have less than two gigabytes (C126).
    (endpoint_process_info.cpp:68-70, endpoint_trace_mapping.cpp:51, trace_configurator.h:99-102) -/
def typed (f : Facts) : Bool :=
  decide (-2 ^ 31 ≤ f.pid ∧ f.pid < 2 ^ 31) && decide (f.name.length + 1 < 2 ^ 31) &&
  decide (f.threads.map (·.1)).Nodup && f.threads.all (fun x => decide (x.2.length + 1 < 2 ^ 31)) &&
  decide (f.names.map (·.1)).Nodup && f.names.all (fun x => decide (x.1 < 2 ^ 32) && decide (x.2.length + 1 < 2 ^ 31)) &&
  decide (f.switches.map.map (·.1)).Nodup && decide (f.switches.map.map (·.2)).Nodup && f.endpoints.all (fun n => decide (n.length + 1 < 2 ^ 31))

/-- `handle` of the endpoint of this name, as called at scalopus_transport/src/transport_unix.cpp:402. `other` is what an endpoint answers that is not one of the four. -/
def handle (stack : Nat) (f : Facts) (endpoint payload : Bytes) (other : Option Bytes) : Res (Facts × Option Bytes) :=
  if endpoint = infoName then (infoHandle stack f.pid f.name f.threads payload).bind fun r => .ok (f, r)
  else if endpoint = introspectName then (introspectHandle f.endpoints).bind fun r => .ok (f, some r)
  else if endpoint = mappingName then
    match payload with
    | [] => .ub   -- `request.front()`, endpoint_trace_mapping.cpp:54
    | x :: _ => if x = 109 then (mappingResponse f.pid f.names).bind fun r => .ok (f, some r) else .ok (f, none)
  else if endpoint = configName then (configHandle stack f.switches payload).bind fun r => .ok ({ f with switches := r.1 }, some r.2)
  else .ok (f, other)

/-- The process, and its clients. -/
structure State where
  facts : Facts
  /-- the process has ended -/
  ended : Bool := false
  conns : System := fun _ => {}

inductive Act where
  /-- the threads of the process change what it has -/
  | change (f : Facts)
  /-- `addEndpoint` of the server, scalopus_interface/src/transport.cpp:59-64 -/
  | addEndpoint (name : Bytes)
  /-- the server's worker takes a message of connection `i` and handles it, transport_unix.cpp:318-331, 392-406 -/
  | serve (i : Nat) (other : Option Bytes)
  /-- any other step of client `i` or of its connection -/
  | conn (i : Nat) (a : Unix.Act)
  /-- the process ends -/
  | stop

/-- The steps of a client: its endpoints are built-in ones, which do not answer what they are sent without having asked (`unsolicited`, scalopus_interface/src/endpoint.cpp:39-42,
    scalopus_tracing/src/native/endpoint_native_trace_receiver.cpp:45-49). -/
def clientStep : Unix.Act → Bool
  | .serve _ => false
  | .addServerEndpoint _ => false
  | .dispatch (some _) => false
  | _ => true

/-- Changes connection `i` -/
def upd (s : State) (i : Nat) (a : Unix.Act) : State := { s with conns := fun j => if j = i then Unix.step (s.conns j) a else s.conns j }

/-- The end of the process closes all connections. -/
def stop (s : State) : State := { s with ended := true, conns := fun j => Unix.step (s.conns j) .serverDown }

/-- The order of `std::map<std::string, …>`, scalopus_interface/src/transport.cpp:62 -/
def insertName (l : List Bytes) (n : Bytes) : List Bytes := l.filter (· < n) ++ n :: l.filter (n < ·)

/-- One step: transport_unix.cpp:218-406, transport.cpp:59-64. `stack` is the room for nested documents of the server's worker. -/
def step (stack : Nat) (s : State) : Act → State
  | .change f => if s.ended = false ∧ typed f ∧ f.endpoints = s.facts.endpoints then { s with facts := f } else s
  | .addEndpoint n =>
    if s.ended = false ∧ n.length + 1 < 2 ^ 31 then
      { s with facts := { s.facts with endpoints := insertName s.facts.endpoints n }, conns := fun j => Unix.step (s.conns j) (.addServerEndpoint n) }
    else s
  | .serve i other =>
    if s.ended then s else
    match (s.conns i).toServer with
    | [] => s
    | m :: _ =>
      if m.endpoint ∈ s.facts.endpoints then
        match handle stack s.facts m.endpoint m.data other with
        | .ok (f, r) => upd { s with facts := f } i (.serve r)
        | _ => stop s
      else upd s i (.serve none)
  | .conn i a => if clientStep a then upd s i a else s
  | .stop => stop s

/-- A schedule of all threads (transport_unix.cpp:218-406). -/
def run (stack : Nat) (s : State) (as : List Act) : State := as.foldl (step stack) s

/-- A process with a server, before any client has connected (transport_unix.h:86-109). -/
def init (f : Facts) : State := { facts := { f with endpoints := [] } }

end Scalopus.Query
