import Verif.Model.Base
import Verif.Model.JsonText

/-!
# The example query_servers

Models scalopus_examples/src/query_servers.cpp: what it writes to the standard output, given what the servers that are found answer. What it writes to the error output is left out.
-/

namespace Scalopus.QueryServers

open JsonText

/-- What becomes of a query: `late`, nothing within 200 ms; or an exception, from the transport or from reading the answer; or the value. -/
inductive Ans (α : Type) where
  | late
  | throws (what : String)
  | ok (a : α)

/-- `ProcessInfo`, scalopus_general/include/scalopus_general/endpoint_process_info.h:47-53; `std::map` is a list in the order of the keys. `pid = none`: no value was given to it. -/
structure Info where
  name : Str := some []
  threads : List (Nat × Str) := []
  pid : Option Int := none

/-- `TraceConfiguration`, scalopus_tracing/include/scalopus_tracing/endpoint_trace_configurator.h:48-59, without `set_process_state` -/
structure Config where
  process : Bool := false
  threads : List (Nat × Bool) := []
  success : Bool := false

/-- A server that is found, and what the queries of it become. For each endpoint in the list of `supported()` there is one query, at its position in the list. -/
structure Dest where
  /-- `connect` gives a transport -/
  connects : Bool
  supported : Ans (List Text)
  introspect : Nat → Ans (List Str)
  info : Nat → Ans Info
  config : Nat → Ans Config
  mapping : Nat → Ans (List (Int × List (Nat × Str)))

/-- A query that gives `dflt` if it is late: endpoint_introspect.cpp:58-75, endpoint_process_info.cpp:77-99, endpoint_trace_configurator.cpp:84-104, endpoint_trace_mapping.cpp:64-82 -/
def Ans.get {α : Type} (dflt : α) : Ans α → Res α
  | .late => .ok dflt
  | .throws w => .throws w
  | .ok a => .ok a

def num (i : Int) : J := .num (toString i).toList

/-- A `std::map` whose keys are numbers is an array of pairs. -/
def pairs {α : Type} (f : α → J) (l : List (Nat × α)) : J := .arr (l.map fun x => .arr [num x.1, f x.2])

/-- `server_info`, query_servers.cpp:53, 72, 82, 96, 108: its members, if they were assigned. -/
structure ServerInfo where
  introspect : Option J := none
  processInfo : Option J := none
  scopeTracing : Option J := none
  traceConfigurator : Option J := none

/-- The value: `null` if nothing was assigned, otherwise an object with its members in the order of their names. -/
def ServerInfo.toJ (x : ServerInfo) : J :=
  match (x.introspect.map fun j => (some "introspect".toList, j)).toList ++ (x.processInfo.map fun j => (some "process_info".toList, j)).toList ++
    (x.scopeTracing.map fun j => (some "scope_tracing".toList, j)).toList ++ (x.traceConfigurator.map fun j => (some "trace_configurator".toList, j)).toList with
  | [] => .null
  | l => .obj l

/-- The value that is assigned for the process information, query_servers.cpp:82-84: reading a `pid` that has no value is undefined. -/
def infoJ (i : Info) : Res J :=
  match i.pid with
  | none => .ub
  | some p => .ok (.obj [(some "name".toList, .str i.name), (some "pid".toList, num p), (some "threads".toList, pairs .str i.threads)])

/-- query_servers.cpp:96-98 -/
def configJ (c : Config) : J :=
  .obj [(some "cmd_success".toList, .bool c.success), (some "process_state".toList, .bool c.process), (some "thread_state".toList, pairs .bool c.threads)]

/-- query_servers.cpp:108 -/
def mappingJ (m : List (Int × List (Nat × Str))) : J := .arr (m.map fun x => .arr [num x.1, pairs .str x.2])

/-- One round of the loop over the endpoints, query_servers.cpp:62-120. -/
def endpoint (d : Dest) (i : Nat) (name : Text) (x : ServerInfo) : Res ServerInfo :=
  if name = "introspect".toList then ((d.introspect i).get []).bind fun l => .ok { x with introspect := some (.arr (l.map .str)) }
  else if name = "process_info".toList then ((d.info i).get {}).bind fun v => (infoJ v).bind fun j => .ok { x with processInfo := some j }
  else if name = "trace_configurator".toList then ((d.config i).get {}).bind fun c => .ok { x with traceConfigurator := some (configJ c) }
  else if name = "scope_tracing".toList then ((d.mapping i).get []).bind fun m => .ok { x with scopeTracing := some (mappingJ m) }
  else .ok x

def endpoints (d : Dest) (i : Nat) (x : ServerInfo) : List Text → Res ServerInfo
  | [] => .ok x
  | n :: l => (endpoint d i n x).bind fun x => endpoints d (i + 1) x l

/-- One round of the loop over the servers, query_servers.cpp:51-122: a transport that is null makes `supported()` throw (endpoint_introspect.cpp:61-64). -/
def server (d : Dest) : Res J :=
  if d.connects then (d.supported.get []).bind fun l => (endpoints d 0 {} l).bind fun x => .ok x.toJ
  else .throws "communication_error"

def servers : List Dest → Res (List J)
  | [] => .ok []
  | d :: l => (server d).bind fun j => (servers l).bind fun js => .ok (j :: js)

/-- `main`, query_servers.cpp:41-126: the value that is printed, with `dump(2)`, which throws for strings that are not UTF-8. `data` is `null` as long as nothing was pushed into it. An exception that leaves `main` ends the
    program. -/
def main (l : List Dest) : Res J :=
  match servers l with
  | .ok js =>
    let data : J := match js with | [] => .null | js => .arr js
    match dump data with
    | some _ => .ok data
    | none => .terminate
  | .throws _ => .terminate
  | .ub => .ub
  | .terminate => .terminate

end Scalopus.QueryServers
