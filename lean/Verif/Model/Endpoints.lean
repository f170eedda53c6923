import Verif.Model.Configurator
import Verif.Model.Registry

/-!
# The endpoints for process information, introspection and names of tracepoints

Models scalopus_general/src/endpoint_process_info.cpp:60-99, scalopus_general/src/endpoint_introspect.cpp:45-75 and
scalopus_tracing/src/endpoint_trace_mapping.cpp:49-82. As in `Model/Configurator`, messages are decoded values; `none` is a message that is not BSON. The
map that a handler serves is the argument: it is read with one call of `getMap`, which C45 makes one step.
-/

namespace Scalopus.Endpoints

open Configurator (inWorker)

/-- What the client's `wait_for(200ms)` and `get()` yield. -/
inductive Answer where
  /-- not ready in time -/
  | late
  /-- the promise was broken or failed: `get()` throws -/
  | failed
  /-- a reply -/
  | data (j : Option Json)

/-- `from_bson(future_ptr->get())`; `none`: the wait timed out. -/
def Answer.decode : Answer → Option (Res Json)
  | .late => none
  | .failed => some (.throws "future_error")
  | .data none => some (.throws "parse_error")
  | .data (some j) => some (.ok j)

/-! ## Process information -/

/-- `EndpointProcessInfo::ProcessInfo`, scalopus_general/include/scalopus_general/endpoint_process_info.h:48-53 -/
structure ProcessInfo where
  name : String := ""
  threads : List (Nat × String) := []
  pid : Int
  deriving Repr, DecidableEq

/-- The request of `processInfo`, endpoint_process_info.cpp:86-87 -/
def infoRequest : Json := .obj [("cmd", .str "info")]

/-- `EndpointProcessInfo::handle`, endpoint_process_info.cpp:60-75; `some` is `true` with the response. (`info_.name` is read without a lock: it has to be
    set before the endpoint is served, as all examples do.) -/
def infoHandle (pid : Int) (name : String) (threads : List (Nat × String)) (req : Option Json) : Res (Option Json) :=
  match req with
  | none => .throws "parse_error"
  | some j => do
    let cmd ← j.index "cmd"
    let cmd ← cmd.asStr
    if cmd = "info" then
      return some (.obj [("pid", .int pid), ("name", .str name), ("threads", Json.ofMap (fun k : Nat => .int k) .str threads)])
    else return none

/-- `EndpointProcessInfo::processInfo`, endpoint_process_info.cpp:77-99. `transport`: whether the endpoint has one. `junk` is what the uninitialised
    member `pid` holds. -/
def processInfo (transport : Bool) (junk : Int) (a : Answer) : Res ProcessInfo :=
  if transport = false then .throws "communication_error"
  else match a.decode with
    | none => .ok { pid := junk }
    | some r => do
      let j ← r
      let name ← j.index "name"
      let name ← name.asStr
      let ts ← j.index "threads"
      let ts ← Json.toMap Json.asULong Json.asStr ts
      let pid ← j.index "pid"
      let pid ← pid.asInt32
      return { name := name, threads := ts, pid := pid }

/-! ## Introspection -/

/-- `EndpointIntrospect::handle`, endpoint_introspect.cpp:45-56; the request is ignored. `text` turns the bytes of a name to a JSON string. -/
def introspectHandle (text : Protocol.Bytes → String) (s : Registry.State) (t : Nat) : Json :=
  .obj [("endpoints", .arr ((Registry.endpointNames s t).map fun n => .str (text n)))]

/-- `EndpointIntrospect::supported`, endpoint_introspect.cpp:58-75 -/
def supported (transport : Bool) (a : Answer) : Res (List String) :=
  if transport = false then .throws "communication_error"
  else match a.decode with
    | none => .ok []
    | some r => do
      let j ← r
      let e ← j.index "endpoints"
      let e ← e.asArr
      Res.mapM Json.asStr e

/-! ## Names of tracepoints -/

/-- `ProcessTraceMap`, scalopus_tracing/include/scalopus_tracing/endpoint_trace_mapping.h:49 -/
abbrev TraceMap := List (Int × List (Nat × String))

/-- The request of `mapping`, endpoint_trace_mapping.cpp:72 -/
def mappingRequest : List UInt8 := [109]

/-- `EndpointTraceMapping::handle`, endpoint_trace_mapping.cpp:49-62: `front()` of an empty vector is undefined. -/
def mappingHandle (pid : Int) (names : List (Nat × String)) (req : List UInt8) : Res (Option Json) :=
  match req with
  | [] => .ub
  | b :: _ =>
    if b = 109 then
      .ok (some (.obj [("mapping", Json.ofMap (fun p : Int => .int p) (Json.ofMap (fun k : Nat => .int k) .str) [(pid, names)])]))
    else .ok none

/-- `EndpointTraceMapping::mapping`, endpoint_trace_mapping.cpp:64-82 -/
def mapping (transport : Bool) (a : Answer) : Res TraceMap :=
  if transport = false then .throws "communication_error"
  else match a.decode with
    | none => .ok []
    | some r => do
      let j ← r
      let m ← j.index "mapping"
      Json.toMap Json.asInt32 (Json.toMap Json.asUInt32 Json.asStr) m

end Scalopus.Endpoints
