import Verif.Model.Bson
import Verif.Model.Configurator

/-!
# The built-in endpoints with the bytes of their messages

`Model/Endpoints` and `Model/Configurator` speak about decoded values. Here the same handlers and clients take and yield the bytes that the transport carries: scalopus_general/src/endpoint_process_info.cpp:60-99,
scalopus_general/src/endpoint_introspect.cpp:45-75, scalopus_tracing/src/endpoint_trace_mapping.cpp:49-82 and scalopus_tracing/src/endpoint_trace_configurator.cpp:46-147. Strings are bytes. `stack` is the room
for nested documents of the reading thread (`Model/Bson`). The clients are modelled from the arrival of the answer on; what happens without one is in `Model/Endpoints`.
-/

namespace Scalopus.BsonEndpoints

open Bson Configurator TraceState

/-- `json::from_bson` where its exception leaves the function: endpoint_process_info.cpp:62, :92, endpoint_introspect.cpp:70, endpoint_trace_mapping.cpp:76, endpoint_trace_configurator.cpp:76, :98, :108 -/
def readBson (stack : Nat) (b : Bytes) : Res Val :=
  match decode stack b with
  | .ok v => .ok v
  | .fail => .throws "parse_error"
  | .ub => .ub

/-- The bytes of a name in the source (all of them are ASCII): the literals of endpoint_process_info.cpp:65-70, endpoint_introspect.cpp:53, endpoint_trace_mapping.cpp:57 and endpoint_trace_configurator.cpp:48-50 -/
def cmd : Bytes := [99, 109, 100]
/-- "info", endpoint_process_info.cpp:65, :87 -/
def info : Bytes := [105, 110, 102, 111]
/-- "pid", endpoint_process_info.cpp:68, :95 -/
def pidKey : Bytes := [112, 105, 100]
/-- "name", endpoint_process_info.cpp:69, :93 -/
def nameKey : Bytes := [110, 97, 109, 101]
/-- "threads", endpoint_process_info.cpp:70, :94 -/
def threadsKey : Bytes := [116, 104, 114, 101, 97, 100, 115]
/-- "endpoints", endpoint_introspect.cpp:53, :71 -/
def endpointsKey : Bytes := [101, 110, 100, 112, 111, 105, 110, 116, 115]
/-- "mapping", endpoint_trace_mapping.cpp:57, :77 -/
def mappingKey : Bytes := [109, 97, 112, 112, 105, 110, 103]
/-- "set", endpoint_trace_configurator.cpp:70, :114 -/
def setWord : Bytes := [115, 101, 116]
/-- "get", endpoint_trace_configurator.cpp:93 -/
def getWord : Bytes := [103, 101, 116]
/-- "state", endpoint_trace_configurator.cpp:71, :77, :99, :116, :144 -/
def stateKey : Bytes := [115, 116, 97, 116, 101]
/-- "p", endpoint_trace_configurator.cpp:48, :55 -/
def pKey : Bytes := [112]
/-- "sp", endpoint_trace_configurator.cpp:49, :56 -/
def spKey : Bytes := [115, 112]
/-- "t", endpoint_trace_configurator.cpp:50, :57 -/
def tKey : Bytes := [116]

/-- `j.at(key)`, as `Json.get`: endpoint_trace_configurator.cpp:55-57, :77, :99, :114, :116 -/
def get (v : Val) (key : Bytes) : Res Val :=
  match v with
  | .obj l => match l.lookup key with
    | some v => .ok v
    | none => .throws "out_of_range"
  | _ => .throws "type_error"

/-- `j[key]`, as `Json.index`: endpoint_process_info.cpp:65, :93-95, endpoint_introspect.cpp:71, endpoint_trace_mapping.cpp:77 -/
def index (v : Val) (key : Bytes) : Res Val :=
  match v with
  | .obj l => .ok ((l.lookup key).getD .null)
  | .null => .ok .null
  | _ => .throws "type_error"

/-- `get<std::string>()`: endpoint_process_info.cpp:65, :93, endpoint_trace_configurator.cpp:114 -/
def asStr : Val → Res Bytes
  | .str s => .ok s
  | _ => .throws "type_error"

/-- `get<bool>()`: endpoint_trace_configurator.cpp:55-56 -/
def asBool : Val → Res Bool
  | .bool b => .ok b
  | _ => .throws "type_error"

/-- `get<unsigned long>()`, as `Json.asULong`: endpoint_process_info.cpp:94, endpoint_trace_configurator.cpp:57 -/
def asULong : Val → Res Nat
  | .int n => .ok (n % 2 ^ 64).toNat
  | .dbl d => (Json.castDouble 0 (2 ^ 64) d).bind fun t => .ok t.toNat
  | _ => .throws "type_error"

/-- `get<int>()`, as `Json.asInt32`: endpoint_process_info.cpp:95, endpoint_trace_mapping.cpp:77 -/
def asInt32 : Val → Res Int
  | .int n => .ok ((n + 2 ^ 31) % 2 ^ 32 - 2 ^ 31)
  | .dbl d => Json.castDouble (-2 ^ 31) (2 ^ 31) d
  | .bool b => .ok (if b then 1 else 0)
  | _ => .throws "type_error"

/-- `get<unsigned int>()`, as `Json.asUInt32`: endpoint_trace_mapping.cpp:77 -/
def asUInt32 : Val → Res Nat
  | .int n => .ok (n % 2 ^ 32).toNat
  | .dbl d => (Json.castDouble 0 (2 ^ 32) d).bind fun t => .ok t.toNat
  | .bool b => .ok (if b then 1 else 0)
  | _ => .throws "type_error"

/-- The elements of an array: endpoint_introspect.cpp:71 -/
def asArr : Val → Res (List Val)
  | .arr l => .ok l
  | _ => .throws "type_error"

/-- A map with keys that are no strings is an array of pairs, as `Json.ofMap`: endpoint_process_info.cpp:70, endpoint_trace_mapping.cpp:57, endpoint_trace_configurator.cpp:50 -/
def ofMap {κ ν : Type} (fk : κ → Val) (fv : ν → Val) (m : List (κ × ν)) : Val := .arr (m.map fun x => .arr [fk x.1, fv x.2])

/-- One pair, as `Json.toPair` -/
def toPair {κ ν : Type} (fk : Val → Res κ) (fv : Val → Res ν) (v : Val) : Res (κ × ν) :=
  (asArr v).bind fun l =>
    match l with
    | k :: v :: _ => (fk k).bind fun k => (fv v).bind fun v => .ok (k, v)
    | _ => .throws "out_of_range"

/-- Reading a map, as `Json.toMap`: endpoint_process_info.cpp:94, endpoint_trace_mapping.cpp:77, endpoint_trace_configurator.cpp:57 -/
def toMap {κ ν : Type} [BEq κ] (fk : Val → Res κ) (fv : Val → Res ν) (v : Val) : Res (List (κ × ν)) :=
  (asArr v).bind fun l => (Res.mapM (toPair fk fv) l).bind fun ps => .ok (ps.foldl (fun m p => Json.emplace m p.1 p.2) [])

/-! ## Process information -/

/-- The request of a client, endpoint_process_info.cpp:86-88 -/
def infoRequest : Res Bytes := encode (.obj [(cmd, .str info)])

/-- `EndpointProcessInfo::handle`, endpoint_process_info.cpp:60-75; `some` is `true` with the response. -/
def infoHandle (stack : Nat) (pid : Int) (name : Bytes) (threads : List (Nat × Bytes)) (req : Bytes) : Res (Option Bytes) := do
  let j ← readBson stack req
  let c ← index j cmd
  let c ← asStr c
  if c = info then
    let b ← encode (.obj [(pidKey, .int pid), (nameKey, .str name), (threadsKey, ofMap (fun k : Nat => .int k) .str threads)])
    return some b
  else return none

/-- `ProcessInfo`, scalopus_general/include/scalopus_general/endpoint_process_info.h:48-53 -/
structure Info where
  name : Bytes
  threads : List (Nat × Bytes)
  pid : Int
  deriving DecidableEq

/-- What `processInfo` makes of an answer, endpoint_process_info.cpp:92-95 -/
def infoResult (stack : Nat) (answer : Bytes) : Res Info := do
  let j ← readBson stack answer
  let name ← index j nameKey
  let name ← asStr name
  let ts ← index j threadsKey
  let ts ← toMap asULong asStr ts
  let pid ← index j pidKey
  let pid ← asInt32 pid
  return { name := name, threads := ts, pid := pid }

/-! ## Introspection -/

/-- `EndpointIntrospect::handle`, endpoint_introspect.cpp:45-56, for the names of the endpoints that the server has -/
def introspectHandle (names : List Bytes) : Res Bytes := encode (.obj [(endpointsKey, .arr (names.map .str))])

/-- What `supported` makes of an answer, endpoint_introspect.cpp:70-71 -/
def supportedResult (stack : Nat) (answer : Bytes) : Res (List Bytes) := do
  let j ← readBson stack answer
  let e ← index j endpointsKey
  let e ← asArr e
  Res.mapM asStr e

/-! ## Names of tracepoints -/

/-- The response of `EndpointTraceMapping::handle`, endpoint_trace_mapping.cpp:51-58 -/
def mappingResponse (pid : Int) (names : List (Nat × Bytes)) : Res Bytes :=
  encode (.obj [(mappingKey, ofMap (fun p : Int => .int p) (ofMap (fun k : Nat => .int k) .str) [(pid, names)])])

/-- What `mapping` makes of an answer, endpoint_trace_mapping.cpp:75-78 -/
def mappingResult (stack : Nat) (answer : Bytes) : Res (List (Int × List (Nat × Bytes))) := do
  let j ← readBson stack answer
  let m ← index j mappingKey
  toMap asInt32 (toMap asUInt32 asStr) m

/-! ## Switches -/

/-- `to_json`, endpoint_trace_configurator.cpp:46-51 -/
def toVal (c : Config) : Val := .obj [(pKey, .bool c.process), (spKey, .bool c.setProcess), (tKey, ofMap (fun k : Nat => .int k) .bool c.threads)]

/-- `from_json`, endpoint_trace_configurator.cpp:53-58 -/
def fromVal (v : Val) : Res Config := do
  let p ← get v pKey
  let p ← asBool p
  let sp ← get v spKey
  let sp ← asBool sp
  let t ← get v tKey
  let t ← toMap asULong asBool t
  return { process := p, setProcess := sp, threads := t }

/-- The requests of `setTraceState` (a configuration) and `getTraceState` (none), endpoint_trace_configurator.cpp:69-72, :92-94 -/
def configRequest : Option Config → Res Bytes
  | some c => encode (.obj [(cmd, .str setWord), (stateKey, toVal c)])
  | none => encode (.obj [(cmd, .str getWord)])

/-- `EndpointTraceConfigurator::handle`, endpoint_trace_configurator.cpp:106-147 -/
def configHandle (stack : Nat) (s : State) (req : Bytes) : Res (State × Bytes) := do
  let j ← readBson stack req
  let h := s.snaps.length
  let m := s.map
  let s ← step s .getMap
  let c ← get j cmd
  let c ← asStr c
  let s ← if c = setWord then do
      let st ← get j stateKey
      let c ← fromVal st
      run s (setActs h c)
    else .ok s
  let ts ← loads s m
  let b ← encode (.obj [(stateKey, toVal { process := s.process, threads := ts })])
  return (s, b)

/-- What `setTraceState` and `getTraceState` make of an answer, endpoint_trace_configurator.cpp:76-79, :98-101 -/
def configResult (stack : Nat) (answer : Bytes) : Res Config := do
  let j ← readBson stack answer
  let st ← get j stateKey
  let c ← fromVal st
  return { c with success := true }

end Scalopus.BsonEndpoints
