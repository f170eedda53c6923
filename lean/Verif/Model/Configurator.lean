import Verif.Model.TraceState
import Verif.Model.Json

/-!
# Remote configuration of the tracing switches

Models `EndpointTraceConfigurator` (scalopus_tracing/src/endpoint_trace_configurator.cpp:46-147) on top of the switches of
`Model/TraceState`. The handler is the sequence of its atomic accesses, without other threads in between (what other threads do in between
is covered by C22, which speaks about each access).
-/

namespace Scalopus.Configurator

open TraceState

/-- `TraceConfiguration`, scalopus_tracing/include/scalopus_tracing/endpoint_trace_configurator.h:48-59; the map is a list of pairs with
    different keys. -/
structure Config where
  process : Bool := false
  setProcess : Bool := false
  threads : List (Nat × Bool) := []
  success : Bool := false
  deriving Repr, DecidableEq

/-- `to_json`, endpoint_trace_configurator.cpp:46-51 -/
def toJson (c : Config) : Json :=
  .obj [("p", .bool c.process), ("sp", .bool c.setProcess), ("t", Json.ofMap (fun k : Nat => .int k) .bool c.threads)]

/-- `from_json`, endpoint_trace_configurator.cpp:53-58 -/
def fromJson (j : Json) : Res Config := do
  let p ← j.get "p"
  let p ← p.asBool
  let sp ← j.get "sp"
  let sp ← sp.asBool
  let t ← j.get "t"
  let t ← Json.toMap Json.asULong Json.asBool t
  return { process := p, setProcess := sp, threads := t }

/-- The request of `setTraceState`, endpoint_trace_configurator.cpp:69-72 -/
def setRequest (c : Config) : Json := .obj [("cmd", .str "set"), ("state", toJson c)]

/-- The request of `getTraceState`, endpoint_trace_configurator.cpp:92-94 -/
def getRequest : Json := .obj [("cmd", .str "get")]

/-- The stores of a set command, endpoint_trace_configurator.cpp:117-130; `h` is the number of the handler's copy of the thread map. -/
def setActs (h : Nat) (c : Config) : List Act :=
  (if c.setProcess then [.storeProcess c.process] else []) ++ c.threads.map fun x => .remoteStore h x.1 x.2

/-- The loads for the reply, endpoint_trace_configurator.cpp:138-142 -/
def loads (s : State) (m : List (Nat × Nat)) : Res (List (Nat × Bool)) :=
  Res.mapM (fun x => match s.cells[x.2]? with | some y => .ok (x.1, y.val) | none => .ub) m

/-- `handle`, endpoint_trace_configurator.cpp:106-147. `none` is a request that is not BSON. -/
def handle (s : State) (req : Option Json) : Res (State × Json) :=
  match req with
  | none => .throws "parse_error"
  | some j => do
    let h := s.snaps.length
    let m := s.map
    let s ← step s .getMap
    let cmd ← j.get "cmd"
    let cmd ← cmd.asStr
    let s ← if cmd = "set" then do
        let st ← j.get "state"
        let c ← fromJson st
        run s (setActs h c)
      else .ok s
    let ts ← loads s m
    return (s, .obj [("state", toJson { process := s.process, threads := ts })])

/-- What the client makes of the answer, endpoint_trace_configurator.cpp:74-81 and :96-103. `none`: no answer in time;
    `some none`: not BSON. -/
def clientResult (answer : Option (Option Json)) : Res Config :=
  match answer with
  | none => .ok {}
  | some none => .throws "parse_error"
  | some (some j) => do
    let st ← j.get "state"
    let c ← fromJson st
    return { c with success := true }

/-- The worker of the server calls the handler without catching exceptions (scalopus_transport/src/transport_unix.cpp:218-384,
    :392-406): an exception ends the process. -/
def inWorker {α : Type} : Res α → Res α
  | .throws _ => .terminate
  | r => r

end Scalopus.Configurator
