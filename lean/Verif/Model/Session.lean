import Verif.Model.Base
import Verif.Model.JsonText

/-!
# A viewer's session

Models `TraceSession` (scalopus_catapult/src/trace_session.cpp): the queue of incoming messages and what the worker thread does for each of them.
A message is given as the value that `json::parse` makes of it, or `none` if that throws. The log output is left out.
-/

namespace Scalopus.Session

open JsonText

/-- Keys and values that are literals in the code. -/
def lit (s : String) : Str := some s.toList

/-- What the worker thread does that others see. -/
inductive Eff where
  | startSource (i : Nat)
  | stopSource (i : Nat)
  | finishSource (i : Nat)
  /-- `response_(text)` -/
  | send (t : Text)
  deriving DecidableEq

/-- `msg["key"]` of a value that is not const: a missing key of an object gives null, null becomes an object, anything else throws `type_error`. -/
def index (j : J) (key : String) : Res J :=
  match j with
  | .obj l => .ok (((l.find? fun m => m.1 == lit key).map fun m => m.2).getD .null)
  | .null => .ok .null
  | _ => .throws "type_error"

/-- `msg["method"] == "..."` -/
def isMethod (j : J) (name : String) : Bool :=
  match j with
  | .str s => s == lit name
  | _ => false

/-- `CHUNK_SIZE`, trace_session.h:51 -/
def chunkSize : Nat := 1000

/-- The slices of `chunkedTransmit`, trace_session.cpp:150-159. -/
def slices (events : List J) : List (List J) :=
  (List.range (events.length / chunkSize + 1)).map fun i =>
    let start := i * chunkSize
    (events.drop start).take (min chunkSize (events.length - start))

/-- `formatEvents`, trace_session.cpp:170-186; `none`: `dump()` throws. -/
def formatEvents (entries : List J) : Option Text :=
  (dumpAll entries).map fun ts =>
    "{ \"method\": \"Tracing.dataCollected\", \"params\": { \"value\": [\n".toList ++ sepBy ",\n".toList ts ++ "]}}".toList

/-- `outgoing(value.dump())`, trace_session.cpp:164-168 -/
def outgoing (j : J) : List Eff × Res Unit :=
  match dump j with
  | some t => ([.send t], .ok ())
  | none => ([], .throws "type_error")

/-- One after the other; an exception ends it. -/
def andThen (a b : List Eff × Res Unit) : List Eff × Res Unit :=
  match a.2 with
  | .ok () => (a.1 ++ b.1, b.2)
  | r => (a.1, r)

/-- `chunkedTransmit`, trace_session.cpp:146-162 -/
def transmitAll : List (List J) → List Eff × Res Unit
  | [] => ([], .ok ())
  | c :: cs => andThen (match formatEvents c with
      | some t => ([.send t], .ok ())
      | none => ([], .throws "type_error")) (transmitAll cs)

/-- The loop in trace_session.cpp:132-137 over the sources from `i` on; `results` are what `finishInterval()` of each source gives. -/
def finishAll (i : Nat) : List (Res (List J)) → List Eff × Res (List J)
  | [] => ([], .ok [])
  | r :: rs =>
    match r with
    | .ok l =>
      let x := finishAll (i + 1) rs
      (.finishSource i :: x.1, x.2.bind fun m => .ok (l ++ m))
    | .throws w => ([.finishSource i], .throws w)
    | .ub => ([.finishSource i], .ub)
    | .terminate => ([.finishSource i], .terminate)

/-- The reply to `Tracing.getCategories`, trace_session.cpp:103-104 -/
def categoriesReply (id : J) : J :=
  .obj [(lit "id", id), (lit "result", .obj [(lit "categories", .arr [.str (lit "!foo"), .str (lit "!bar"), .str (lit "disabled-by-default-buz")])])]

/-- The replies to `Tracing.start` (trace_session.cpp:112, where `{}` is null) and `Tracing.end` (line 127). -/
def emptyReply (id : J) : J := .obj [(lit "id", id), (lit "result", .null)]

/-- trace_session.cpp:140 -/
def completeMessage : J := .obj [(lit "method", .str (lit "Tracing.tracingComplete")), (lit "params", .arr [])]

/-- `processMessage`, trace_session.cpp:94-144. `results` has one entry for each source of the session. -/
def processMessage (results : List (Res (List J))) (msg : Option J) : List Eff × Res Unit :=
  match msg with
  | none => ([], .throws "parse_error")
  | some m =>
    match index m "method", index m "id" with
    | .ok method, .ok id =>
      if isMethod method "Tracing.getCategories" then outgoing (categoriesReply id)
      else if isMethod method "Tracing.start" then
        andThen ((List.range results.length).map .startSource, .ok ()) (outgoing (emptyReply id))
      else if isMethod method "Tracing.end" then
        andThen ((List.range results.length).map .stopSource, .ok ())
          (andThen (outgoing (emptyReply id))
            (match finishAll 0 results with
              | (es, .ok events) => andThen (es, .ok ()) (andThen (transmitAll (slices events)) (outgoing completeMessage))
              | (es, .throws w) => (es, .throws w)
              | (es, .ub) => (es, .ub)
              | (es, .terminate) => (es, .terminate)))
      else ([], .ok ())
    | _, _ => ([], .throws "type_error")

/-- A session: the messages that wait, and what was done for each message that was taken from the queue. -/
structure State where
  queue : List (Option J) := []
  /-- ghost: all messages received -/
  received : List (Option J) := []
  /-- ghost: the messages processed, what the sources returned and what was done -/
  processed : List (Option J × List (Res (List J)) × List Eff) := []
  /-- An exception in the worker thread ends the program: nothing catches it. -/
  terminated : Bool := false

inductive Act where
  /-- `incoming(data)`, trace_session.cpp:52-56 -/
  | incoming (m : Option J)
  /-- `processMessage(popIncoming())` in `loop`, trace_session.cpp:64-80 -/
  | process (results : List (Res (List J)))

def step (s : State) : Act → Option State
  | .incoming m => some { s with queue := s.queue ++ [m], received := s.received ++ [m] }
  | .process results =>
    if s.terminated then none
    else match s.queue with
      | [] => none
      | m :: q =>
        let r := processMessage results m
        some { s with queue := q, processed := s.processed ++ [(m, results, r.1)], terminated := !r.2.isOk }

inductive Reachable : State → Prop
  | init : Reachable {}
  | step {s s' : State} {a : Act} : Reachable s → step s a = some s' → Reachable s'

end Scalopus.Session
