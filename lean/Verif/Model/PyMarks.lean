import Verif.Model.NativeSource

/-!
# Sections, marks and counters made in Python

Models the classes `TraceContext`, `MarkerEvent` and `CountEvent` and the helpers that make their objects (scalopus_python/scalopus/tracing.py:70-158), with the functions that they call
(scalopus_python/lib/scalopus_tracing.cpp:46-62, 114-116, 146-149) and the tracepoints of the native backend (scalopus_tracing/src/native/native_tracepoint.cpp:62-143).

Simplifications: one thread. The backend is the native one (for others see `Model/PyBackend`), the buffer of the thread is not full (for that see `Model/Collector`). The ids are those of `uniqueTraceId`: for ids that
the program gives itself see `Model/PyTracing`. `prefix` and `ctx_type` of a helper are set when it is made (157-158). Every call has the time at which it is made.
-/

namespace Scalopus.PyMarks

open Cbor (Event)

/-- The class of a context: `TraceContext` (tracing.py:70), `MarkerEvent` (134), `CountEvent` (150). -/
inductive Kind where
  | scope
  | marker
  | counter
  deriving Repr, DecidableEq

/-- `MarkLevel`, scalopus_tracing.cpp:59-62. -/
inductive Level where
  | global
  | process
  | thread
  deriving Repr, DecidableEq

/-- A value that a program gives to `count`: an `int`, or something else. -/
inductive Value where
  | int (z : Int)
  | other
  deriving Repr, DecidableEq

inductive Exc where
  | attributeError
  | typeError
  deriving Repr, DecidableEq

structure Ctx where
  kind : Kind
  name : String
  id : Nat
  deriving Repr, DecidableEq

/-- A `TraceContextHelper` (tracing.py:102-130): `prefix`, `ctx_type` and the contexts that it has as attributes, by their numbers. -/
structure Helper where
  prefix_ : String
  kind : Kind
  attrs : List (String × Nat) := []
  deriving Repr, DecidableEq

structure State where
  /-- The counter of `uniqueTraceId`, scalopus_tracing.cpp:46-50. -/
  next : Nat := 0
  /-- The names in `StaticStringTracker`: the newest entry of an id counts. -/
  table : List (Nat × String) := []
  /-- The contexts that were made, the oldest first. -/
  ctxs : List Ctx := []
  /-- `trace_section` (132), `trace_count` (157-158) and those that the program has made. -/
  helpers : List Helper := [⟨"", .scope, []⟩, ⟨"", .counter, []⟩]
  process : Bool := true
  thread : Bool := true
  /-- What is in the buffer. -/
  events : List Event := []

inductive Op where
  /-- `TraceContext(name)`, `MarkerEvent(name)`, `CountEvent(name)` -/
  | make (k : Kind) (name : String)
  /-- `h = TraceContextHelper(prefix); h.ctx_type = ...` -/
  | makeHelper (prefix_ : String) (k : Kind)
  /-- `scalopus.tracing.NAME`, to get a helper -/
  | find (name : String)
  /-- `h.name` or `h("name")` for helper number `h` -/
  | get (h : Nat) (name : String)
  /-- `c.enter()` or the start of `with c`, for context number `c` -/
  | enter (c : Nat)
  /-- `c.exit()` or the end of `with c` -/
  | exit (c : Nat)
  /-- `c.global_()`, `c.process()`, `c.thread()` or `c.mark_event(level)` -/
  | mark (c : Nat) (l : Level)
  /-- `c.count(v)` -/
  | count (c : Nat) (v : Value)
  /-- `setThreadState`, `setProcessState` -/
  | setThread (b : Bool)
  | setProcess (b : Bool)
  deriving Repr, DecidableEq

/-- What a call gives. -/
inductive Out where
  | none
  | ctx (i : Nat)
  | helper (i : Nat)
  /-- Something that is no context: the prefix, the class or a method of a helper (`Model/PyHelper`). -/
  | other
  | raised (e : Exc)
  deriving Repr, DecidableEq

/-- The helpers that the module `scalopus.tracing` has: tracing.py:132, 157. No other name of the module is bound to one. -/
def moduleHelper (name : String) : Option Nat :=
  if name = "trace_section" then some 0
  else if name = "trace_count" then some 1
  else none

/-- The numbers of the events: TracePointCollectorNative, tracepoint_collector_native.cpp:35-40, as native_tracepoint.cpp:107-121 chooses them. -/
def Level.code : Level → Nat
  | .global => 3
  | .process => 4
  | .thread => 5

/-- A tracepoint: nothing if the process or the thread is switched off, native_tracepoint.cpp:69-75, 85-91, 101-125, 134-142. -/
def push (s : State) (e : Event) : State := if s.process && s.thread then { s with events := s.events ++ [e] } else s

/-- `TraceContext.__init__`, tracing.py:73-84. pybind11 refuses an id that is not an `unsigned int`. -/
def newCtx (s : State) (k : Kind) (name : String) : Out × State :=
  let s1 := { s with next := (s.next + 1) % 2 ^ 64 }
  if s.next < 2 ^ 32 then (.ctx s.ctxs.length, { s1 with table := (s.next, name) :: s.table, ctxs := s.ctxs ++ [⟨k, name, s.next⟩] })
  else (.raised .typeError, s1)

/-- The names that reading an attribute finds in a helper before `__getattr__` is asked: those of `__init__` (tracing.py:111-112) and those of the class. -/
def ownAttr (classAttrs : List String) (name : String) : Bool := name == "ctx_type" || name == "prefix" || classAttrs.contains name

/-- One call at the given time. `none`: the program has no such object. -/
def step (classAttrs : List String) (s : State) (time : Nat) : Op → Option (Out × State)
  | .make k name => some (newCtx s k name)
  | .makeHelper p k => some (.helper s.helpers.length, { s with helpers := s.helpers ++ [⟨p, k, []⟩] })
  | .find name => match moduleHelper name with
    | some h => some (.helper h, s)
    | none => some (.raised .attributeError, s)
  | .get h name => match s.helpers[h]? with
    | none => none
    | some x =>
      if ownAttr classAttrs name then some (.other, s)
      else match x.attrs.lookup name with
        | some i => some (.ctx i, s)
        | none => match newCtx s x.kind (x.prefix_ ++ name) with
          | (.ctx i, s1) => some (.ctx i, { s1 with helpers := s.helpers.set h { x with attrs := (name, i) :: x.attrs } })
          | r => some r
  | .enter c => (s.ctxs[c]?).map fun x => (.none, push s { time := time, id := x.id, type := 1 })
  | .exit c => (s.ctxs[c]?).map fun x => (.none, push s { time := time, id := x.id, type := 2 })
  | .mark c l => (s.ctxs[c]?).map fun x => if x.kind = .marker then (.none, push s { time := time, id := x.id, type := l.code }) else (.raised .attributeError, s)
  | .count c v => (s.ctxs[c]?).map fun x =>
    if x.kind = .counter then
      match v with
      | .int z => if -2 ^ 63 ≤ z ∧ z < 2 ^ 63 then (.none, push s { time := time, id := x.id, type := 6, data := some (Cbor.encodeCounter z) }) else (.raised .typeError, s)
      | .other => (.raised .typeError, s)
    else (.raised .attributeError, s)
  | .setThread b => some (.none, { s with thread := b })
  | .setProcess b => some (.none, { s with process := b })

/-- A program: the calls with their times; what they gave, and the state at the end. -/
def run (classAttrs : List String) (s : State) : List (Nat × Op) → Option (List Out × State)
  | [] => some ([], s)
  | (t, op) :: l => match step classAttrs s t op with
    | none => none
    | some (o, s1) => (run classAttrs s1 l).map fun r => (o :: r.1, r.2)

/-- What the viewer is shown after a recording of the whole program: the names are those of the end, as `EndpointTraceMapping` and `ScopeTracingProvider` give them
    (`StaticStringTracker::getMap`: one name for each id). -/
def shown (pid tid : Nat) (s : State) : Res (List NativeSource.Entry) :=
  NativeSource.finishInterval (some (.ok [((pid : Int), s.table)])) [Cbor.encodeBatch pid [(tid, s.events)]]

end Scalopus.PyMarks
