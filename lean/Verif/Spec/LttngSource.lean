import Verif.Spec.Ctf
import Verif.Spec.NativeSource

/-!
# Specification: what a viewer should be shown for events traced with LTTng
-/

namespace Scalopus.LttngSource.Spec

open Ctf (Text)
open Ctf.Spec (Line Field Value)
open Endpoints (TraceMap)

/-- The kinds of tracepoints, scalopus_tracing/src/lttng/scope_tracepoint_lttng_definition.h:38-59. -/
inductive Kind where
  | entry | exit | markGlobal | markProcess | markThread
  | count (value : Int)
  deriving DecidableEq

/-- The name of the tracepoint. -/
def Kind.name : Kind → Text
  | .entry => "scope_entry".toList
  | .exit => "scope_exit".toList
  | .markGlobal => "mark_event_global".toList
  | .markProcess => "mark_event_process".toList
  | .markThread => "mark_event_thread".toList
  | .count _ => "count_event".toList

/-- Phase and scope in the trace event format of the viewer. -/
def Kind.phase : Kind → String × Option String
  | .entry => ("B", none)
  | .exit => ("E", none)
  | .markGlobal => ("i", some "g")
  | .markProcess => ("i", some "p")
  | .markThread => ("i", some "t")
  | .count _ => ("C", none)

/-- An event traced by a process. -/
structure Traced where
  secs : Nat
  nanos : Nat
  host : Text
  cpu : Nat
  pid : Nat
  tid : Nat
  id : Nat
  kind : Kind

/-- The line that babeltrace prints for it, with the contexts that scalopus_tracing/test/start adds. -/
def Traced.line (m : Traced) : Line where
  secs := m.secs
  nanos := m.nanos
  host := m.host
  domain := "scalopus_scope_id".toList
  name := m.kind.name
  stream := [⟨"cpu_id".toList, .int m.cpu⟩]
  context := [⟨"vpid".toList, .int m.pid⟩, ⟨"pthread_id".toList, .int m.tid⟩]
  data := ⟨"id".toList, .int m.id⟩ :: match m.kind with
    | .count z => [⟨"value".toList, .int z⟩]
    | _ => []
  newline := true

/-- Values fit their types; host names have no spaces. -/
structure Traced.Valid (m : Traced) : Prop where
  secs : m.secs < 2 ^ 64
  nanos : m.nanos < 10 ^ 9
  host : ' ' ∉ m.host ∧ m.host.length < 2 ^ 32
  cpu : m.cpu < 2 ^ 32
  pid : m.pid < 2 ^ 31
  tid : m.tid < 2 ^ 64
  id : m.id < 2 ^ 32
  value : ∀ z, m.kind = .count z → -2 ^ 63 ≤ z ∧ z < 2 ^ 63

/-- What babeltrace prints: events of this library, and those of other tracepoints. -/
inductive Input where
  | traced (m : Traced)
  | other (l : Line)

def Input.text : Input → Text
  | .traced m => m.line.text
  | .other l => l.text

def Input.Valid : Input → Prop
  | .traced m => m.Valid
  | .other l => l.Valid ∧ l.domain ≠ "scalopus_scope_id".toList

/-- The events of this library among them. -/
def tracedOf (l : List Input) : List Traced := l.filterMap fun
  | .traced m => some m
  | .other _ => none

/-- The time in microseconds: the double nearest to the printed seconds, times 10^6, rounded again. -/
def Traced.ts (m : Traced) : ℚ := Double.nearest (Double.nearest (m.secs + m.nanos / 10 ^ 9) * 10 ^ 6)

/-- The registered name of the event's id in its process. -/
def scopeName (names : TraceMap) (m : Traced) : String := ScopeNames.getScopeName names m.pid m.id

/-- A counter is shown without the name of its series. -/
def shownName (names : TraceMap) (m : Traced) : String :=
  match m.kind with
  | .count _ => (ScopeNames.splitCounterSeriesName (scopeName names m)).1
  | _ => scopeName names m

def shown (names : TraceMap) (m : Traced) : NativeSource.Spec.Shown :=
  { ts := m.ts, tid := m.tid, pid := m.pid, name := shownName names m, ph := m.kind.phase.1, s := m.kind.phase.2 }

/-- If this is an event of the given counter: its series and its value. -/
def seriesOf (names : TraceMap) (counter : String) (m : Traced) : Option (String × Int) :=
  match m.kind with
  | .count z => if shownName names m = counter then some ((ScopeNames.splitCounterSeriesName (scopeName names m)).2, z) else none
  | _ => none

end Scalopus.LttngSource.Spec
