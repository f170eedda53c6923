import Verif.Model.Cbor
import Verif.Model.Double
import Verif.Model.ScopeNames

/-!
# Specification: what a viewer should be shown for recorded events
-/

namespace Scalopus.NativeSource.Spec

open Cbor (Event Threads)
open Endpoints (TraceMap)

/-- A recorded event with its process and thread. -/
structure Rec where
  pid : Nat
  tid : Nat
  event : Event
  deriving Repr, DecidableEq

/-- All events of the batches (process and threads) in the order of recording. -/
def recorded (batches : List (Nat × Threads)) : List Rec :=
  batches.flatMap fun b => b.2.flatMap fun x => x.2.map fun e => ⟨b.1, x.1, e⟩

/-- Phase and scope of each kind of event in the trace event format of the viewer. -/
def phase : Nat → Option (String × Option String)
  | 1 => some ("B", none)
  | 2 => some ("E", none)
  | 3 => some ("i", some "g")
  | 4 => some ("i", some "p")
  | 5 => some ("i", some "t")
  | 6 => some ("C", none)
  | _ => none

/-- The value of a counter event. -/
def counterValue (e : Event) : Option Int :=
  match e.data with
  | some d => match Cbor.decodeCounter d with
    | .ok z => some z
    | .error _ => none
  | none => none

/-- A kind that is known, and a counter has a value. -/
def Known (e : Event) : Prop := (phase e.type).isSome ∧ (e.type = 6 → (counterValue e).isSome)

/-- What is shown apart from the values of counters: timestamp, thread, process, name, phase, scope. -/
structure Shown where
  ts : ℚ
  tid : Nat
  pid : Int
  name : String
  ph : String
  s : Option String
  deriving DecidableEq

/-- The name of the event's id in its process; a counter is shown without the name of its series. -/
def shownName (names : TraceMap) (r : Rec) : String :=
  let n := ScopeNames.getScopeName names r.pid r.event.id
  if r.event.type = 6 then (ScopeNames.splitCounterSeriesName n).1 else n

def shown (names : TraceMap) (r : Rec) : Shown :=
  let p := (phase r.event.type).getD ("", none)
  { ts := Double.ts r.event.time, tid := r.tid, pid := r.pid, name := shownName names r, ph := p.1, s := p.2 }

/-- If this is an event of the given counter of the given process: its series and its value. -/
def seriesOf (names : TraceMap) (pid : Int) (counter : String) (r : Rec) : Option (String × Int) :=
  if r.event.type = 6 ∧ (r.pid : Int) = pid ∧ shownName names r = counter then
    (counterValue r.event).map fun z => ((ScopeNames.splitCounterSeriesName (ScopeNames.getScopeName names r.pid r.event.id)).2, z)
  else none

/-- The value of a series at the event number `i` of its counter: the last one set so far, or else the first one set later. -/
def value (events : List (String × Int)) (i : Nat) (series : String) : Option Int :=
  (((events.take (i + 1)).reverse.find? fun x => x.1 = series).map (·.2)).or
    (((events.drop (i + 1)).find? fun x => x.1 = series).map (·.2))

end Scalopus.NativeSource.Spec
