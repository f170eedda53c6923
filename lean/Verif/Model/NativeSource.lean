import Verif.Model.Cbor
import Verif.Model.Double
import Verif.Model.ScopeNames

/-!
# From recorded batches to trace events

Models `NativeTraceSource::finishInterval` (scalopus_tracing/src/native/native_trace_source.cpp:70-207). A JSON entry is a structure with the members that the
code sets; the member `"cat"`, always `"PERF"`, is left out.
-/

namespace Scalopus.NativeSource

open Cbor (Bytes Event Threads)
open Endpoints (TraceMap)

/-- `SeriesMap`, native_trace_source.cpp:92: the last value of each series; the keys are different. -/
abbrev Series := List (String × Int)

/-- A returned entry, native_trace_source.cpp:119-160. -/
structure Entry where
  ts : ℚ
  tid : Nat
  pid : Int
  name : String
  ph : String
  s : Option String := none
  args : Option Series := none
  deriving DecidableEq

/-- `map[key] = value`. -/
def assign {κ ν : Type} [DecidableEq κ] (m : List (κ × ν)) (k : κ) (v : ν) : List (κ × ν) := (k, v) :: m.filter fun x => x.1 ≠ k

/-- `ProcessCounter`, native_trace_source.cpp:93-95: the series of a process and a counter; the default is empty. -/
abbrev Counters := List ((Int × String) × Series)

def Counters.get (c : Counters) (k : Int × String) : Series := (c.lookup k).getD []

/-- What is processed, in the order of the loops in native_trace_source.cpp:98-113: a batch that cannot be decoded, or an event. -/
inductive Item where
  | bad
  | event (pid : Int) (tid : Nat) (e : Event)
  deriving Repr, DecidableEq

/-- One chunk of data, native_trace_source.cpp:100-107. -/
def items (b : Bytes) : List Item :=
  match Cbor.decodeBatch b with
  | .error _ => [.bad]
  | .ok (pid, m) => m.flatMap fun x => x.2.map (.event pid x.1)

/-- Why the loops end early: an exception that is caught in native_trace_source.cpp:170-181, or undefined behaviour. -/
inductive Stop where
  | caught
  | ub
  deriving Repr, DecidableEq

/-- The body of the loops, native_trace_source.cpp:112-165. The codes are those of scalopus_tracing/src/native/tracepoint_collector_native.cpp:35-40. -/
def convert (names : TraceMap) (c : Counters) : Item → Except Stop (Entry × Counters)
  | .bad => .error .caught
  | .event pid tid e =>
    let name := ScopeNames.getScopeName names pid e.id
    let entry (ph : String) (s : Option String) : Except Stop (Entry × Counters) :=
      .ok ({ ts := Double.ts e.time, tid := tid, pid := pid, name := name, ph := ph, s := s }, c)
    if e.type = 1 then entry "B" none
    else if e.type = 2 then entry "E" none
    else if e.type = 3 then entry "i" (some "g")
    else if e.type = 4 then entry "i" (some "p")
    else if e.type = 5 then entry "i" (some "t")
    else if e.type = 6 then
      let cs := ScopeNames.splitCounterSeriesName name
      match e.data with
      | none => .error .ub
      | some d => match Cbor.decodeCounter d with
        | .error _ => .error .caught
        | .ok z =>
          let v := assign (c.get (pid, cs.1)) cs.2 z
          .ok ({ ts := Double.ts e.time, tid := tid, pid := pid, name := cs.1, ph := "C", args := some v }, assign c (pid, cs.1) v)
    else .error .caught

/-- The loops: the entries until the end or the first exception, native_trace_source.cpp:98-181. -/
def convertAll (names : TraceMap) : Counters → List Item → List Entry × Option Stop
  | _, [] => ([], none)
  | c, x :: xs =>
    match convert names c x with
    | .error s => ([], some s)
    | .ok (e, c') => let r := convertAll names c' xs; (e :: r.1, r.2)

/-- Put an entry before the first one with a larger timestamp. -/
def insertByTs (e : Entry) : List Entry → List Entry
  | [] => [e]
  | x :: xs => if e.ts < x.ts then e :: x :: xs else x :: insertByTs e xs

/-- `std::stable_sort` by timestamp, native_trace_source.cpp:183-187. (Its result is determined by its contract; the algorithm is not modelled.) -/
def stableSort (l : List Entry) : List Entry := l.foldl (fun r e => insertByTs e r) []

/-- `std::map::insert(begin, end)`: existing keys stay. -/
def insertMissing (v l : Series) : Series := v ++ l.filter fun x => (v.lookup x.1).isNone

/-- The loop from the last to the first entry, native_trace_source.cpp:189-204: the entries, and `counter_all_series`. -/
def backfill : List Entry → List Entry × Counters
  | [] => ([], [])
  | e :: es =>
    let r := backfill es
    if e.ph = "C" then
      let v := insertMissing (e.args.getD []) (Counters.get r.2 (e.pid, e.name))
      ({ e with args := some v } :: r.1, assign r.2 (e.pid, e.name) v)
    else (e :: r.1, r.2)

/-- `finishInterval`, native_trace_source.cpp:70-207, without the effects on the source (`Model/Recording`). `none`: the provider is gone, line 82 uses a null pointer;
    otherwise `updated` is the mapping after `updateMapping`, whose exceptions are not caught. -/
def finishInterval (updated : Option (Res TraceMap)) (data : List Bytes) : Res (List Entry) :=
  match updated with
  | none => .ub
  | some m => m.bind fun names =>
    match convertAll names [] (data.flatMap items) with
    | (_, some .ub) => .ub
    | (l, _) => .ok (backfill (stableSort l)).1

end Scalopus.NativeSource
