import Verif.Model.Ctf
import Verif.Model.NativeSource

/-!
# From LTTng events to trace events

Models `LttngSource::finishInterval` and `convertEvents` (scalopus_tracing/src/lttng/lttng_source.cpp:65-177), without the effects on the source (`Model/LttngSessions`). A JSON
entry is `NativeSource.Entry`; `ph` is empty if the code sets no member `"ph"`. The member `"cat"`, always `"PERF"`, is left out.
-/

namespace Scalopus.LttngSource

open Ctf (Event IdMap Text)
open Endpoints (TraceMap)
open NativeSource (Entry Series assign insertMissing stableSort)

/-- `static_cast<int>` of an `unsigned long long` -/
def toInt (n : Nat) : Int := if n % 2 ^ 32 < 2 ^ 31 then (n % 2 ^ 32 : Nat) else (n % 2 ^ 32 : Nat) - 2 ^ 32

/-- `static_cast<std::int64_t>` of an `unsigned long long` -/
def toInt64 (n : Nat) : Int := if n % 2 ^ 64 < 2 ^ 63 then (n % 2 ^ 64 : Nat) else (n % 2 ^ 64 : Nat) - 2 ^ 64

/-- `ts * 1e6`, lttng_source.cpp:101. (Results above the range of a double are not modelled.) -/
def micros (t : ℚ) : ℚ := if t < 0 then -Double.nearest (-t * 10 ^ 6) else Double.nearest (t * 10 ^ 6)

/-- `CounterMap`, lttng_source.cpp:83: the series of a counter; the default is empty. -/
abbrev Counters := List (String × Series)

def Counters.get (c : Counters) (k : String) : Series := (c.lookup k).getD []

/-- `m.at(key)` -/
def find (m : IdMap) (k : Text) : Res Nat :=
  match m.lookup k with
  | some v => .ok v
  | none => .throws "out_of_range"

/-- The phase and scope of an event, lttng_source.cpp:117-142. -/
def phase (name : Text) : String × Option String :=
  if name = "scope_entry".toList then ("B", none)
  else if name = "scope_exit".toList then ("E", none)
  else if name = "mark_event_global".toList then ("i", some "g")
  else if name = "mark_event_process".toList then ("i", some "p")
  else if name = "mark_event_thread".toList then ("i", some "t")
  else if name = "count_event".toList then ("C", none)
  else ("", none)

/-- The body of the loop, lttng_source.cpp:90-151: the entry if there is one, and `counter_values`. Line 91 reads a member that is not initialised if the line had no time. A time
    that is not finite is treated as undefined behaviour: the sort in line 156 may compare it. -/
def convert (names : TraceMap) (c : Counters) (e : Event) : Res (Option Entry × Counters) :=
  match e.time with
  | none => .ub
  | some t =>
    if e.domain = "scalopus_scope_id".toList then
      match t with
      | none => .ub
      | some t => (find e.context "pthread_id".toList).bind fun tid => (find e.context "vpid".toList).bind fun pid =>
        let id := ((e.data.lookup "id".toList).getD 0) % 2 ^ 32
        let name := ScopeNames.getScopeName names (toInt pid) id
        let p := phase e.name
        if e.name = "count_event".toList then
          let cs := ScopeNames.splitCounterSeriesName name
          (find e.data "value".toList).bind fun n =>
          let v := assign (c.get cs.1) cs.2 (toInt64 n)
          .ok (some { ts := micros t, tid := tid, pid := pid, name := cs.1, ph := p.1, s := p.2, args := some v }, assign c cs.1 v)
        else .ok (some { ts := micros t, tid := tid, pid := pid, name := name, ph := p.1, s := p.2 }, c)
    else .ok (none, c)

/-- The loop, lttng_source.cpp:88-152. -/
def convertAll (names : TraceMap) : Counters → List Event → Res (List Entry)
  | _, [] => .ok []
  | c, e :: es => (convert names c e).bind fun x => (convertAll names x.2 es).bind fun r => .ok (x.1.toList ++ r)

/-- The loop from the last to the first entry, lttng_source.cpp:161-173: the entries, and `count_all_series`. -/
def backfill : List Entry → Res (List Entry × Counters)
  | [] => .ok ([], [])
  | e :: es => (backfill es).bind fun r =>
    if e.ph = "" then .throws "out_of_range"
    else if e.ph = "C" then
      let v := insertMissing (e.args.getD []) (Counters.get r.2 e.name)
      .ok ({ e with args := some v } :: r.1, assign r.2 e.name v)
    else .ok (e :: r.1, r.2)

/-- `finishInterval`, lttng_source.cpp:65-177; `updated`: the mapping after line 86. -/
def finishInterval (updated : Res TraceMap) (events : List Event) : Res (List Entry) :=
  if events = [] then .ok []
  else updated.bind fun names => (convertAll names [] events).bind fun l => (backfill (stableSort l)).bind fun r => .ok r.1

end Scalopus.LttngSource
