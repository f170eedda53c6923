import Verif.Props.C52_LttngSource
import Verif.Props.C58_EndToEnd

/-!
# C101: from an LTTng tracepoint to the viewer

Puts together what the LTTng tracepoints record (`TraceState.record`), the lines that babeltrace prints for that, the parser and the source.
-/

namespace Scalopus.C101

open LttngSource LttngSource.Spec Endpoints EndToEnd TraceState
open Ctf (Event)
open Ctf.Spec (Line)
open NativeSource (Entry)

/-- A call of a tracepoint that records, and what LTTng adds: when, where and by whom. -/
structure Call where
  point : Point
  secs : Nat
  nanos : Nat
  host : Ctf.Text
  cpu : Nat
  pid : Nat
  tid : Nat

/-- The line that babeltrace prints for a record, with the contexts that scalopus_tracing/test/start adds. -/
def lineOf (c : Call) (name : String) (id : Nat) (value : Option Int) : Line where
  secs := c.secs
  nanos := c.nanos
  host := c.host
  domain := "scalopus_scope_id".toList
  name := name.toList
  stream := [⟨"cpu_id".toList, .int c.cpu⟩]
  context := [⟨"vpid".toList, .int c.pid⟩, ⟨"pthread_id".toList, .int c.tid⟩]
  data := ⟨"id".toList, .int id⟩ :: (match value with
    | some z => [⟨"value".toList, .int z⟩]
    | none => [])
  newline := true

/-- What is traced: calls of this library, and lines of other tracepoints. -/
inductive Traffic where
  | call (c : Call)
  | other (l : Line)

/-- What babeltrace prints: nothing for a call that records nothing. -/
def Traffic.text : Traffic → Option Ctf.Text
  | .call c => match record .lttng c.point with
    | some (.lttng name id value) => some (lineOf c name id value).text
    | _ => none
  | .other l => some l.text

def callsOf (l : List Traffic) : List Call := l.filterMap fun
  | .call c => some c
  | .other _ => none

/-- Values fit their types; host names have no spaces. -/
structure Call.Valid (c : Call) : Prop where
  secs : c.secs < 2 ^ 64
  nanos : c.nanos < 10 ^ 9
  host : ' ' ∉ c.host ∧ c.host.length < 2 ^ 32
  cpu : c.cpu < 2 ^ 32
  pid : c.pid < 2 ^ 31
  tid : c.tid < 2 ^ 64
  id : idOf c.point < 2 ^ 32
  value : ∀ id z, c.point = .count id z → -2 ^ 63 ≤ z ∧ z < 2 ^ 63

def Traffic.Valid : Traffic → Prop
  | .call c => c.Valid
  | .other l => l.Valid ∧ l.domain ≠ "scalopus_scope_id".toList

/-- What the viewer should be shown of a call. -/
def view (names : TraceMap) (c : Call) : NativeSource.Spec.Shown :=
  { ts := Double.nearest (Double.nearest (c.secs + c.nanos / 10 ^ 9) * 10 ^ 6), tid := c.tid, pid := c.pid, name := shownAs c.point (ScopeNames.getScopeName names c.pid (idOf c.point)),
    ph := (phaseOf c.point).1, s := (phaseOf c.point).2 }

/-! ### Auxiliary: the kinds of `Spec/LttngSource` -/

def kindOf : Point → Kind
  | .entry _ => .entry
  | .exit _ => .exit
  | .mark _ .global => .markGlobal
  | .mark _ .process => .markProcess
  | .mark _ .thread => .markThread
  | .count _ z => .count z

def tracedBy (c : Call) : Traced := ⟨c.secs, c.nanos, c.host, c.cpu, c.pid, c.tid, idOf c.point, kindOf c.point⟩

def inputOf : Traffic → Input
  | .call c => .traced (tracedBy c)
  | .other l => .other l

theorem text_eq (x : Traffic) : x.text = some (inputOf x).text := by
  cases x with
  | other l => rfl
  | call c =>
    obtain ⟨p, _, _, _, _, _, _⟩ := c
    cases p with
    | entry id => rfl
    | exit id => rfl
    | mark id l => cases l <;> rfl
    | count id z => rfl

theorem valid_eq {x : Traffic} (h : x.Valid) : (inputOf x).Valid := by
  cases x with
  | other l => exact h
  | call c =>
    refine ⟨h.secs, h.nanos, h.host, h.cpu, h.pid, h.tid, h.id, fun z hz => ?_⟩
    obtain ⟨p, _, _, _, _, _, _⟩ := c
    cases p with
    | count id w => cases hz; exact h.value id _ rfl
    | mark id l => cases l <;> cases hz
    | _ => cases hz

theorem calls_eq (l : List Traffic) : tracedOf (l.map inputOf) = (callsOf l).map tracedBy := by
  induction l with
  | nil => rfl
  | cons x l ih =>
    cases x with
    | call c => exact congrArg (List.cons (tracedBy c)) ih
    | other l => exact ih

theorem shown_eq (names : TraceMap) (c : Call) : shown names (tracedBy c) = view names c := by
  obtain ⟨p, _, _, _, _, _, _⟩ := c
  cases p with
  | entry id => rfl
  | exit id => rfl
  | mark id l => cases l <;> rfl
  | count id z => simp [shown, view, tracedBy, kindOf, shownName, scopeName, shownAs, phaseOf, Kind.phase, split_first, idOf, Traced.ts]

theorem parsed_of (keyFirst : Bool) : ∀ (l : List Traffic) (events : List Event), List.Forall₂ (fun x e => ∃ t, Traffic.text x = some t ∧ Ctf.parse keyFirst t = .ok e) l events →
    Parsed keyFirst (l.map inputOf) events := by
  intro l events h
  induction h with
  | nil => exact .nil
  | @cons x e l es h _ ih =>
    obtain ⟨t, h1, h2⟩ := h
    rw [text_eq] at h1; cases h1
    exact .cons h2 ih

/-! ### The property -/

/-- **C101.** Every call of an LTTng tracepoint that records is printed and parsed. -/
theorem every_call_parsed (keyFirst : Bool) (l : List Traffic) (hv : ∀ x ∈ l, x.Valid) :
    ∃ events, List.Forall₂ (fun x e => ∃ t, Traffic.text x = some t ∧ Ctf.parse keyFirst t = .ok e) l events := by
  obtain ⟨events, h⟩ := parsed_exists keyFirst (l.map inputOf) (fun i hi => by
    obtain ⟨x, hx, rfl⟩ := List.mem_map.1 hi
    exact valid_eq (hv x hx))
  refine ⟨events, ?_⟩
  clear hv
  induction l generalizing events with
  | nil => cases h; exact .nil
  | cons x l ih =>
    cases h with
    | cons h1 h2 => exact .cons ⟨_, text_eq x, h1⟩ (ih _ h2)

/-- **C101.** The finished interval shows exactly the calls, each with the phase of its tracepoint, its process, thread, time and registered name; in the order of time, and those of the same time in the order in
which they were printed. -/
theorem viewer_shows_calls (names : TraceMap) (keyFirst : Bool) (l : List Traffic) (hv : ∀ x ∈ l, x.Valid) (events : List Event)
    (hp : List.Forall₂ (fun x e => ∃ t, Traffic.text x = some t ∧ Ctf.parse keyFirst t = .ok e) l events) :
    ∃ res, finishInterval (.ok names) events = .ok res ∧ (res.map Entry.shape).Perm ((callsOf l).map (view names)) ∧ res.Pairwise (fun a b => a.ts ≤ b.ts) ∧
      ∀ t, (res.map Entry.shape).filter (fun x => x.ts = t) = ((callsOf l).map (view names)).filter fun x => x.ts = t := by
  obtain ⟨res, h1, h2, h3, h4⟩ := C68.interval_exact names keyFirst (l.map inputOf) events (fun i hi => by
    obtain ⟨x, hx, rfl⟩ := List.mem_map.1 hi
    exact valid_eq (hv x hx)) (parsed_of keyFirst l events hp)
  have e : (tracedOf (l.map inputOf)).map (shown names) = (callsOf l).map (view names) := by
    rw [calls_eq, List.map_map]
    exact List.map_congr_left fun c _ => shown_eq names c
  rw [e] at h2 h4
  exact ⟨res, h1, h2, h3, h4⟩

/-- If this is a call of a counter that is shown under this name: its series and value. -/
def counted (names : TraceMap) (counter : String) (c : Call) : Option (String × Int) :=
  match c.point with
  | .count id z => if shownAs c.point (ScopeNames.getScopeName names c.pid id) = counter then some (seriesIn (ScopeNames.getScopeName names c.pid id), z) else none
  | _ => none

theorem counted_eq (names : TraceMap) (counter : String) (c : Call) : seriesOf names counter (tracedBy c) = counted names counter c := by
  obtain ⟨p, _, _, _, _, _, _⟩ := c
  cases p with
  | entry id => rfl
  | exit id => rfl
  | mark id l => cases l <;> rfl
  | count id z => simp [seriesOf, counted, tracedBy, kindOf, shownName, scopeName, shownAs, split_first, split_second, idOf]

/-- **C101, counters.** If the calls were printed in the order of their time, every entry of a counter has a value for each series that is ever set: the last one set so far, or else the first one set later. -/
theorem viewer_shows_values (names : TraceMap) (keyFirst : Bool) (l : List Traffic) (hv : ∀ x ∈ l, x.Valid) (events : List Event)
    (hp : List.Forall₂ (fun x e => ∃ t, Traffic.text x = some t ∧ Ctf.parse keyFirst t = .ok e) l events) (name : String)
    (ho : (callsOf l).Pairwise fun a b => a.secs * 10 ^ 9 + a.nanos ≤ b.secs * 10 ^ 9 + b.nanos) :
    ∃ res, finishInterval (.ok names) events = .ok res ∧ (res.filter (isC name)).length = ((callsOf l).filterMap (counted names name)).length ∧
      ∀ (i : Nat) (e : Entry), (res.filter (isC name))[i]? = some e → ∀ s,
        (e.args.getD []).lookup s = NativeSource.Spec.value ((callsOf l).filterMap (counted names name)) i s := by
  have e : (tracedOf (l.map inputOf)).filterMap (seriesOf names name) = (callsOf l).filterMap (counted names name) := by
    rw [calls_eq, List.filterMap_map]
    congr 1; funext c; exact counted_eq names name c
  have := C68.counters_exact names keyFirst (l.map inputOf) events (fun i hi => by
    obtain ⟨x, hx, rfl⟩ := List.mem_map.1 hi
    exact valid_eq (hv x hx)) (parsed_of keyFirst l events hp) name (by rw [calls_eq, List.pairwise_map]; exact ho)
  rwa [e] at this

/-- **C101.** Both backends show the same kind of event for a tracepoint; this is the kind in the trace event format. -/
theorem backends_agree (p : Point) :
    (∃ code id v, record .native p = some (.native code id v) ∧ id = idOf p ∧ NativeSource.Spec.phase code = some (phaseOf p)) ∧
    ∃ name id v, record .lttng p = some (.lttng name id v) ∧ id = idOf p ∧ LttngSource.phase name.toList = phaseOf p := by
  cases p with
  | entry id => exact ⟨⟨_, _, _, rfl, rfl, rfl⟩, _, _, _, rfl, rfl, rfl⟩
  | exit id => exact ⟨⟨_, _, _, rfl, rfl, rfl⟩, _, _, _, rfl, rfl, rfl⟩
  | mark id l => cases l <;> exact ⟨⟨_, _, _, rfl, rfl, rfl⟩, _, _, _, rfl, rfl, rfl⟩
  | count id z => exact ⟨⟨_, _, _, rfl, rfl, rfl⟩, _, _, _, rfl, rfl, rfl⟩

/-- A scope, a mark and a counter, with a line of another tracepoint. -/
def sample : List Traffic :=
  [.call ⟨.entry 7, 100, 5, "host".toList, 0, 11, 21⟩, .call ⟨.mark 8 .process, 100, 6, "host".toList, 1, 11, 22⟩, .call ⟨.count 9 (-4), 100, 7, "host".toList, 1, 12, 23⟩,
   .call ⟨.exit 7, 100, 8, "host".toList, 0, 11, 21⟩]

example : (∀ x ∈ sample, x.Valid) ∧ (callsOf sample).length = 4 ∧ (callsOf sample).Pairwise fun a b => a.secs * 10 ^ 9 + a.nanos ≤ b.secs * 10 ^ 9 + b.nanos := by
  refine ⟨?_, rfl, by simp [sample, callsOf]⟩
  intro x hx
  simp only [sample, List.mem_cons, List.not_mem_nil, or_false] at hx
  rcases hx with rfl | rfl | rfl | rfl <;> exact ⟨by decide, by decide, by decide, by decide, by decide, by decide, by decide, fun id z h => by cases h <;> decide⟩

end Scalopus.C101
