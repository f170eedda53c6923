import Verif.Model.Crc
import Verif.Model.Server
import Verif.Model.ScopeNames
import Verif.Model.TraceState

/-!
# The example programs

Models scalopus_examples/src: what the traced threads of readme_example.cpp, showcase_marker_events.cpp, showcase_toggle_tracepoints.cpp, showcase_count_events.cpp, embedded_catapult_recorder.cpp,
embedded_catapult_server.cpp and random_callstacks.cpp do at their tracepoints, in program order. Sleeping and printing is left out. The process switch is on: none of the programs changes it (a client of
random_callstacks could, through its configurator; that is not part of this model). `f` is `__FILE__`, which depends on where the code was compiled, and is arbitrary. The texts of `__PRETTY_FUNCTION__` are those of g++.
-/

namespace Scalopus.Examples

open Crc

/-- The bytes of a literal. -/
def lit (s : String) : List UInt8 := s.toList.map fun c => UInt8.ofNat c.toNat

abbrev Id := Option (BitVec 32)

/-- What a tracepoint does. -/
inductive Item where
  /-- `StaticStringTracker::insert`, internal/trace_macro.h:47-53. Only the first one of a tracepoint is done; the others would insert the same again, and are not left out here. -/
  | register (id : Id) (name : List UInt8)
  /-- `scope_entry`, `scope_exit`, `mark_event` and `count_event` that find the switch on, internal/trace_macro.h:57-95 -/
  | entry (id : Id)
  | exit (id : Id)
  | mark (id : Id) (level : TraceState.Level)
  | count (id : Id) (value : Int)
  deriving DecidableEq, Repr

/-- A piece of code of one thread: what its tracepoints do, given the switch of the thread. -/
abbrev Code := Bool → List Item

def skip : Code := fun _ => []

/-- `p; q` -/
def Code.andThen (p q : Code) : Code := fun on => p on ++ q on

@[inherit_doc] infixr:60 " ;; " => Code.andThen

/-- A call of a tracepoint, native_tracepoint.cpp:62-138: nothing if the thread is switched off. -/
def emit (e : Item) : Code := fun on => if on then [e] else []

/-- `TRACE_TRACKED_MAPPING_REGISTER_ONCE`, internal/trace_macro.h:47-53: whatever the switch is. -/
def register (s : Site) : Code := fun _ => [.register s.id s.kind.registered]

/-- `{ TRACE_SCOPE_RAII(..) or TRACE_PRETTY_FUNCTION(); body }`, internal/trace_macro.h:57-62 -/
def scope (s : Site) (body : Code) : Code := register s ;; emit (.entry s.id) ;; body ;; emit (.exit s.id)

/-- `{ TRACING_CONFIG_THREAD_STATE_RAII(b); body }`, internal/trace_macro.h:77-81, trace_configuration_raii.cpp:36-62 -/
def switched (b : Bool) (body : Code) : Code := fun _ => body b

/-- `TRACE_SCOPE_START`, internal/trace_macro.h:64-69 -/
def start (s : Site) : Code := register s ;; emit (.entry s.id)

/-- `TRACE_SCOPE_END`, internal/trace_macro.h:71-75: registers nothing. -/
def finish (s : Site) : Code := emit (.exit s.id)

/-- `TRACE_MARK_EVENT_..`, internal/trace_macro.h:83-88 -/
def markAt (s : Site) (level : TraceState.Level) : Code := register s ;; emit (.mark s.id level)

/-- `TRACE_COUNT..`, internal/trace_macro.h:90-98 -/
def countAt (s : Site) (value : Int) : Code := register s ;; emit (.count s.id value)

/-- `n` rounds of a loop -/
def rounds (p : Code) : Nat → Code
  | 0 => skip
  | n + 1 => p ;; rounds p n

/-! ## readme_example.cpp -/

namespace Readme

/-- readme_example.cpp:37-41 -/
def fooBarBuz (f : List UInt8) : Code := scope ⟨f, 39, .scope (lit "void fooBarBuz()")⟩ skip

/-- readme_example.cpp:43-50 -/
def c (f : List UInt8) : Code := scope ⟨f, 45, .scope (lit "void c()")⟩ (fooBarBuz f)

/-- readme_example.cpp:52-63 -/
def b (f : List UInt8) : Code := start ⟨f, 57, .start (lit "void b()")⟩ ;; c f ;; finish ⟨f, 62, .finish (lit "void b()")⟩

/-- readme_example.cpp:65-72 -/
def a (f : List UInt8) : Code := scope ⟨f, 67, .scope (lit "void a()")⟩ (b f)

/-- `n` rounds of the loop of `main`, readme_example.cpp:92-96 -/
def main (f : List UInt8) (n : Nat) : Code := rounds (a f) n

end Readme

/-! ## showcase_marker_events.cpp -/

namespace Marker

/-- showcase_marker_events.cpp:40-47 -/
def fooBarBuz (f : List UInt8) : Code := scope ⟨f, 43, .scope (lit "void fooBarBuz()")⟩ (markAt ⟨f, 45, .mark (lit "Event in fooBarBuz")⟩ .thread)

/-- showcase_marker_events.cpp:50-57 -/
def c (f : List UInt8) : Code := scope ⟨f, 52, .scope (lit "void c()")⟩ (fooBarBuz f)

/-- showcase_marker_events.cpp:60-69: there is a scoped tracepoint and, at the end, also `TRACE_SCOPE_END`. -/
def b (f : List UInt8) : Code :=
  markAt ⟨f, 62, .mark (lit "Event of process.")⟩ .process ;; scope ⟨f, 63, .scope (lit "void b()")⟩ (c f ;; finish ⟨f, 68, .finish (lit "void b()")⟩)

/-- showcase_marker_events.cpp:72-79 -/
def a (f : List UInt8) : Code := scope ⟨f, 74, .scope (lit "void a()")⟩ (b f)

/-- `n` rounds of the loop of `main`, showcase_marker_events.cpp:99-104 -/
def main (f : List UInt8) (n : Nat) : Code := rounds (markAt ⟨f, 101, .mark (lit "Global Event")⟩ .global ;; a f) n

end Marker

/-! ## showcase_toggle_tracepoints.cpp -/

namespace Toggle

/-- showcase_toggle_tracepoints.cpp:41-47 -/
def fooBarBuz (f : List UInt8) : Code := switched true (scope ⟨f, 45, .scope (lit "void fooBarBuz()")⟩ skip)

/-- showcase_toggle_tracepoints.cpp:50-57 -/
def c (f : List UInt8) : Code := scope ⟨f, 52, .scope (lit "void c()")⟩ (fooBarBuz f)

/-- showcase_toggle_tracepoints.cpp:60-68: there is a scoped tracepoint and, at the end, also `TRACE_SCOPE_END`. -/
def b (f : List UInt8) : Code := scope ⟨f, 62, .scope (lit "void b()")⟩ (c f ;; finish ⟨f, 67, .finish (lit "void b()")⟩)

/-- showcase_toggle_tracepoints.cpp:71-78 -/
def a (f : List UInt8) : Code := scope ⟨f, 73, .scope (lit "void a()")⟩ (b f)

/-- `this_disables_tracepoints_and_calls_a`, showcase_toggle_tracepoints.cpp:80-85: the switch is set back before the scope is left. -/
def disables (f : List UInt8) : Code := scope ⟨f, 82, .scope (lit "void this_disables_tracepoints_and_calls_a()")⟩ (switched false (a f))

/-- `n` rounds of the loop of `main`, showcase_toggle_tracepoints.cpp:105-111 -/
def main (f : List UInt8) (n : Nat) : Code := rounds (a f ;; disables f) n

end Toggle

/-! ## embedded_catapult_recorder.cpp and embedded_catapult_server.cpp -/

namespace Embedded

/-- embedded_catapult_recorder.cpp:46-52 (line 48); embedded_catapult_server.cpp:45-51 (line 47) -/
def c (f : List UInt8) (line : Nat) : Code := scope ⟨f, line, .scope (lit "void c()")⟩ skip

/-- embedded_catapult_recorder.cpp:54-61 (line 56); embedded_catapult_server.cpp:53-60 (line 55) -/
def b (f : List UInt8) (line : Nat) : Code := scope ⟨f, line + 8, .scope (lit "void b()")⟩ (c f line)

/-- embedded_catapult_recorder.cpp:63-70 (line 65); embedded_catapult_server.cpp:62-69 (line 64) -/
def a (f : List UInt8) (line : Nat) : Code := scope ⟨f, line + 17, .scope (lit "void a()")⟩ (b f line)

/-- The calls of `a` in `main`, embedded_catapult_recorder.cpp:104-107 -/
def recorder (f : List UInt8) : Code := rounds (a f 48) 5

/-- `n` rounds of the loop of `main`, embedded_catapult_server.cpp:106-109 -/
def server (f : List UInt8) (n : Nat) : Code := rounds (a f 47) n

end Embedded

/-! ## showcase_count_events.cpp -/

namespace Count

/-- One round of the loop of `main`, showcase_count_events.cpp:60-71, with `steps` before it; `slow` and `fast` are the two values computed from sines, which are arbitrary here. `steps` is an `int`: adding one
    to the largest is undefined. -/
def round (f : List UInt8) (slow fast : Int) (steps : Int) : Res (List Item × Int) :=
  if steps + 1 < 2 ^ 31 then
    .ok ((countAt ⟨f, 68, .countSeries (lit "sinusoids") (lit "slow")⟩ slow ;; countAt ⟨f, 69, .countSeries (lit "sinusoids") (lit "fast")⟩ fast ;;
      countAt ⟨f, 70, .count (lit "ramp")⟩ ((steps + 1).tmod 100)) true, steps + 1)
  else .ub

/-- The loop of `main`, given the values of the sines in each round. -/
def main (f : List UInt8) (steps : Int) : List (Int × Int) → Res (List Item)
  | [] => .ok []
  | (slow, fast) :: l => (round f slow fast steps).bind fun x => (main f x.2 l).bind fun y => .ok (x.1 ++ y)

end Count

/-! ## random_callstacks.cpp -/

namespace Random

def id (level : Nat) : Id := some (BitVec.ofNat 32 level)

/-- `random_callstack`, random_callstacks.cpp:59-84, given what the calls of `randint` give, in order, of which the rest is returned. `none`: there are not enough of them, or the recursion is deeper than
    `fuel`. Each call of `randint` is made before `level` is looked at. -/
def callstack : Nat → Nat → List Nat → Option (List Item × List Nat)
  | 0, _, _ => none
  | fuel + 1, level, draws =>
    match draws with
    | [] => none
    | r :: draws =>
      match if r ≠ 0 ∧ level ≤ 9 then callstack fuel (level + 1) draws else some ([], draws) with
      | none | some (_, []) => none
      | some (inner, r' :: draws) =>
        match if r' = 0 ∧ level ≤ 9 then callstack fuel level draws else some ([], draws) with
        | none => none
        | some (again, draws) => some (.entry (id level) :: inner ++ .exit (id level) :: again, draws)

/-- `n` rounds of the loop of a thread, random_callstacks.cpp:143-146 -/
def thread (fuel : Nat) : Nat → List Nat → Option (List Item)
  | 0, _ => some []
  | n + 1, draws =>
    match callstack fuel 0 draws with
    | none => none
    | some (l, draws) => (thread fuel n draws).map (l ++ ·)

/-- The names that `main` gives before it starts threads, random_callstacks.cpp:126-132 -/
def names : List (Id × String) := (List.range 11).map fun i => (id i, "level 0x" ++ String.ofList (ScopeNames.hexDigits i))

/-- How `main` goes on. -/
inductive Start where
  /-- prints its usage and ends with status 1 -/
  | usage
  /-- runs with this many threads -/
  | threads (timeBase count : Nat)
  deriving DecidableEq, Repr

/-- `static_cast<size_t>(int)` -/
def toSize (i : Int) : Nat := (i % 2 ^ 64).toNat

/-- The options, random_callstacks.cpp:97-114, given the arguments. -/
def options (args : List Server.Text) : Res Start :=
  (match args with
    | [] => Res.ok 10000
    | a :: _ => Server.atoi a).bind fun timeBase =>
  (match args with
    | _ :: b :: _ => Server.atoi b
    | _ => Res.ok 1).bind fun count =>
  if toSize timeBase = 0 then .ok .usage else .ok (.threads (toSize timeBase) (toSize count))

/-- The generator, random_callstacks.cpp:51-56: one for all threads, changed by each call of `randint`, without a lock. `inside t`: thread `t` is in `dis(gen)`. `race`: two were at once. -/
structure Gen where
  inside : Nat → Bool := fun _ => false
  race : Bool := false

inductive Draw where
  | begin (t : Nat)
  | finish (t : Nat)
  deriving DecidableEq, Repr

/-- A step of one of `count` threads. -/
def draw (count : Nat) (s : Gen) : Draw → Option Gen
  | .begin t => if t < count ∧ s.inside t = false then
      some { inside := fun u => if u = t then true else s.inside u, race := s.race || (List.range count).any s.inside } else none
  | .finish t => if t < count ∧ s.inside t = true then some { s with inside := fun u => if u = t then false else s.inside u } else none

def runGen (count : Nat) (s : Gen) : List Draw → Option Gen
  | [] => some s
  | a :: l => (draw count s a).bind fun s => runGen count s l

end Random

end Scalopus.Examples
