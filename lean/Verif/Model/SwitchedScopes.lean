import Verif.Model.Sections

/-!
# Scopes of a thread whose tracing is switched

Models the test in front of every tracepoint (scalopus_tracing/src/native/native_tracepoint.cpp:69-72, :85-88, :101-104, :130-133; src/lttng/lttng_tracepoint.cpp:46-49): entry
and exit of a scope look at the switches separately. Who switches and how is not told apart: the thread itself, another thread, or the configurator for another process
(trace_configurator.cpp:78-96, endpoint_trace_configurator.cpp); `on i` says whether both switches are on when the thread makes its event number `i`.

`Guarded` are programs whose switches are scoped themselves (`TRACING_CONFIG_THREAD_STATE_RAII`, `TRACING_CONFIG_PROCESS_STATE_RAII`).

Simplifications: as in `Sections`, the buffer is never full; in `Guarded.run` no one else sets the switches.
-/

namespace Scalopus.SwitchedScopes

open Sections (Moment Prog)

/-- What is recorded of the events of a thread, the first of which has number `k`: those for which both switches are on, native_tracepoint.cpp:69-75. -/
def recorded (on : Nat → Bool) : Nat → List Moment → List Moment
  | _, [] => []
  | k, m :: l => if on k then m :: recorded on (k + 1) l else recorded on (k + 1) l

/-- The two switches that the tracepoints of a thread look at, trace_configurator.cpp:37, :62. -/
structure Switches where
  process : Bool := true
  thread : Bool := true
  deriving Repr, DecidableEq

/-- The test, native_tracepoint.cpp:69. -/
def Switches.on (s : Switches) : Bool := s.process && s.thread

/-- `setProcessState` or `setThreadState`: the previous state of the switch and the new switches, trace_configurator.cpp:78-81, :93-96. -/
def Switches.set (s : Switches) (isProcess new : Bool) : Bool × Switches :=
  if isProcess then (s.process, { s with process := new }) else (s.thread, { s with thread := new })

/-- What a thread does that switches tracing only by scoped switches: as `Sections.Prog`, and `{ TRACING_CONFIG_..._STATE_RAII(new); body }`, trace_macro.h:77-81. -/
inductive Guarded where
  | done
  | scope (id start stop : Nat) (body rest : Guarded)
  | mark (id time : Nat) (level : TraceState.Level) (rest : Guarded)
  | count (id time : Nat) (value : Int) (rest : Guarded)
  | switch (isProcess new : Bool) (body rest : Guarded)
  deriving Repr, DecidableEq

/-- A tracepoint: what is recorded, native_tracepoint.cpp:69-75. -/
def Switches.point (s : Switches) (m : Moment) : List Moment := if s.on then [m] else []

/-- What is recorded, and the switches afterwards: scope_trace_raii.cpp:35-43, trace_configuration_raii.cpp:35-59 (the constructor keeps the previous state and the destructor sets it again). -/
def Guarded.run : Guarded → Switches → List Moment × Switches
  | .done, s => ([], s)
  | .scope id start stop body rest, s =>
    let (l1, s1) := body.run s
    let (l2, s2) := rest.run s1
    (s.point ⟨start, .entry id⟩ ++ l1 ++ s1.point ⟨stop, .exit id⟩ ++ l2, s2)
  | .mark id time level rest, s =>
    let (l, s1) := rest.run s
    (s.point ⟨time, .mark id level⟩ ++ l, s1)
  | .count id time value rest, s =>
    let (l, s1) := rest.run s
    (s.point ⟨time, .count id value⟩ ++ l, s1)
  | .switch isProcess new body rest, s =>
    let (previous, s1) := s.set isProcess new
    let (l1, s2) := body.run s1
    let (_, s3) := s2.set isProcess previous
    let (l2, s4) := rest.run s3
    (l1 ++ l2, s4)

end Scalopus.SwitchedScopes
