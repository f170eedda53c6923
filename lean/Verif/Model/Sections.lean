import Verif.Model.EndToEnd

/-!
# What a thread with traced scopes emits

Models the scoped tracepoints (`TRACE_SCOPE_RAII`, `TRACE_PRETTY_FUNCTION`: scalopus_tracing/include/scalopus_tracing/internal/trace_macro.h:57-62,
src/scope_trace_raii.cpp:35-43) of one thread with the times that the clock gives (src/native/native_tracepoint.cpp:54-60). The clock is
`std::chrono::high_resolution_clock`, which is the time of day where the library is used, and can be set.

Simplifications: tracing is on all the time (for switches see C23 and C24), and the thread's buffer is never full (C18, C19).
-/

namespace Scalopus.Sections

open TraceState (Point Level)

/-- An event with the time that the clock gave, native_tracepoint.cpp:74-75. -/
structure Moment where
  time : Nat
  point : Point
  deriving Repr, DecidableEq

/-- What a thread does: traced scopes, one within the other and one after the other, marks and counters. The number of a scope's tracepoint and the times at
    its entry and exit (scope_trace_raii.cpp:35-43); marks (trace_macro.h:83-88) and counters (trace_macro.h:90-95). -/
inductive Prog where
  | done
  | scope (id start stop : Nat) (body rest : Prog)
  | mark (id time : Nat) (level : Level) (rest : Prog)
  | count (id time : Nat) (value : Int) (rest : Prog)
  deriving Repr, DecidableEq

/-- The events, in the order in which the thread emits them: scope_trace_raii.cpp:37, :42. -/
def Prog.emitted : Prog → List Moment
  | .done => []
  | .scope id start stop body rest => ⟨start, .entry id⟩ :: (body.emitted ++ ⟨stop, .exit id⟩ :: rest.emitted)
  | .mark id time level rest => ⟨time, .mark id level⟩ :: rest.emitted
  | .count id time value rest => ⟨time, .count id value⟩ :: rest.emitted

/-- What a thread does during a recording: it leaves scopes that it had entered before (number and time of the exit), and in between does other things; then it is
    in no scope that it entered earlier; and it enters scopes that it will leave after the recording (number and time of the entry). -/
structure History where
  left : List (Prog × Nat × Nat) := []
  inside : Prog := .done
  opened : List ((Nat × Nat) × Prog) := []
  deriving Repr, DecidableEq

/-- The events that the thread emits during the recording: scope_trace_raii.cpp:37, :42. -/
def History.emitted (h : History) : List Moment :=
  h.left.flatMap (fun x => x.1.emitted ++ [⟨x.2.2, .exit x.2.1⟩]) ++ (h.inside.emitted ++ h.opened.flatMap fun x => ⟨x.1.2, .entry x.1.1⟩ :: x.2.emitted)

/-- The event that the native backend stores, native_tracepoint.cpp:74-75, :90-91, :106-120, :135-137. -/
def Moment.event (m : Moment) : Cbor.Event := EndToEnd.eventOf ⟨0, m.point, m.time⟩

end Scalopus.Sections
