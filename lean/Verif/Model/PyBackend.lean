import Verif.Model.Base

/-!
# Swapping the tracing backend of a Python program

Models `setBackend` (scalopus_python/scalopus/tracing.py:60-68), `TraceContext.__enter__` and `__exit__` (91-100) and the three backends that the bindings offer (scalopus_python/lib/scalopus_tracing.cpp:137-164).
`tracing_backend` is a variable of the module: every entry and every exit looks it up anew.

Simplifications: tracing is on for the process and all threads (for the switches see `Tracing`); `with` closes contexts in the reverse order in which they were entered; time is the number of steps.
-/

namespace Scalopus.PyBackend

inductive Backend where
  | native
  | lttng
  | nop
  deriving DecidableEq

/-- What a backend emits. -/
structure Event where
  backend : Backend
  thread : Nat
  entry : Bool
  id : Nat
  time : Nat
  deriving DecidableEq

/-- A scope of the program: entered at `start`, left at `stop`. -/
structure Scope where
  thread : Nat
  id : Nat
  start : Nat
  stop : Nat
  deriving DecidableEq

/-- A scope that is open: its id, when it was entered and the backend at that time. -/
structure Opened where
  id : Nat
  start : Nat
  backend : Backend
  deriving DecidableEq

structure State where
  time : Nat := 0
  /-- `tracing_backend`, tracing.py:60 -/
  backend : Backend := .native
  /-- The contexts that each thread has entered, the innermost first. -/
  opened : Nat → List Opened := fun _ => []
  /-- What the backends emitted, in order. -/
  events : List Event := []
  /-- The scopes that the program has left, with the backends at the entry and at the exit. -/
  closed : List (Scope × Backend × Backend) := []

inductive Act where
  /-- The thread enters a context with this id. -/
  | enter (t id : Nat)
  /-- The thread leaves the innermost context. -/
  | exit (t : Nat)
  /-- `setBackend(b)`, by any thread -/
  | setBackend (b : Backend)
  deriving DecidableEq

/-- `scope_entry`, `scope_exit` of a backend: those of nop do nothing (nop_tracepoint.cpp:35-41), those of the others emit. -/
def emit (s : State) (t : Nat) (entry : Bool) (id : Nat) : List Event :=
  if s.backend = .nop then s.events else s.events ++ [{ backend := s.backend, thread := t, entry := entry, id := id, time := s.time }]

def step (s : State) : Act → Option State
  | .enter t id => some { s with
      time := s.time + 1
      opened := fun u => if u = t then { id := id, start := s.time, backend := s.backend } :: s.opened t else s.opened u
      events := emit s t true id }
  | .exit t => match s.opened t with
    | [] => none
    | o :: rest => some { s with
        time := s.time + 1
        opened := fun u => if u = t then rest else s.opened u
        events := emit s t false o.id
        closed := s.closed ++ [({ thread := t, id := o.id, start := o.start, stop := s.time }, o.backend, s.backend)] }
  | .setBackend b => some { s with time := s.time + 1, backend := b }

def run (s : State) : List Act → Option State
  | [] => some s
  | a :: as => (step s a).bind fun t => run t as

end Scalopus.PyBackend
