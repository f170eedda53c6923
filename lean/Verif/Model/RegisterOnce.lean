import Verif.Model.Base

/-!
# Registration of names on first use

Models `TRACE_TRACKED_MAPPING_REGISTER_ONCE` (scalopus_tracing/include/scalopus_tracing/internal/trace_macro.h:47-53) and the macros that use it
(:57-95), run by any number of threads, together with the map of names (`StaticStringTracker`, scalopus_general/map_tracker.h:53-57).

Simplification, in favour of the code: the accesses to the plain `static bool` are taken as single steps in one order. In C++ two threads that reach
a macro for the first time at once race on it, which is undefined behaviour.
-/

namespace Scalopus.RegisterOnce

/-- A macro in the source: its id, its name, and whether it registers (all but `TRACE_SCOPE_END`, internal/trace_macro.h:71-75). -/
structure Site where
  id : Nat
  name : String
  registers : Bool := true
  deriving Repr, DecidableEq

/-- Where a thread is. -/
inductive Pc where
  | idle
  /-- found the flag not set, internal/trace_macro.h:49 -/
  | first (k : Nat)
  /-- has set the flag, :51 -/
  | second (k : Nat)
  /-- is about to call the tracepoint, e.g. :59 -/
  | emitting (k : Nat)
  deriving Repr, DecidableEq

/-- The process. -/
structure State where
  /-- the sites whose `static bool` is set -/
  flags : List Nat := []
  /-- `mapping_`: the names by id -/
  map : List (Nat × String) := []
  pc : Nat → Pc := fun _ => .idle
  /-- the ids of the emitted events, with the site -/
  emitted : List (Nat × Nat) := []

/-- One step of thread `t`. When idle it reaches the macro with number `k`. -/
structure Act where
  t : Nat
  k : Nat
  deriving Repr, DecidableEq

def State.at (s : State) (t : Nat) (p : Pc) : State := { s with pc := fun t' => if t' = t then p else s.pc t' }

/-- `mapping_[key] = value`, map_tracker.h:56. -/
def insert (m : List (Nat × String)) (key : Nat) (value : String) : List (Nat × String) :=
  (key, value) :: m.filter fun e => e.1 ≠ key

/-- The steps of a macro, one at a time. -/
def step (sites : List Site) (s : State) (a : Act) : State :=
  match s.pc a.t with
  | .idle =>
    match sites[a.k]? with
    | none => s
    | some site =>
      -- TRACE_SCOPE_END does not register
      if site.registers = false then s.at a.t (.emitting a.k)
      -- if (!have_done_setup_varname)
      else if a.k ∈ s.flags then s.at a.t (.emitting a.k) else s.at a.t (.first a.k)
  -- have_done_setup_varname = true;
  | .first k => { s.at a.t (.second k) with flags := k :: s.flags }
  -- StaticStringTracker::getInstance().insert(id, name);
  | .second k =>
    match sites[k]? with
    | none => s
    | some site => { s.at a.t (.emitting k) with map := insert s.map site.id site.name }
  -- the tracepoint
  | .emitting k =>
    match sites[k]? with
    | none => s
    | some site => { s.at a.t .idle with emitted := s.emitted ++ [(k, site.id)] }

def run (sites : List Site) (s : State) (acts : List Act) : State := acts.foldl (step sites) s

end Scalopus.RegisterOnce
