import Verif.Model.Base

/-!
# The Python decorators and trace contexts

Models `ThreadStateSwitcher`, `suppressed` and `traced` (scalopus_python/scalopus/tracing.py:160-233), `TraceContext` (71-100) and `uniqueTraceId`
(scalopus_python/lib/scalopus_tracing.cpp:46-50).

Simplifications: a call of a function of the C++ module is one step (it holds the interpreter lock), and so is each load and store of an attribute. A `with` block is left
in the same way by a return and by an exception; exceptions that a signal handler raises inside `__enter__` or `__exit__` itself are in `Model/PyInterrupt`, decorated generators and coroutines in `Model/PyGenerators`. The process state is on.
-/

namespace Scalopus.PyTracing

/-- A decorated function whose call is in progress. `before` is the state of the thread before the call; it is not used by any step. -/
inductive Frame where
  | suppressed (f : Nat) (before : Bool)
  | traced (id : Nat) (before : Bool)
  deriving Repr, DecidableEq

/-- What a thread is doing inside `__enter__` and `__exit__`. -/
inductive Pc where
  | idle
  /-- `setThreadState` has returned `v`, `self.old_state` is not yet assigned (tracing.py:218). -/
  | storing (f : Nat) (v : Bool)
  /-- `self.old_state` has been read as `v` (221). -/
  | restoring (v : Bool)
  deriving Repr, DecidableEq

inductive Event where
  | entry (id : Nat)
  | exit (id : Nat)
  deriving Repr, DecidableEq

structure Thread where
  /-- The state of `TraceConfigurator` for this thread. -/
  on : Bool := true
  stack : List Frame := []
  pc : Pc := .idle
  /-- The events recorded so far. -/
  events : List Event := []
  deriving Repr, DecidableEq

structure State where
  thr : Nat → Thread := fun _ => {}
  /-- `old_state` of the switcher of each function: `suppressed` makes one for each decorated function (228), all calls share it. -/
  old : Nat → Bool := fun _ => false

inductive Act where
  /-- A thread calls a function with `@suppressed` (230-231): `setThreadState(False)` runs (218). -/
  | enter (t f : Nat)
  | store (t : Nat)
  /-- A function with `@suppressed` returns or raises: `self.old_state` is read (221). -/
  | load (t : Nat)
  | restore (t : Nat)
  /-- A thread calls a function with `@traced` (184-187), or enters a `TraceContext` (92-95). -/
  | trace (t id : Nat)
  | untrace (t : Nat)
  /-- The body calls `setThreadState` itself. -/
  | set (t : Nat) (b : Bool)
  deriving Repr, DecidableEq

def Act.thread : Act → Nat
  | .enter t _ => t
  | .store t => t
  | .load t => t
  | .restore t => t
  | .trace t _ => t
  | .untrace t => t
  | .set t _ => t

def State.setThr (s : State) (t : Nat) (th : Thread) : State := { s with thr := fun u => if u = t then th else s.thr u }

/-- `scope_entry` and `scope_exit` record only if tracing is on. -/
def emit (th : Thread) (e : Event) : List Event := if th.on then th.events ++ [e] else th.events

/-- One step. `none`: the step is not possible. -/
def step (s : State) : Act → Option State
  | .enter t f =>
    let th := s.thr t
    if th.pc = .idle then some (s.setThr t { th with on := false, pc := .storing f th.on, stack := .suppressed f th.on :: th.stack }) else none
  | .store t =>
    let th := s.thr t
    match th.pc with
    | .storing f v => some { s.setThr t { th with pc := .idle } with old := fun g => if g = f then v else s.old g }
    | _ => none
  | .load t =>
    let th := s.thr t
    match th.pc, th.stack with
    | .idle, .suppressed f _ :: _ => some (s.setThr t { th with pc := .restoring (s.old f) })
    | _, _ => none
  | .restore t =>
    let th := s.thr t
    match th.pc with
    | .restoring v => some (s.setThr t { th with on := v, pc := .idle, stack := th.stack.tail })
    | _ => none
  | .trace t id =>
    let th := s.thr t
    if th.pc = .idle then some (s.setThr t { th with events := emit th (.entry id), stack := .traced id th.on :: th.stack }) else none
  | .untrace t =>
    let th := s.thr t
    match th.pc, th.stack with
    | .idle, .traced id _ :: r => some (s.setThr t { th with events := emit th (.exit id), stack := r })
    | _, _ => none
  | .set t b =>
    let th := s.thr t
    if th.pc = .idle then some (s.setThr t { th with on := b }) else none

def run (s : State) : List Act → Option State
  | [] => some s
  | a :: l => (step s a).bind fun s' => run s' l

/-! ## Trace contexts -/

/-- What a thread is doing in `TraceContext.__init__`. -/
inductive Making where
  | idle
  /-- The id is known, `setTraceName` has not been called (86-88). -/
  | named (id : Nat) (name : String)
  deriving Repr, DecidableEq

/-- A context, and whether its id was given by the user. -/
structure Context where
  id : Nat
  name : String
  deriving Repr, DecidableEq

structure Names where
  /-- The counter of `uniqueTraceId`, a `std::atomic_size_t`. -/
  counter : Nat := 0
  thr : Nat → Making := fun _ => .idle
  /-- The names that the tracker has: the newest entry of an id counts. -/
  table : List (Nat × String) := []
  /-- What `uniqueTraceId` returned so far, and to which thread. -/
  returned : List (Nat × Nat) := []
  /-- The contexts that exist. -/
  contexts : List Context := []
  /-- How often `__init__` raised because the id does not fit. -/
  raised : Nat := 0

inductive NameAct where
  /-- A call of `uniqueTraceId` on its own. -/
  | unique (t : Nat)
  /-- `TraceContext(name)` up to the name: `uniqueTraceId()` (86). -/
  | make (t : Nat) (name : String)
  /-- `TraceContext(name, trace_id)` up to the name. -/
  | makeWith (t : Nat) (name : String) (id : Nat)
  /-- `setTraceName(id, name)` (88); pybind11 refuses an id that is not an `unsigned int` (scalopus_tracing.cpp:114-116). -/
  | name (t : Nat)
  deriving Repr, DecidableEq

/-- `counter++` of a `std::size_t`. -/
def next (n : Nat) : Nat := (n + 1) % 2 ^ 64

def Names.setThr (s : Names) (t : Nat) (m : Making) : Names := { s with thr := fun u => if u = t then m else s.thr u }

def nameStep (s : Names) : NameAct → Option Names
  | .unique t => if s.thr t = .idle then some { s with counter := next s.counter, returned := s.returned ++ [(t, s.counter)] } else none
  | .make t n =>
    if s.thr t = .idle then some { s.setThr t (.named s.counter n) with counter := next s.counter, returned := s.returned ++ [(t, s.counter)] } else none
  | .makeWith t n id => if s.thr t = .idle then some (s.setThr t (.named id n)) else none
  | .name t =>
    match s.thr t with
    | .named id n =>
      if id < 2 ^ 32 then some { s.setThr t .idle with table := (id, n) :: s.table, contexts := ⟨id, n⟩ :: s.contexts }
      else some { s.setThr t .idle with raised := s.raised + 1 }
    | .idle => none

def nameRun (s : Names) : List NameAct → Option Names
  | [] => some s
  | a :: l => (nameStep s a).bind fun s' => nameRun s' l

end Scalopus.PyTracing
