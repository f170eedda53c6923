import Verif.Model.Base

/-!
# Sections in generators and coroutines

A thread of a Python program with generators (or coroutines, which a loop resumes in the same way): functions that pause at `yield` (`await`) and are continued later, or never. The `with` statements in them are those of
`TraceContext` (scalopus_python/scalopus/tracing.py:71-100) and `ThreadStateSwitcher` (195-221); the functions may be decorated with `traced` (160-192) and `suppressed` (224-232), whose wrappers call the function inside
a `with` statement. Calling a generator function runs nothing of its body: it makes a generator, which the wrapper returns.

The program does anything in between, as a list of actions. A generator that is closed, or collected while it is paused, gets an exception where it paused, which leaves its `with` statements from the inside out (the body does
not catch it). Switchers are not shared. Trace ids are `unsigned int`s, and the process state is on.
-/

namespace Scalopus.PyGenerators

/-- The body of a function. -/
inductive Stmt where
  | skip
  /-- a tracepoint that is no section, as a marker (tracing.py:137-139) -/
  | mark (id : Nat)
  /-- `yield`, `await` -/
  | pause
  | seq (a b : Stmt)
  /-- `with` a context, tracing.py:92-100 -/
  | trace (id : Nat) (body : Stmt)
  /-- `with` a switcher to `False`, tracing.py:217-221 -/
  | off (k : Nat) (body : Stmt)
  deriving Repr, DecidableEq

/-- A `with` statement that has been entered. -/
inductive Frame where
  | section (id : Nat)
  | switch (k : Nat)
  deriving Repr, DecidableEq

/-- What the interpreter does, one after the other. -/
inductive Instr where
  | mark (id : Nat)
  | pause
  | enter (f : Frame)
  /-- leaves the innermost `with` statement -/
  | leave
  deriving Repr, DecidableEq

/-- The code of a body (the `with` statement of Python; tracing.py:187-188, :231-232). -/
def compile : Stmt → List Instr
  | .skip => []
  | .mark id => [.mark id]
  | .pause => [.pause]
  | .seq a b => compile a ++ compile b
  | .trace id b => .enter (.section id) :: (compile b ++ [.leave])
  | .off k b => .enter (.switch k) :: (compile b ++ [.leave])

inductive Kind where
  | enter
  | exit
  | mark
  deriving Repr, DecidableEq

/-- A recorded event; `owner` is ghost: the generator that made it, `none` for the rest of the program. -/
structure Ev where
  owner : Option Nat
  kind : Kind
  id : Nat
  deriving Repr, DecidableEq

structure Gen where
  code : List Instr
  stack : List Frame := []
  deriving Repr, DecidableEq

structure State where
  gens : List Gen := []
  /-- the `with` statements that the rest of the program is in -/
  main : List Frame := []
  events : List Ev := []
  /-- `setThreadState` -/
  thread : Bool := true
  /-- `old_state` of the switchers, tracing.py:218 -/
  old : Nat → Bool := fun _ => true

/-- A tracepoint is recorded if the thread's switch is on, native_tracepoint.cpp:62-91. -/
def emit (s : State) (e : Ev) : State := if s.thread then { s with events := s.events ++ [e] } else s

/-- `__enter__`, tracing.py:92-95, :217-218 -/
def enter (s : State) (o : Option Nat) : Frame → State
  | .section id => emit s ⟨o, .enter, id⟩
  | .switch k => { s with old := fun j => if j = k then s.thread else s.old j, thread := false }

/-- `__exit__`, tracing.py:97-100, :220-221 -/
def leave (s : State) (o : Option Nat) : Frame → State
  | .section id => emit s ⟨o, .exit, id⟩
  | .switch k => { s with thread := s.old k }

/-- The body runs until it pauses or ends. -/
def resume (o : Option Nat) : State → List Instr → List Frame → State × List Instr × List Frame
  | s, [], st => (s, [], st)
  | s, .pause :: c, st => (s, c, st)
  | s, .mark id :: c, st => resume o (emit s ⟨o, .mark, id⟩) c st
  | s, .enter f :: c, st => resume o (enter s o f) c (f :: st)
  | s, .leave :: c, [] => resume o s c []
  | s, .leave :: c, f :: st => resume o (leave s o f) c st

/-- Leaves `with` statements from the inside out. -/
def unwind (o : Option Nat) (s : State) (st : List Frame) : State := st.foldl (fun s f => leave s o f) s

/-- A decorator: `traced` with the id of its context (tracing.py:184), or `suppressed` with its switcher (228). -/
inductive Dec where
  | traced (id : Nat)
  | suppressed (k : Nat)
  deriving Repr, DecidableEq

def frameOf : Dec → Frame
  | .traced id => .section id
  | .suppressed k => .switch k

/-- A call of a generator function with these decorators, the outermost first: the innermost call makes the generator. (tracing.py:185-189, 229-233) -/
def call (s : State) (body : Stmt) : List Dec → State
  | [] => { s with gens := s.gens ++ [{ code := compile body }] }
  | d :: ds => leave (call (enter s none (frameOf d)) body ds) none (frameOf d)

inductive Act where
  /-- calls a generator function -/
  | call (ds : List Dec) (body : Stmt)
  /-- `next(g)`, `g.send(x)`, or the loop continues a coroutine -/
  | resume (g : Nat)
  /-- `g.close()`, or `g` is collected -/
  | close (g : Nat)
  /-- the rest of the program enters and leaves `with` statements -/
  | enter (f : Frame)
  | leave
  | mark (id : Nat)
  deriving Repr, DecidableEq

/-- One action of the thread. -/
def step (s : State) : Act → State
  | .call ds b => call s b ds
  | .resume g =>
    match s.gens[g]? with
    | some x =>
      let (s', c, st) := resume (some g) s x.code x.stack
      { s' with gens := s'.gens.set g { code := c, stack := st } }
    | none => s
  | .close g =>
    match s.gens[g]? with
    | some x =>
      let s' := unwind (some g) s x.stack
      { s' with gens := s'.gens.set g { code := [], stack := [] } }
    | none => s
  | .enter f => { enter s none f with main := f :: s.main }
  | .leave =>
    match s.main with
    | [] => s
    | f :: st => { leave s none f with main := st }
  | .mark id => emit s ⟨none, .mark, id⟩

def run (s : State) (as : List Act) : State := as.foldl step s

end Scalopus.PyGenerators
