import Verif.Model.Base

/-!
# Exceptions from signal handlers in Python programs

A thread of a Python program whose signal handlers raise an exception, as that of Ctrl-C does (`KeyboardInterrupt`). The interpreter runs such a handler when a call begins or has returned, also inside of the methods of
scalopus_python/scalopus/tracing.py. A `with` statement calls `__exit__` only if `__enter__` has returned: an exception that leaves `__enter__` is not seen by it.

Simplifications: the points at which a handler may run are those before and after the call of the C++ module in each of the methods; a handler that runs at another point between two calls has the same effect as at the nearest of
these. Switchers are not shared (see `Model/PyTracing` for those that are), the process state is on, and the thread sets its own state with switchers only.
-/

namespace Scalopus.PyInterrupt

/-- A program. The wrappers of `traced` (scalopus_python/scalopus/tracing.py:185-189) and `suppressed` (229-233) are a `trace` and an `off` around the function. -/
inductive Stmt where
  | skip
  /-- a tracepoint that is no section, tracing.py:137-139, :156-158 -/
  | mark (id : Nat)
  /-- `raise`, of the program itself -/
  | raise
  | seq (a b : Stmt)
  /-- `with` a context, tracing.py:92-100 -/
  | trace (id : Nat) (body : Stmt)
  /-- `with` a switcher to `False`, tracing.py:217-221 -/
  | off (body : Stmt)
  /-- `try: body except: handler` -/
  | attempt (body handler : Stmt)
  deriving Repr, DecidableEq

inductive Event where
  | entry (id : Nat)
  | exit (id : Nat)
  | mark (id : Nat)
  deriving Repr, DecidableEq

/-- Where a handler raised. -/
inductive Place where
  /-- in a call that makes a marker or counts -/
  | body
  /-- in `__enter__` before its call of the C++ module -/
  | entering
  /-- in `__enter__` after it -/
  | entered
  /-- in `__exit__` before its call -/
  | leaving
  /-- in `__exit__` after it -/
  | left
  deriving Repr, DecidableEq

/-- A handler that raised: the place, and the section that is entered or left there (`none` for a switcher and outside of both methods). -/
structure Hit where
  place : Place
  section? : Option Nat
  deriving Repr, DecidableEq

structure State where
  /-- the state of the thread in `TraceConfigurator` -/
  on : Bool := true
  events : List Event := []
  /-- whether a handler raises at the next points, one after the other -/
  signals : List Bool := []
  /-- ghost: the handlers that raised -/
  hits : List Hit := []
  deriving Repr, DecidableEq

/-- A point at which signal handlers run; the result is whether one raised. -/
def poll (s : State) (h : Hit) : State × Bool :=
  match s.signals with
  | [] => (s, false)
  | false :: r => ({ s with signals := r }, false)
  | true :: r => ({ s with signals := r, hits := s.hits ++ [h] }, true)

/-- A tracepoint is recorded if the thread's switch is on (scalopus_tracing/src/native/native_tracepoint.cpp:62-138). -/
def emit (s : State) (e : Event) : State := if s.on then { s with events := s.events ++ [e] } else s

/-- A method that calls the C++ module once; `f` is what the call does. -/
def call (s : State) (before after : Hit) (f : State → State) : State × Bool :=
  match poll s before with
  | (s, true) => (s, true)
  | (s, false) => poll (f s) after

/-- `TraceContext.__enter__`, tracing.py:92-95 -/
def enter (s : State) (id : Nat) : State × Bool := call s ⟨.entering, some id⟩ ⟨.entered, some id⟩ (emit · (.entry id))

/-- `TraceContext.__exit__`, tracing.py:97-100 -/
def leave (s : State) (id : Nat) : State × Bool := call s ⟨.leaving, some id⟩ ⟨.left, some id⟩ (emit · (.exit id))

/-- `ThreadStateSwitcher.__enter__`, tracing.py:217-218 -/
def switch (s : State) : State × Bool := call s ⟨.entering, none⟩ ⟨.entered, none⟩ ({ · with on := false })

/-- `ThreadStateSwitcher.__exit__`, tracing.py:220-221. `old` is `self.old_state`. -/
def restore (s : State) (old : Bool) : State × Bool := call s ⟨.leaving, none⟩ ⟨.left, none⟩ ({ · with on := old })

/-- The program runs; the result is whether it ended with an exception. (tracing.py:71-100, 137-158, 185-189, 195-233) -/
def exec : Stmt → State → State × Bool
  | .skip, s => (s, false)
  | .mark id, s => call s ⟨.body, none⟩ ⟨.body, none⟩ (emit · (.mark id))
  | .raise, s => (s, true)
  | .seq a b, s =>
    match exec a s with
    | (s, true) => (s, true)
    | (s, false) => exec b s
  | .trace id b, s =>
    match enter s id with
    | (s, true) => (s, true)
    | (s, false) =>
      let (s, r) := exec b s
      let (s, r') := leave s id
      (s, r || r')
  | .off b, s =>
    let old := s.on
    match switch s with
    | (s, true) => (s, true)
    | (s, false) =>
      let (s, r) := exec b s
      let (s, r') := restore s old
      (s, r || r')
  | .attempt b h, s =>
    match exec b s with
    | (s, true) => exec h s
    | (s, false) => (s, false)

end Scalopus.PyInterrupt
