import Verif.Model.Base

/-!
# Python programs with trace contexts and decorators

A Python program that uses `TraceContext`, `trace_section`, `traced` and `suppressed` (scalopus_python/scalopus/tracing.py:71-233) on the native backend, with the semantics of Python's `with` statement, `try`,
`return` and exceptions. What the program itself does is left open: `σ` is everything that it works on, a basic statement is any function on that which may raise.

Simplifications:
- One thread. The others do not touch what is modelled here: the trace id counter is atomic, and the switches are per thread.
- The program does not ask for the tracing state and does not catch what it has not raised itself by chance: which exceptions an `except` catches is a function of the exception.
- `trace_section(name)` is modelled for names that are not attributes of the helper object, and fails for the others, which `Model/PyHelper` describes.
- Functions may call each other and themselves. `fuel` bounds the depth of calls; the theorems are about every bound.
-/

namespace Scalopus.PyTransparent

inductive Exc where
  /-- raised by the program -/
  | user (n : Nat)
  /-- a trace id that is no `unsigned int` (lib/scalopus_tracing.cpp:114, 146-147: `const unsigned int`) -/
  | typeError
  /-- a helper that gives something that is no context -/
  | attributeError
  deriving DecidableEq, Repr

inductive Out where
  | normal
  | returned (v : Nat)
  | raised (e : Exc)
  /-- the calls are nested too deeply for the bound -/
  | timeout
  deriving DecidableEq, Repr

/-- A decorator, with what was made when it was applied: the trace id of the `TraceContext` (tracing.py:184) or the number of the `ThreadStateSwitcher` (228). -/
inductive Dec where
  | traced (id : Nat)
  | suppressed (switcher : Nat)
  deriving DecidableEq, Repr

inductive Stmt (σ : Type) where
  /-- any action of the program; it may raise -/
  | prim (f : σ → Except Nat σ)
  | ret (f : σ → Nat)
  | seq (a b : Stmt σ)
  | ite (c : σ → Bool) (a b : Stmt σ)
  | tryExcept (body : Stmt σ) (catches : Exc → Bool) (handler : Stmt σ)
  | tryFinally (body fin : Stmt σ)
  /-- calls a function of the program and does something with what it returns -/
  | call (f : Nat) (k : Nat → σ → σ)
  /-- `with trace_section(name): body`, tracing.py:132 -/
  | trace (name : String) (body : Stmt σ)

/-- A function: its body and its decorators, the outermost first. -/
structure Def (σ : Type) where
  body : Stmt σ
  decs : List Dec

structure W (σ : Type) where
  user : σ
  /-- what was recorded: entry or exit, trace id -/
  events : List (Bool × Nat) := []
  /-- `setThreadState`, `setProcessState` -/
  thread : Bool := true
  process : Bool := true
  /-- `old_state` of each switcher, tracing.py:218 -/
  old : Nat → Bool := fun _ => true
  /-- the counter of `uniqueTraceId`, scalopus_tracing.cpp:46-50 -/
  next : Nat := 0
  /-- the attributes that `trace_section` has set, tracing.py:121 -/
  sections : List (String × Nat) := []

/-- The values of `unsigned int`. -/
def idLimit : Nat := 2 ^ 32

/-- Attributes of a `TraceContextHelper` that are no contexts: those set in `__init__` (tracing.py:111-112), and those of the class, which begin with two underscores. -/
def reserved (name : String) : Bool := name == "ctx_type" || name == "prefix" || name.startsWith "__"

/-- The `with` statement of Python: the exit function is called however the body ends; an exception of the body is dropped if it returns something true. -/
def withCM (enter : W σ → Except Exc (W σ)) (exit : W σ → Except Exc (Bool × W σ)) (body : W σ → Out × W σ) (w : W σ) : Out × W σ :=
  match enter w with
  | .error e => (.raised e, w)
  | .ok w1 =>
    match body w1 with
    | (.timeout, w2) => (.timeout, w2)
    | (o, w2) =>
      match exit w2 with
      | .error e => (.raised e, w2)
      | .ok (swallow, w3) =>
        match o with
        | .raised e => if swallow then (.normal, w3) else (.raised e, w3)
        | o => (o, w3)

/-- A tracepoint of the native backend, native_tracepoint.cpp:62-91. -/
def emit (entry : Bool) (id : Nat) (w : W σ) : Except Exc (W σ) :=
  if id < idLimit then .ok (if w.process && w.thread then { w with events := w.events ++ [(entry, id)] } else w) else .error .typeError

/-- `TraceContext.__enter__`, tracing.py:92-95 -/
def ctxEnter (id : Nat) (w : W σ) : Except Exc (W σ) := emit true id w

/-- `TraceContext.__exit__`, tracing.py:97-100: returns `None` -/
def ctxExit (id : Nat) (w : W σ) : Except Exc (Bool × W σ) := (emit false id w).map fun w => (false, w)

/-- `ThreadStateSwitcher.__enter__`, tracing.py:217-218, with `False` (228) -/
def switchEnter (k : Nat) (w : W σ) : Except Exc (W σ) := .ok { w with old := fun j => if j = k then w.thread else w.old j, thread := false }

/-- `ThreadStateSwitcher.__exit__`, tracing.py:220-221: returns `None` -/
def switchExit (k : Nat) (w : W σ) : Except Exc (Bool × W σ) := .ok (false, { w with thread := w.old k })

/-- `trace_section(name)`, tracing.py:114-130: the context of that name, made when it is first asked for, with a new trace id (82-84) that has to be an `unsigned int`
    (`setTraceName`, scalopus_tracing.cpp:114). -/
def section_ (name : String) (w : W σ) : Except Exc Nat × W σ :=
  if reserved name then (.error .attributeError, w)
  else match w.sections.lookup name with
    | some id => (.ok id, w)
    | none =>
      if w.next < idLimit then (.ok w.next, { w with next := w.next + 1, sections := (name, w.next) :: w.sections })
      else (.error .typeError, { w with next := w.next + 1 })

/-- The wrappers of `traced` (tracing.py:185-188) and `suppressed` (229-232). -/
def wrapped (body : W σ → Out × W σ) : List Dec → W σ → Out × W σ
  | [] => body
  | .traced id :: ds => withCM (ctxEnter id) (ctxExit id) (wrapped body ds)
  | .suppressed k :: ds => withCM (switchEnter k) (switchExit k) (wrapped body ds)

/-- A statement; `callee` runs a function. -/
def exec (callee : Nat → W σ → Out × W σ) : Stmt σ → W σ → Out × W σ
  | .prim f, w => match f w.user with
    | .ok u => (.normal, { w with user := u })
    | .error n => (.raised (.user n), w)
  | .ret f, w => (.returned (f w.user), w)
  | .seq a b, w => match exec callee a w with
    | (.normal, w1) => exec callee b w1
    | r => r
  | .ite c a b, w => if c w.user then exec callee a w else exec callee b w
  | .tryExcept b c h, w => match exec callee b w with
    | (.raised e, w1) => if c e then exec callee h w1 else (.raised e, w1)
    | r => r
  | .tryFinally b f, w => match exec callee b w with
    | (.timeout, w1) => (.timeout, w1)
    | (o, w1) => match exec callee f w1 with
      | (.normal, w2) => (o, w2)
      | r => r
  | .call f k, w => match callee f w with
    | (.returned v, w1) => (.normal, { w1 with user := k v w1.user })
    | (.normal, w1) => (.normal, { w1 with user := k 0 w1.user })
    | r => r
  | .trace name b, w => match section_ name w with
    | (.error e, w1) => (.raised e, w1)
    | (.ok id, w1) => withCM (ctxEnter id) (ctxExit id) (exec callee b) w1

/-- A call of function `f`, nested at most `fuel` deep. -/
def callOf (prog : Nat → Def σ) : Nat → Nat → W σ → Out × W σ
  | 0, _, w => (.timeout, w)
  | fuel + 1, f, w => wrapped (exec (callOf prog fuel) (prog f).body) (prog f).decs w

end Scalopus.PyTransparent
