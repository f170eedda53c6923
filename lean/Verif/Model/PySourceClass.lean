import Verif.Model.PySource

/-!
# Classes of sources and providers written in Python

A program derives classes from `scalopus.interface.TraceEventSource` and `TraceEventProvider` (scalopus_python/scalopus/interface.py:67-112), which have methods for what a class leaves out, or from
the classes of the library (scalopus_python/lib/scalopus_interface.cpp:198-209), and gives the providers to a viewer server. Models what the server calls when viewers connect
(scalopus_catapult/src/catapult_backend.cpp:144-177), when they start and end recordings (trace_session.cpp:109-143) and in between (83-86).

Simplifications: methods give a result for each call, counted per object; they do not use the server. One action is one message or one connection: threads and locks are in `PyViewer` and `SessionThreads`, other messages in `Session`,
the text of the events in `Session` and `JsonText`. The conversion of events is `PySource.finishInterval`.
-/

namespace Scalopus.PySourceClass

open PyJson PySource

/-- A class of sources. A method is `none` if the class does not define it. `start` and `stop` tell for each call whether it returns. -/
structure SourceClass where
  /-- derived from `scalopus.interface.TraceEventSource` (interface.py:67-73), otherwise from the class of the library -/
  python : Bool := true
  start : Option (Nat → Bool) := none
  stop : Option (Nat → Bool) := none
  finish : Option (Nat → Outcome) := none

/-- What `makeSource` of a class of providers does. -/
inductive Makes where
  | raises | none | notASource
  | source (c : SourceClass)

structure ProviderClass where
  python : Bool := true
  make : Option (Nat → Makes) := none

/-- A call of `startInterval` or `stopInterval`: scalopus_interface.cpp:142-150 with the defaults of trace_event_source.cpp:34-40 and interface.py:75-87, which do nothing. What a method returns is dropped. -/
def plain (m : Option (Nat → Bool)) (n : Nat) : Res Unit :=
  match m with
  | none => .ok ()
  | some f => if f n then .ok () else .throws "error_already_set"

/-- A call of `finishInterval`: scalopus_interface.cpp:152-168; left out, it is the method of interface.py:89-96, or there is none. -/
def finishOf (c : SourceClass) (n : Nat) : Res (List Json) :=
  match c.finish with
  | some f => finishInterval (f n)
  | none => if c.python then finishInterval (.returns (.list [])) else finishInterval .missing

/-- A call of `makeSource`: scalopus_interface.cpp:137-140. Left out, it raises: `raise NotImplemented(...)` (interface.py:106-112) is a `TypeError`, a pure virtual function a `RuntimeError`. `None` becomes the null
pointer (pybind_fix.h:129-168). -/
def makeOf (p : ProviderClass) (n : Nat) : Res (Option SourceClass) :=
  match p.make with
  | none => .throws (if p.python then "TypeError" else "RuntimeError")
  | some f =>
    match f n with
    | .raises => .throws "error_already_set"
    | .none => .ok none
    | .notASource => .throws "cast_error"
    | .source c => .ok (some c)

/-- A source of a session: the null pointer has no class. The numbers count the calls. -/
structure Obj where
  cls : Option SourceClass
  starts : Nat := 0
  stops : Nat := 0
  finishes : Nat := 0

inductive Kind where
  | start | stop | finish
  deriving DecidableEq

/-- What is observed. -/
inductive Ev where
  /-- provider `i` is asked for a source for viewer `v` -/
  | ask (v i : Nat)
  /-- a method of source `i` of viewer `v` is called -/
  | call (v i : Nat) (k : Kind)
  /-- the viewer gets the reply to its message -/
  | reply (v : Nat)
  /-- the viewer gets the events -/
  | events (v : Nat) (l : List Json)
  | complete (v : Nat)

structure State where
  /-- the providers and how often each was asked -/
  providers : List (ProviderClass × Nat)
  sessions : Nat → Option (List Obj) := fun _ => none
  /-- what has happened to the program: `.ok ()` while it runs -/
  status : Res Unit := .ok ()
  log : List Ev := []

/-- The loop in catapult_backend.cpp:171-174. -/
def makeAll (v i : Nat) : List (ProviderClass × Nat) → List Ev × Res (List Obj)
  | [] => ([], .ok [])
  | (p, n) :: ps =>
    match makeOf p n with
    | .ok c =>
      let r := makeAll v (i + 1) ps
      (.ask v i :: r.1, r.2.bind fun os => .ok ({ cls := c } :: os))
    | .throws w => ([.ask v i], .throws w)
    | .ub => ([.ask v i], .ub)
    | .terminate => ([.ask v i], .terminate)

/-- The loops in trace_session.cpp:113-116 and 124-127; a call through the null pointer is undefined behaviour. -/
def callAll (k : Kind) (f : Obj → SourceClass → Res Unit) (v i : Nat) : List Obj → List Ev × Res Unit
  | [] => ([], .ok ())
  | o :: os =>
    match o.cls with
    | none => ([], .ub)
    | some c =>
      match f o c with
      | .ok () => let r := callAll k f v (i + 1) os; (.call v i k :: r.1, r.2)
      | r => ([.call v i k], r)

/-- The loop in trace_session.cpp:132-137. -/
def finishAll (v i : Nat) : List Obj → List Ev × Res (List Json)
  | [] => ([], .ok [])
  | o :: os =>
    match o.cls with
    | none => ([], .ub)
    | some c =>
      match finishOf c o.finishes with
      | .ok l => let r := finishAll v (i + 1) os; (.call v i .finish :: r.1, r.2.bind fun m => .ok (l ++ m))
      | .throws w => ([.call v i .finish], .throws w)
      | .ub => ([.call v i .finish], .ub)
      | .terminate => ([.call v i .finish], .terminate)

/-- An exception that nothing catches ends the program: in the worker thread of a session (trace_session.cpp:38) and in the thread of the server (catapult_server.cpp:84; seasocks, a thirdparty library, is taken not to catch what `onConnect` throws). -/
def uncaught : Res Unit → Res Unit
  | .throws _ => .terminate
  | r => r

/-- `Tracing.start`, trace_session.cpp:109-119 -/
def onStart (s : State) (v : Nat) (os : List Obj) : State :=
  let r := callAll .start (fun o c => plain c.start o.starts) v 0 os
  { s with
    sessions := fun w => if w = v then some (os.map fun o => { o with starts := o.starts + 1 }) else s.sessions w
    status := uncaught r.2
    log := s.log ++ r.1 ++ (match r.2 with | .ok () => [.reply v] | _ => []) }

/-- `Tracing.end`, trace_session.cpp:121-143 -/
def onEnd (s : State) (v : Nat) (os : List Obj) : State :=
  let r := callAll .stop (fun o c => plain c.stop o.stops) v 0 os
  let s' : State := { s with sessions := fun w => if w = v then some (os.map fun o => { o with stops := o.stops + 1, finishes := o.finishes + 1 }) else s.sessions w }
  match r.2 with
  | .ok () =>
    let f := finishAll v 0 os
    match f.2 with
    | .ok l => { s' with log := s.log ++ r.1 ++ [.reply v] ++ f.1 ++ [.events v l, .complete v] }
    | .throws _ => { s' with log := s.log ++ r.1 ++ [.reply v] ++ f.1, status := .terminate }
    | .ub => { s' with log := s.log ++ r.1 ++ [.reply v] ++ f.1, status := .ub }
    | .terminate => { s' with log := s.log ++ r.1 ++ [.reply v] ++ f.1, status := .terminate }
  | e => { s' with log := s.log ++ r.1, status := uncaught e }

inductive Act where
  /-- `onConnect`, catapult_backend.cpp:92-96, 144-177 -/
  | connect (v : Nat)
  | start (v : Nat)
  | stop (v : Nat)
  /-- one turn of the session's loop, trace_session.cpp:82-86 -/
  | work (v : Nat)
  /-- `onDisconnect`, catapult_backend.cpp:116-120, 134-142 -/
  | disconnect (v : Nat)

def step (s : State) (a : Act) : State :=
  match s.status with
  | .ok () =>
    match a with
    | .connect v =>
      match s.sessions v with
      | some _ => s
      | none =>
        let r := makeAll v 0 s.providers
        match r.2 with
        | .ok os => { s with sessions := fun w => if w = v then some os else s.sessions w, providers := s.providers.map fun p => (p.1, p.2 + 1), log := s.log ++ r.1 }
        | .throws _ => { s with status := .terminate, log := s.log ++ r.1 }
        | .ub => { s with status := .ub, log := s.log ++ r.1 }
        | .terminate => { s with status := .terminate, log := s.log ++ r.1 }
    | .start v => match s.sessions v with
      | some os => onStart s v os
      | none => s
    | .stop v => match s.sessions v with
      | some os => onEnd s v os
      | none => s
    | .work v => match s.sessions v with
      | some os => if os.any (·.cls.isNone) then { s with status := .ub } else s
      | none => s
    | .disconnect v => { s with sessions := fun w => if w = v then none else s.sessions w }
  | _ => s

/-- A server with these providers. -/
def init (ps : List ProviderClass) : State := { providers := ps.map fun p => (p, 0) }

def run (s : State) (as : List Act) : State := as.foldl step s

end Scalopus.PySourceClass
