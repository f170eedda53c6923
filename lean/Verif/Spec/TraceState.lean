import Verif.Model.TraceState

/-!
# Specification of the tracing switches

The same histories, without maps, shared pointers or caches: every thread carries its own switch, which is on when it starts; there is
one switch for the process. A tracepoint records iff the process switch is on when it looks at it and then the thread's own switch is
on when it looks at that.
-/

namespace Scalopus.TraceState.Spec

open TraceState

/-- A thread and its switch. `used`: it has reached a tracepoint (of a backend that traces) or called a function that reads or sets its
    switch. `pc`: the tracepoint it is in. -/
structure Thread where
  tid : Nat
  on : Bool := true
  used : Bool := false
  pc : Pc := .idle
  ended : Bool := false
  deriving Repr, DecidableEq

/-- The process. `snaps`: how the threads were at each call of `getMap`. -/
structure State where
  process : Bool := true
  threads : List Thread := []
  snaps : List (List Thread) := []
  log : List Obs := []
  deriving Repr, DecidableEq

/-- Threads are listed while they exist and after they were used. -/
def Thread.listed (th : Thread) : Bool := th.used && !th.ended

/-- The thread (number) that is listed under an identifier. -/
def who (ths : List Thread) (tid : Nat) : Option Nat := ths.findIdx? fun th => th.listed && th.tid == tid

/-- A thread that exists and is not in a tracepoint can call a function. -/
def Thread.free (th : Thread) : Bool := !th.ended && th.pc == .idle

/-- Change one thread. -/
def State.upd (a : State) (t : Nat) (f : Thread → Thread) : State := { a with threads := a.threads.modify t f }

/-- Observe something. -/
def State.out (a : State) (o : Obs) : State := { a with log := a.log ++ [o] }

/-- What each step means. -/
def step (a : State) : Act → State
  | .start tid =>
    if a.threads.any (fun th => th.tid = tid ∧ th.ended = false) then a
    else { a with threads := a.threads ++ [{ tid := tid }] }
  | .getThread t =>
    match a.threads[t]? with
    | none => a
    | some th => if th.free then (a.upd t fun th => { th with used := true }).out (.threadIs t th.on) else a
  | .setThread t b =>
    match a.threads[t]? with
    | none => a
    | some th => if th.free then (a.upd t fun th => { th with used := true, on := b }).out (.threadWas t th.on) else a
  | .getProcess => a.out (.processIs a.process)
  | .setProcess b => ({ a with process := b } : State).out (.processWas a.process)
  | .storeProcess b => { a with process := b }
  | .reach t be p =>
    match a.threads[t]? with
    | none => a
    | some th => if th.free ∧ be ≠ .nop then a.upd t fun th => { th with used := true, pc := .ready be p } else a
  | .loadProcess t =>
    match a.threads[t]? with
    | none => a
    | some th =>
      match th.pc with
      | .ready be p => a.upd t fun th => { th with pc := if a.process then .loaded be p else .idle }
      | _ => a
  | .loadThread t =>
    match a.threads[t]? with
    | none => a
    | some th =>
      match th.pc with
      | .loaded be p =>
        let a' := a.upd t fun th => { th with pc := .idle }
        match th.on, record be p with
        | true, some r => a'.out (.event t th.tid r)
        | _, _ => a'
      | _ => a
  | .exit t =>
    match a.threads[t]? with
    | none => a
    | some th => if th.free then a.upd t fun th => { th with ended := true } else a
  | .getMap => { a with snaps := a.snaps ++ [a.threads] }
  | .remoteStore h tid b =>
    match a.snaps[h]? with
    | none => a
    | some old =>
      match who old tid with
      | none => a
      | some t => a.upd t fun th => { th with on := b }
  | .remoteLoad h tid =>
    match a.snaps[h]? with
    | none => a
    | some old =>
      match who old tid with
      | none => a
      | some t =>
        match a.threads[t]? with
        | none => a
        | some th => a.out (.loaded h tid th.on)

def run (a : State) : List Act → State
  | [] => a
  | x :: xs => run (step a x) xs

end Scalopus.TraceState.Spec
