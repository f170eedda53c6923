import Verif.Model.Base

/-!
# The server for the viewer, with providers written in Python

Models the interpreter lock while a `CatapultServer` (scalopus_catapult/src/catapult_server.cpp) that is owned by Python has providers and sources that are written in Python, or that Python has a part in. The
server's thread makes a session when a viewer connects, and asks every provider for a source (catapult_backend.cpp:92-96, 149-178), which takes the interpreter lock (scalopus_interface.cpp:137-140). Every session
has a thread, which calls the sources (trace_session.cpp:72-144); a source that is written in Python takes the interpreter lock (scalopus_interface.cpp:142-168). When the viewer disconnects the session is
destroyed by the server's thread (catapult_backend.cpp:116-120, 138-147): it waits for the thread of the session (trace_session.cpp:41-45) and then releases the sources, which takes the interpreter lock
(pybind_fix.h:149-152). The destructor of the server runs when Python drops its last reference, with the interpreter lock; it waits for the server's thread (catapult_server.cpp:92-99).

Simplifications: there is one provider, all methods of its sources are written in Python, or none is. The logger is not set from Python (that is `Model/PyServer.lean`). The web server (seasocks, a library that is
not part of the repository) is taken to work so: test whether to end, wait for an event, deal with it; and before its loop returns it closes all connections, which reports that they are gone. The sending of
data to the viewer does not block.
-/

namespace Scalopus.PyViewer

inductive Tid where
  | py (n : Nat)
  | server
  | session (n : Nat)
  deriving DecidableEq, Repr

/-- Where a Python thread is. -/
inductive Pc where
  /-- It does not have the interpreter lock. -/
  | idle
  /-- It runs Python code, with the interpreter lock. -/
  | running
  /-- In the destructor, at `thread_.join()` (catapult_server.cpp:97). -/
  | joining
  deriving DecidableEq, Repr

/-- Where the thread of a session is. -/
inductive Sess where
  /-- Between two messages of the viewer (trace_session.cpp:72-92). -/
  | loop
  /-- About to take the interpreter lock for a method of a source, or to take it back. -/
  | waiting
  /-- In a method of a source. -/
  | method
  | ended
  deriving DecidableEq, Repr

/-- A session: its thread, and whether it has been told to end. The number is that of its connection. -/
structure Session where
  id : Nat
  pc : Sess := .loop
  stop : Bool := false
  deriving DecidableEq, Repr

/-- Where the server's thread is; `closing`: its loop is about to return and closes the connections. -/
inductive Loop where
  | test
  | polling
  /-- About to take the interpreter lock for `makeSource`, or to take it back. -/
  | making
  | inMake
  | closing
  /-- In the destructor of a session, at `worker_.join()`. -/
  | stopping (n : Nat) (closing : Bool)
  /-- About to take the interpreter lock to release the sources of the session, or to take it back. -/
  | releasing (n : Nat) (closing : Bool)
  | inRelease (n : Nat) (closing : Bool)
  | ended
  /-- Joined. -/
  | gone
  deriving DecidableEq, Repr

structure State where
  /-- The provider and its sources are written in Python. -/
  python : Bool
  py : Nat → Pc := fun _ => .idle
  loop : Loop := .test
  terminate : Bool := false
  gil : Option Tid := none
  /-- The sessions that are not destroyed, `sessions_`. -/
  sessions : List Session := []
  /-- The number of the next connection. -/
  next : Nat := 0

def State.set (s : State) (t : Nat) (p : Pc) : State := { s with py := fun u => if u = t then p else s.py u }

/-- The thread of session `n` comes to `p`. -/
def State.session (s : State) (n : Nat) (p : Sess) : State := { s with sessions := s.sessions.map fun x => if x.id = n then { x with pc := p } else x }

/-- Session `n` is told to end, trace_session.cpp:43. -/
def State.stop (s : State) (n : Nat) : State := { s with sessions := s.sessions.map fun x => if x.id = n then { x with stop := true } else x }

/-- Session `n` is no more. -/
def State.drop (s : State) (n : Nat) : State := { s with sessions := s.sessions.filter fun x => x.id ≠ n }

/-- The new session of `makeSession`, catapult_backend.cpp:144-177. -/
def State.open (s : State) : State := { s with sessions := s.sessions ++ [{ id := s.next }], next := s.next + 1 }

inductive Act where
  | acquire (t : Nat)
  | release (t : Nat)
  /-- Python drops its last reference to the server. -/
  | destroy (t : Nat)
  | join (t : Nat)
  /-- A viewer connects. -/
  | connect
  /-- A viewer disconnects. -/
  | disconnect (n : Nat)
  /-- The thread of a session gets a message for which it calls the sources. -/
  | message (n : Nat)
  /-- The next step of the thread of a session; `switch`: the interpreter takes the lock away from a method that runs. -/
  | session (n : Nat) (switch : Bool)
  /-- The next step of the server's thread. -/
  | server (switch : Bool)
  deriving DecidableEq, Repr

/-- Where the server's thread goes on after a session has been destroyed. -/
def after (closing : Bool) : Loop := if closing then .closing else .test

def serverStep (s : State) (switch : Bool) : Option State :=
  match s.loop with
  | .test => some { s with loop := if s.terminate then .closing else .polling }
  | .polling => if s.terminate then some { s with loop := .test } else none                    -- `terminate` wakes it up
  | .making => if s.gil = none then some { s with loop := .inMake, gil := some .server } else none
  | .inMake => if switch then some { s with loop := .making, gil := none } else some { s.open with loop := .test, gil := none }
  | .closing =>
    match s.sessions with
    | [] => some { s with loop := .ended }
    | x :: _ => some { s.stop x.id with loop := .stopping x.id true }
  | .stopping n c =>
    if ∃ x ∈ s.sessions, x.id = n ∧ x.pc = .ended then
      if s.python then some { s with loop := .releasing n c } else some { s.drop n with loop := after c }
    else none
  | .releasing n c => if s.gil = none then some { s with loop := .inRelease n c, gil := some .server } else none
  | .inRelease n c => if switch then some { s with loop := .releasing n c, gil := none } else some { s.drop n with loop := after c, gil := none }
  | .ended => none
  | .gone => none

def sessionStep (s : State) (x : Session) (switch : Bool) : Option State :=
  match x.pc with
  | .loop => if x.stop then some (s.session x.id .ended) else none
  | .waiting => if s.gil = none then some { s.session x.id .method with gil := some (.session x.id) } else none
  | .method => if switch then some { s.session x.id .waiting with gil := none } else some { s.session x.id .loop with gil := none }
  | .ended => none

/-- One step. `none`: the step is not possible. -/
def step (s : State) : Act → Option State
  | .acquire t => if s.py t = .idle ∧ s.gil = none then some { s.set t .running with gil := some (.py t) } else none
  | .release t => if s.py t = .running then some { s.set t .idle with gil := none } else none
  | .destroy t => if s.py t = .running ∧ s.terminate = false then some { s.set t .joining with terminate := true } else none
  | .join t => if s.py t = .joining ∧ s.loop = .ended then some { s.set t .running with loop := .gone } else none
  | .connect => if s.loop = .polling then (if s.python then some { s with loop := .making } else some { s.open with loop := .test }) else none
  | .disconnect n => if s.loop = .polling ∧ (∃ x ∈ s.sessions, x.id = n) then some { s.stop n with loop := .stopping n false } else none
  | .message n => if s.python ∧ (∃ x ∈ s.sessions, x.id = n ∧ x.pc = .loop ∧ x.stop = false) then some (s.session n .waiting) else none
  | .session n b => match s.sessions.find? (fun x => x.id = n) with
    | some x => sessionStep s x b
    | none => none
  | .server b => serverStep s b

def run (s : State) : List Act → Option State
  | [] => some s
  | a :: l => (step s a).bind fun s' => run s' l

end Scalopus.PyViewer
