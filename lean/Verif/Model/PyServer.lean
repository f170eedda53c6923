import Verif.Model.Base

/-!
# The server for the viewer, used from Python

Models the interpreter lock while a `CatapultServer` (scalopus_catapult/src/catapult_server.cpp) is owned by Python. Its thread calls the logger that was set from Python
(scalopus_python/lib/scalopus_catapult.cpp:45-50), which takes the interpreter lock, for example when a connection opens (catapult_backend.cpp:94). Then the new session gets a copy of the logging function
(catapult_backend.cpp:168), which copies a Python object: it changes its reference count. The destructor runs when Python drops its last reference, with the interpreter lock; it waits for the thread
(catapult_server.cpp:92-99).

Simplifications: the web server's loop is: test whether to end, wait for an event, deal with it. Only the two kinds of events are told apart that matter here: connections, and others. The threads of the
sessions are left out.
-/

namespace Scalopus.PyServer

inductive Tid where
  | py (n : Nat)
  | server
  deriving DecidableEq, Repr

/-- Where a Python thread is. -/
inductive Pc where
  /-- It does not have the interpreter lock. -/
  | idle
  /-- It runs Python code, with the interpreter lock. -/
  | running
  /-- In the destructor, at `thread_.join()` (catapult_server.cpp:97). -/
  | joining
  deriving DecidableEq, Repr

/-- Where the server's thread is; `connect`: the event is a new connection. -/
inductive Loop where
  | test
  | polling
  /-- About to take the interpreter lock for the logger, or to take it back. -/
  | waiting (connect : Bool)
  | logging (connect : Bool)
  /-- About to copy the logging function. -/
  | copying
  | ended
  /-- Joined. -/
  | gone
  deriving DecidableEq, Repr

structure State where
  /-- The logger was set from Python. -/
  python : Bool
  py : Nat → Pc := fun _ => .idle
  loop : Loop := .test
  terminate : Bool := false
  gil : Option Tid := none
  /-- ghost: for every time a Python object was touched by the server's thread, whether it had the interpreter lock -/
  touches : List Bool := []

def State.set (s : State) (t : Nat) (p : Pc) : State := { s with py := fun u => if u = t then p else s.py u }

inductive Event where
  | connect
  | other
  deriving DecidableEq, Repr

inductive Act where
  | acquire (t : Nat)
  | release (t : Nat)
  /-- Python drops its last reference to the server. -/
  | destroy (t : Nat)
  | join (t : Nat)
  /-- Something arrives at the web server. -/
  | event (e : Event)
  /-- The next step of the server's thread; `switch`: the interpreter takes the lock away from a logger that runs. -/
  | server (switch : Bool)
  deriving DecidableEq, Repr

def serverStep (s : State) (switch : Bool) : Option State :=
  match s.loop with
  | .test => some { s with loop := if s.terminate then .ended else .polling }
  | .polling => if s.terminate then some { s with loop := .test } else none                    -- `terminate` wakes it up
  | .waiting c => if s.gil = none then some { s with loop := .logging c, gil := some .server } else none
  | .logging c =>
    if switch then some { s with loop := .waiting c, gil := none }
    else some { s with loop := if c then .copying else .test, gil := none, touches := s.touches ++ [decide (s.gil = some .server)] }
  | .copying => some { s with loop := .test, touches := if s.python then s.touches ++ [decide (s.gil = some .server)] else s.touches }
  | .ended => none
  | .gone => none

/-- One step. `none`: the step is not possible. -/
def step (s : State) : Act → Option State
  | .acquire t => if s.py t = .idle ∧ s.gil = none then some { s.set t .running with gil := some (.py t) } else none
  | .release t => if s.py t = .running then some { s.set t .idle with gil := none } else none
  | .destroy t => if s.py t = .running ∧ s.terminate = false then some { s.set t .joining with terminate := true } else none
  | .join t => if s.py t = .joining ∧ s.loop = .ended then some { s.set t .running with loop := .gone } else none
  | .event e =>
    if s.loop = .polling then
      if s.python then some { s with loop := .waiting (decide (e = .connect)) } else some { s with loop := if e = .connect then .copying else .test }
    else none
  | .server b => serverStep s b

def run (s : State) : List Act → Option State
  | [] => some s
  | a :: l => (step s a).bind fun s' => run s' l

end Scalopus.PyServer
