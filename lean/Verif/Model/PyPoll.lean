import Verif.Model.Base

/-!
# A polling manager used from Python

Models the calls of `EndpointManagerPoll` that Python can make (scalopus_python/lib/scalopus_general.cpp:70-78, scalopus_python/lib/scalopus_interface.cpp:211-229), the thread
that polls (scalopus_general/src/endpoint_manager_poll.cpp:124-147) and the two locks they use: the interpreter lock and `mutex_`.

pybind11 calls a bound C++ function with the interpreter lock held and none of these bindings gives it back. A Python logger (scalopus_general.cpp:77, through pybind11's wrapper of
functions) or Python endpoint factory (scalopus_interface.cpp:214-215) takes the interpreter lock before it runs; while it runs the interpreter may hand the lock to another thread.

Simplifications: what `manage()` does is left out except that it holds `mutex_` throughout (endpoint_manager_poll.cpp:55) and that it may call the logger and the factories. A callback
does not call the manager itself (it would lock `mutex_` a second time). Starting a thread does not fail. `is_polling_` is read and written in one step each.
-/

namespace Scalopus.PyPoll

inductive Tid where
  /-- A thread of the Python program. -/
  | py (n : Nat)
  /-- The thread that polls. -/
  | poll
  deriving DecidableEq, Repr

/-- The calls that lock `mutex_`. -/
inductive Call where
  | endpoints   -- endpoint_manager_poll.cpp:149-153
  | addFactory  -- 155-159
  | manage      -- 53-76
  deriving DecidableEq, Repr

/-- Where a Python thread is. -/
inductive Pc where
  /-- It does not have the interpreter lock: it sleeps, or it waits for the lock. -/
  | idle
  /-- It runs Python code, with the interpreter lock. -/
  | running
  /-- In a call, about to lock `mutex_`. -/
  | locking (c : Call)
  /-- In a call, with `mutex_` locked. -/
  | locked (c : Call)
  /-- In `manage()`, inside a Python callback. -/
  | callback
  /-- In `manage()`, inside a Python callback, after the interpreter handed the lock to another thread. -/
  | paused
  /-- In `stopPolling()` at `thread_.join()` (137); `restart`: it was called by `startPolling()` (126). -/
  | joining (restart : Bool)
  deriving DecidableEq, Repr

/-- Where the polling thread is. -/
inductive Poll where
  /-- There is no such thread. -/
  | absent
  /-- About to read `is_polling_` (142). -/
  | test
  /-- About to lock `mutex_` (144, 55). -/
  | locking
  /-- In `manage()`. -/
  | locked
  /-- In `manage()`, about to take the interpreter lock for a callback, or to take it back inside one. -/
  | waiting
  /-- In `manage()`, inside a Python callback. -/
  | callback
  /-- (145) -/
  | sleeping
  | ended
  deriving DecidableEq, Repr

structure State where
  /-- Whether a logger or a factory written in Python is registered. -/
  callbacks : Bool
  py : Nat → Pc := fun _ => .idle
  poll : Poll := .absent
  polling : Bool := false
  /-- Who has the interpreter lock. -/
  gil : Option Tid := none
  /-- Who has `mutex_`. -/
  mutex : Option Tid := none

def State.set (s : State) (t : Nat) (p : Pc) : State := { s with py := fun u => if u = t then p else s.py u }

inductive Act where
  /-- A thread gets the interpreter lock. -/
  | acquire (t : Nat)
  /-- The interpreter takes the lock away from a thread, or the thread goes to sleep. -/
  | release (t : Nat)
  | call (t : Nat) (c : Call)
  | lock (t : Nat)
  | enterCallback (t : Nat)
  | leaveCallback (t : Nat)
  /-- The call ends: `mutex_` is unlocked. -/
  | unlock (t : Nat)
  | start (t : Nat)
  | stop (t : Nat)
  | join (t : Nat)
  /-- The next step of the polling thread; `cb`: it calls a callback, if it can; a callback that runs is paused. -/
  | poll (cb : Bool)
  deriving Repr, DecidableEq

/-- The polling thread, endpoint_manager_poll.cpp:140-147. -/
def pollStep (s : State) (cb : Bool) : Option State :=
  match s.poll with
  | .absent => none
  | .test => some { s with poll := if s.polling then .locking else .ended }
  | .locking => if s.mutex = none then some { s with poll := .locked, mutex := some .poll } else none
  | .locked => if cb then (if s.callbacks then some { s with poll := .waiting } else none) else some { s with poll := .sleeping, mutex := none }
  | .waiting => if s.gil = none then some { s with poll := .callback, gil := some .poll } else none
  | .callback => some { s with poll := if cb then .waiting else .locked, gil := none }
  | .sleeping => some { s with poll := .test }
  | .ended => none

/-- One step. `none`: the step is not possible. -/
def step (s : State) : Act → Option State
  | .acquire t => match s.py t with
    | .idle => if s.gil = none then some { s.set t .running with gil := some (.py t) } else none
    | .paused => if s.gil = none then some { s.set t .callback with gil := some (.py t) } else none
    | _ => none
  | .release t => match s.py t with
    | .running => some { s.set t .idle with gil := none }
    | .callback => some { s.set t .paused with gil := none }
    | _ => none
  | .call t c => if s.py t = .running then some (s.set t (.locking c)) else none
  | .lock t => match s.py t with
    | .locking c => if s.mutex = none then some { s.set t (.locked c) with mutex := some (.py t) } else none
    | _ => none
  -- the interpreter lock is held already, taking it again does nothing
  | .enterCallback t => if s.py t = .locked .manage ∧ s.callbacks then some (s.set t .callback) else none
  | .leaveCallback t => if s.py t = .callback then some (s.set t (.locked .manage)) else none
  | .unlock t => match s.py t with
    | .locked _ => some { s.set t .running with mutex := none }
    | _ => none
  -- startPolling (124-130): stopPolling() first; it returns at once if `is_polling_` is not set
  | .start t =>
    if s.py t = .running then
      if s.polling then some { s.set t (.joining true) with polling := false } else some { s with polling := true, poll := .test }
    else none
  -- stopPolling (132-139)
  | .stop t =>
    if s.py t = .running then
      if s.polling then some { s.set t (.joining false) with polling := false } else some s
    else none
  | .join t => match s.py t with
    | .joining r =>
      if s.poll = .ended then
        some (if r then { s.set t .running with polling := true, poll := .test } else { s.set t .running with poll := .absent })
      else none
    | _ => none
  | .poll cb => pollStep s cb

def run (s : State) : List Act → Option State
  | [] => some s
  | a :: l => (step s a).bind fun s' => run s' l

end Scalopus.PyPoll
