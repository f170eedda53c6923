import Verif.Model.Base

/-!
# A unix transport used from Python

Models the locks that matter when Python threads use a unix transport (scalopus_transport/src/transport_unix.cpp, scalopus_interface/src/transport.cpp): the interpreter lock, `endpoint_mutex_` and
`request_lock_`. The bindings of `addEndpoint` and `request` (scalopus_python/lib/scalopus_interface.cpp:182-188) keep the interpreter lock, and so does the destructor of a transport when Python drops its last
reference. An endpoint that is written in Python takes the interpreter lock in each of its methods (`getName`: scalopus_interface.cpp:81-84, `handle`: 84-98, `unsolicited`: 100-114), and while a method runs
the interpreter may hand the lock to another thread.

Simplifications: all endpoints are written in Python, or none is; their methods do not use the transport. `write_lock_` and `broadcast_message_mutex_` are left out: they are held for single sends and
single accesses, never while a thread waits for another lock. Reading from and writing to sockets does not block. Waiting for an answer is part of `idle`: it gives the interpreter lock back
(scalopus_interface.cpp:129). `running_` is read and written in one step each. The request has been sent when `request` comes to `request_lock_`.
-/

namespace Scalopus.PyUnix

inductive Tid where
  | py (n : Nat)
  | worker
  deriving DecidableEq, Repr

/-- Where a Python thread is. -/
inductive Pc where
  /-- It does not have the interpreter lock: it sleeps, waits for an answer, or waits for the lock. -/
  | idle
  /-- It runs Python code, with the interpreter lock. -/
  | running
  /-- In `addEndpoint`, about to lock `endpoint_mutex_` (transport.cpp:59). -/
  | adding
  /-- In `getName` of the endpoint that is added (transport.cpp:62), with the interpreter lock. -/
  | naming
  /-- In `getName`, after the interpreter handed the lock to another thread. -/
  | paused
  /-- In `request`, about to lock `request_lock_` (transport_unix.cpp:159). -/
  | requesting
  /-- In the destructor, at `thread_.join()` (transport_unix.cpp:207). -/
  | joining
  deriving DecidableEq, Repr

/-- Where the worker is, transport_unix.cpp:218-384. -/
inductive Worker where
  /-- About to read `running_` (224). -/
  | test
  /-- As a client, with a message that no request waits for, about to lock `request_lock_` (272). -/
  | lockRequests
  /-- Has it locked; about to lock `endpoint_mutex_` (287). -/
  | lockEndpoints
  /-- About to take the interpreter lock for the method of an endpoint, or to take it back; `held`: with the two mutexes locked. -/
  | waiting (held : Bool)
  /-- In the method of an endpoint. -/
  | method (held : Bool)
  /-- About to lock `request_lock_` to clean up (369). -/
  | cleanup
  | ended
  /-- Joined. -/
  | gone
  deriving DecidableEq, Repr

/-- What the worker finds in one iteration. -/
inductive Event where
  | nothing
  /-- A message for an endpoint: a request, if the transport is a server (325), or something no request waits for, if it is a client (285). -/
  | message
  deriving DecidableEq, Repr

structure State where
  /-- The endpoints are written in Python. -/
  python : Bool
  /-- The transport was made by `connect`, not by `serve`. -/
  client : Bool
  py : Nat → Pc := fun _ => .idle
  worker : Worker := .test
  running : Bool := true
  /-- How many endpoints were added. -/
  added : Nat := 0
  /-- How many requests were stored. -/
  stored : Nat := 0
  /-- How many methods of endpoints have returned to the worker. -/
  served : Nat := 0
  gil : Option Tid := none
  /-- `endpoint_mutex_` -/
  endpoints : Option Tid := none
  /-- `request_lock_` -/
  requests : Option Tid := none

def State.set (s : State) (t : Nat) (p : Pc) : State := { s with py := fun u => if u = t then p else s.py u }

inductive Act where
  | acquire (t : Nat)
  | release (t : Nat)
  | add (t : Nat)
  /-- `addEndpoint` gets `endpoint_mutex_`. -/
  | locked (t : Nat)
  /-- The interpreter takes the lock away from `getName`, and gives it back. -/
  | pause (t : Nat)
  | resume (t : Nat)
  /-- `getName` returns, and `addEndpoint` too. -/
  | named (t : Nat)
  | request (t : Nat)
  /-- The request gets `request_lock_`, is stored, and returns. -/
  | store (t : Nat)
  /-- Python drops its last reference to the transport. -/
  | destroy (t : Nat)
  | join (t : Nat)
  /-- The next step of the worker; `switch`: the interpreter takes the lock away from a method that runs. -/
  | worker (ev : Event) (switch : Bool)
  deriving DecidableEq, Repr

/-- transport_unix.cpp:222-384 -/
def workerStep (s : State) (ev : Event) (switch : Bool) : Option State :=
  match s.worker with
  | .test =>
    if s.running then
      match ev with
      | .nothing => some { s with worker := .cleanup }
      | .message =>
        if s.client then some { s with worker := .lockRequests }
        else if s.python then some { s with worker := .waiting false }
        else some { s with worker := .cleanup, served := s.served + 1 }
    else some { s with worker := .ended }
  | .lockRequests => if s.requests = none then some { s with worker := .lockEndpoints, requests := some .worker } else none
  | .lockEndpoints =>
    if s.endpoints = none then
      if s.python then some { s with worker := .waiting true, endpoints := some .worker } else some { s with worker := .cleanup, requests := none, served := s.served + 1 }
    else none
  | .waiting h => if s.gil = none then some { s with worker := .method h, gil := some .worker } else none
  | .method h =>
    if switch then some { s with worker := .waiting h, gil := none }
    else if h then some { s with worker := .cleanup, gil := none, endpoints := none, requests := none, served := s.served + 1 }
    else some { s with worker := .cleanup, gil := none, served := s.served + 1 }
  | .cleanup => if s.requests = none then some { s with worker := .test } else none
  | .ended => none
  | .gone => none

/-- One step. `none`: the step is not possible. A program does not use a transport that it has dropped. -/
def step (s : State) : Act → Option State
  | .acquire t => if s.py t = .idle ∧ s.gil = none then some { s.set t .running with gil := some (.py t) } else none
  | .release t => if s.py t = .running then some { s.set t .idle with gil := none } else none
  | .add t => if s.py t = .running ∧ s.running then some (s.set t .adding) else none
  | .locked t =>
    if s.py t = .adding ∧ s.endpoints = none then
      if s.python then some { s.set t .naming with endpoints := some (.py t) } else some { s.set t .running with added := s.added + 1 }
    else none
  | .pause t => if s.py t = .naming then some { s.set t .paused with gil := none } else none
  | .resume t => if s.py t = .paused ∧ s.gil = none then some { s.set t .naming with gil := some (.py t) } else none
  | .named t => if s.py t = .naming then some { s.set t .running with endpoints := none, added := s.added + 1 } else none
  | .request t => if s.py t = .running ∧ s.running ∧ s.client then some (s.set t .requesting) else none
  | .store t => if s.py t = .requesting ∧ s.requests = none then some { s.set t .running with stored := s.stored + 1 } else none
  | .destroy t => if s.py t = .running ∧ s.running then some { s.set t .joining with running := false } else none
  | .join t => if s.py t = .joining ∧ s.worker = .ended then some { s.set t .running with worker := .gone } else none
  | .worker ev b => workerStep s ev b

def run (s : State) : List Act → Option State
  | [] => some s
  | a :: l => (step s a).bind fun s' => run s' l

end Scalopus.PyUnix
