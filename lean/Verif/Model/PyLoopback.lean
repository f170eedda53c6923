import Verif.Model.Base

/-!
# A loopback transport used from Python

Models the two locks that matter when Python threads make requests on a loopback transport (scalopus_transport/src/transport_loopback.cpp:35-117): the interpreter lock and `request_lock_`.
`Transport.request` (scalopus_python/lib/scalopus_interface.cpp:186-188) runs with the interpreter lock, as does the destructor of a transport when Python drops its last reference. The worker calls
the endpoints with `request_lock_` locked (transport_loopback.cpp:87-117), and an endpoint written in Python takes the interpreter lock (scalopus_interface.cpp:89). While its method runs the interpreter may
hand the lock to another thread.

Simplifications: broadcasts are left out. All endpoints are written in Python, or none is. The method of an endpoint makes no requests itself. Waiting for an answer is part of `idle`: it gives the interpreter
lock back (scalopus_interface.cpp:129). `running_` is read and written in one step each.
-/

namespace Scalopus.PyLoopback

inductive Tid where
  | py (n : Nat)
  | worker
  deriving DecidableEq, Repr

/-- Where a Python thread is. -/
inductive Pc where
  /-- It does not have the interpreter lock: it sleeps, waits for an answer, or waits for the lock. -/
  | idle
  /-- It runs Python code, with the interpreter lock. -/
  | running
  /-- In `request()`, about to lock `request_lock_` (transport_loopback.cpp:69). -/
  | requesting
  /-- In the destructor, at `thread_.join()` (44). -/
  | joining
  deriving DecidableEq, Repr

/-- Where the worker is, transport_loopback.cpp:81-151. -/
inductive Worker where
  /-- About to read `running_` (83). -/
  | test
  /-- About to lock `request_lock_` (87). -/
  | locking
  /-- Has it locked; this many requests are still to be served (88). -/
  | serving (left : Nat)
  /-- About to take the interpreter lock for the method of an endpoint, or to take it back. -/
  | waiting (left : Nat)
  /-- In the method of an endpoint. -/
  | method (left : Nat)
  | sleeping  -- (149)
  | ended
  /-- Joined. -/
  | gone
  deriving DecidableEq, Repr

structure State where
  /-- The endpoints are written in Python. -/
  python : Bool
  py : Nat → Pc := fun _ => .idle
  worker : Worker := .test
  running : Bool := true
  /-- The length of `ongoing_requests_`. -/
  pending : Nat := 0
  /-- How many requests were answered, or declined. -/
  served : Nat := 0
  gil : Option Tid := none
  lock : Option Tid := none

def State.set (s : State) (t : Nat) (p : Pc) : State := { s with py := fun u => if u = t then p else s.py u }

inductive Act where
  | acquire (t : Nat)
  | release (t : Nat)
  | request (t : Nat)
  /-- The request gets `request_lock_`, is stored (70), and returns. -/
  | store (t : Nat)
  /-- Python drops its last reference to the transport (41-43). -/
  | destroy (t : Nat)
  | join (t : Nat)
  /-- The next step of the worker; `switch`: the interpreter takes the lock away from a method that runs. -/
  | worker (switch : Bool)
  deriving DecidableEq, Repr

def workerStep (s : State) (switch : Bool) : Option State :=
  match s.worker with
  | .test => some { s with worker := if s.running then .locking else .ended }
  | .locking => if s.lock = none then some { s with worker := .serving s.pending, lock := some .worker } else none
  | .serving 0 => some { s with worker := .sleeping, pending := 0, lock := none }                                    -- 116-117
  | .serving (n + 1) => if s.python then some { s with worker := .waiting (n + 1) } else some { s with worker := .serving n, served := s.served + 1 }
  | .waiting n => if s.gil = none then some { s with worker := .method n, gil := some .worker } else none
  | .method n => if switch then some { s with worker := .waiting n, gil := none } else some { s with worker := .serving (n - 1), served := s.served + 1, gil := none }
  | .sleeping => some { s with worker := .test }
  | .ended => none
  | .gone => none

/-- One step. `none`: the step is not possible. A program does not use a transport that it has dropped. -/
def step (s : State) : Act → Option State
  | .acquire t => if s.py t = .idle ∧ s.gil = none then some { s.set t .running with gil := some (.py t) } else none
  | .release t => if s.py t = .running then some { s.set t .idle with gil := none } else none
  | .request t => if s.py t = .running ∧ s.running then some (s.set t .requesting) else none
  | .store t => if s.py t = .requesting ∧ s.lock = none then some { s.set t .running with pending := s.pending + 1 } else none
  | .destroy t => if s.py t = .running ∧ s.running then some { s.set t .joining with running := false } else none
  | .join t => if s.py t = .joining ∧ s.worker = .ended then some { s.set t .running with worker := .gone } else none
  | .worker b => workerStep s b

def run (s : State) : List Act → Option State
  | [] => some s
  | a :: l => (step s a).bind fun s' => run s' l

end Scalopus.PyLoopback
