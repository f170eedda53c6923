import Verif.Model.Base

/-!
# The two threads of a viewer session

Models the accesses to the data of a `TraceSession` by the server thread, which makes, feeds and destroys it (scalopus_catapult/src/catapult_backend.cpp:103-177,
trace_session.cpp:36-56), and by its worker thread (trace_session.cpp:72-92). Every memory access is one step. `incoming_msg_` is only accessed with `incoming_mutex_` held
(trace_session.cpp:52-70): such an access is modelled as one step that holds the mutex.
-/

namespace Scalopus.SessionThreads

/-- The data the two threads share. -/
inductive Var where
  | running   -- `running_`, a plain bool (trace_session.h)
  | sources   -- `sources_`, a std::vector
  | incoming  -- `incoming_msg_`, with `incoming_mutex_` held
  deriving DecidableEq

structure Access where
  var : Var
  write : Bool
  locked : Bool
  deriving DecidableEq

/-- What the server thread does with the session next. -/
inductive Server where
  /-- The session object exists and its worker thread was started (`make_shared<TraceSession>`); this many sources are still to be added (catapult_backend.cpp:167-174). -/
  | adding (left : Nat)
  /-- The session is in `sessions_`. -/
  | published
  /-- The destructor is about to write `running_` (trace_session.cpp:43). -/
  | destroying
  /-- The destructor waits for the worker (trace_session.cpp:44). -/
  | joining
  | done
  deriving DecidableEq

/-- Where the worker is, trace_session.cpp:72-92. -/
inductive Worker where
  | outer        -- about to read `running_` (74)
  | have         -- about to call haveIncoming() (77)
  | inner        -- about to read `running_` (77)
  | pop          -- about to call popIncoming() (79)
  | process      -- in processMessage; it also reads `sources_`, see below
  | scan         -- about to read `sources_` (83)
  | sleep        -- (90)
  | ended
  deriving DecidableEq

structure State where
  server : Server
  worker : Worker := .outer
  running : Bool := true
  incoming : Nat := 0
  sources : Nat := 0

/-- The session has just been made; `n` providers are known. -/
def init (n : Nat) : State := { server := .adding n }

/-- The next access of the server thread, if it is about to make one. A published session can be fed (`incoming`). -/
def serverAccess (s : State) : List Access :=
  match s.server with
  | .adding (_ + 1) => [⟨.sources, true, false⟩]
  | .published => [⟨.incoming, true, true⟩]
  | .destroying => [⟨.running, true, false⟩]
  | _ => []

/-- The next access of the worker thread. -/
def workerAccess (s : State) : List Access :=
  match s.worker with
  | .outer => [⟨.running, false, false⟩]
  | .have => [⟨.incoming, false, true⟩]
  | .inner => [⟨.running, false, false⟩]
  | .pop => [⟨.incoming, true, true⟩]
  | .process => [⟨.sources, false, false⟩]
  | .scan => [⟨.sources, false, false⟩]
  | _ => []

inductive Act where
  | add | publish | feed | destroy | stop | join
  | worker

def serverStep (s : State) : Act → Option State
  | .add => match s.server with
    | .adding (n + 1) => some { s with server := .adding n, sources := s.sources + 1 }
    | _ => none
  | .publish => if s.server = .adding 0 then some { s with server := .published } else none
  | .feed => if s.server = .published then some { s with incoming := s.incoming + 1 } else none
  | .destroy => if s.server = .published then some { s with server := .destroying } else none
  | .stop => if s.server = .destroying then some { s with server := .joining, running := false } else none
  | .join => if s.server = .joining ∧ s.worker = .ended then some { s with server := .done } else none
  | .worker => none

def workerStep (s : State) : Option State :=
  match s.worker with
  | .outer => some { s with worker := if s.running then .have else .ended }
  | .have => some { s with worker := if s.incoming ≠ 0 then .inner else .scan }
  | .inner => some { s with worker := if s.running then .pop else .scan }
  | .pop => some { s with worker := .process, incoming := s.incoming - 1 }
  | .process => some { s with worker := .have }
  | .scan => some { s with worker := .sleep }
  | .sleep => some { s with worker := .outer }
  | .ended => none

def step (s : State) : Act → Option State
  | .worker => workerStep s
  | a => serverStep s a

inductive Reachable (n : Nat) : State → Prop
  | init : Reachable n (init n)
  | step {s s' : State} {a : Act} : Reachable n s → step s a = some s' → Reachable n s'

end Scalopus.SessionThreads
