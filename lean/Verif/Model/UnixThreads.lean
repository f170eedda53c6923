import Verif.Model.Base

/-!
# The threads that use a unix transport

Models how the threads that use a `TransportUnix` interleave: its worker, the thread that owns it, and any others (scalopus_transport/src/transport_unix.cpp:138-167, 203-384,
scalopus_interface/src/transport.cpp:39-81). What the calls do is in `Model/Unix.lean`, `Model/Broadcast.lean` and `Model/Registry.lean`; here every access to a member, every operation on a mutex
and every call of an endpoint is one step. The transport was made by the factory, so the worker runs. Thread 0 owns it, thread 1 is the worker.

Members that do not change after the start (`server_fd_`, `client_pid_`) and the atomic counter are left out, and so are the worker's reads of members that only the worker writes. `getName` and
`setTransport` of an endpoint, called in `addEndpoint`, are taken not to use the transport.
-/

namespace Scalopus.UnixThreads

/-- The members of the transport. `socket` stands for writing to the sockets, which has to be done message by message. -/
inductive Var where
  | endpoints | broadcasts | ongoing | socket
  | connections
  | running    -- a plain bool
  | clientFd   -- a plain int
  | logger     -- a std::function
  deriving DecidableEq

inductive Mutex where
  | request    -- `request_lock_`
  | endpoint   -- `endpoint_mutex_`
  | write      -- `write_lock_`
  | broadcast  -- `broadcast_message_mutex_`
  deriving DecidableEq

inductive Op where
  | lock (m : Mutex) | unlock (m : Mutex)
  | read (v : Var) | write (v : Var)
  /-- transport_unix.cpp:397: `processMsg` looks the endpoint up, without `endpoint_mutex_` -/
  | lookup
  /-- transport_unix.cpp:402: the call of `handle` of an endpoint -/
  | handle
  /-- transport_unix.cpp:295: the call of `unsolicited` of an endpoint -/
  | unsolicited
  /-- transport_unix.cpp:267, 207: `running_ = false` -/
  | clearRunning
  /-- transport_unix.cpp:225: the condition of the worker's loop -/
  | loop
  /-- transport_unix.cpp:208 -/
  | join
  /-- transport_unix.cpp:210-214 -/
  | closeAll
  deriving DecidableEq

/-- What the worker finds for a message from the server. -/
inductive Found where
  | request | nothing | endpoint (replies : Bool)
  deriving DecidableEq

/-- What the worker, as a client, reads. -/
structure Incoming where
  lost : Bool
  found : Found
  deriving DecidableEq

/-- What the worker, as a server, reads from a client. -/
inductive Event where
  | lost | unknown | message (replies : Bool)
  deriving DecidableEq

inductive Accept where
  | none | accepted | failed
  deriving DecidableEq

/-- What happens in one iteration of the worker's loop; `broadcasts` has the number of recipients of each. -/
structure Round where
  selectFailed : Bool := false
  accept : Accept := .none
  client : Option Incoming := none
  serverExcept : Bool := false
  events : List Event := []
  broadcasts : List Nat := []
  deriving DecidableEq

/-- `protocol::send` with the write lock, transport_unix.cpp:297-298, 328-329, 361-362 -/
def sendOps : List Op := [.lock .write, .write .socket, .unlock .write]

/-- transport_unix.cpp:274-301 -/
def foundOps : Found → List Op
  | .request => [.write .ongoing]
  | .nothing => [.lock .endpoint, .read .endpoints, .unlock .endpoint]
  | .endpoint replies => [.lock .endpoint, .read .endpoints, .unsolicited] ++ (if replies then sendOps else []) ++ [.unlock .endpoint]

/-- transport_unix.cpp:261-302 -/
def incomingOps (m : Incoming) : List Op :=
  (if m.lost then [.clearRunning, .write .clientFd] else []) ++ [.lock .request, .read .ongoing] ++ foundOps m.found ++ [.unlock .request]

/-- transport_unix.cpp:311-346 with `processMsg` (392-406) -/
def eventOps : Event → List Op
  | .lost => [.write .connections]
  | .unknown => [.lookup]
  | .message replies => [.lookup, .handle] ++ if replies then sendOps else []

/-- transport_unix.cpp:349-364, one broadcast -/
def broadcastOps (n : Nat) : List Op :=
  [.lock .broadcast, .read .broadcasts, .unlock .broadcast, .lock .broadcast, .write .broadcasts, .unlock .broadcast, .read .connections] ++ (List.replicate n sendOps).flatten

/-- transport_unix.cpp:225-383. A failing `accept` ends the iteration (line 254). -/
def roundOps (r : Round) : List Op :=
  [.read .connections] ++ (if r.selectFailed then [.read .logger] else []) ++
    if r.accept = .failed then [.read .logger]
    else (if r.accept = .accepted then [.write .connections] else []) ++ (r.client.map incomingOps).getD [] ++ (if r.serverExcept then [.read .logger] else []) ++ [.read .connections] ++ r.events.flatMap eventOps ++
      r.broadcasts.flatMap broadcastOps ++ [.lock .broadcast, .read .broadcasts, .unlock .broadcast, .lock .request, .write .ongoing, .unlock .request]

/-- Calls of the transport. -/
inductive Call where
  | addEndpoint | endpoints | getEndpoint | broadcast | request (sent : Bool) | pendingRequests | isConnected | setLogger
  /-- the destructor -/
  | destroy
  deriving DecidableEq

/-- `addEndpoint`: transport.cpp:59-64, `endpoints`: 64-68, `getEndpoint`: 70-79, `broadcast`: 37-41, `setLogger`: 81-84;
    `request`: transport_unix.cpp:138-162, `isConnected`: 164-167, destructor: 203-215, `pendingRequests`: 386-390 -/
def callOps : Call → List Op
  | .addEndpoint => [.lock .endpoint, .write .endpoints, .unlock .endpoint]
  | .endpoints => [.lock .endpoint, .read .endpoints, .unlock .endpoint]
  | .getEndpoint => [.lock .endpoint, .read .endpoints, .unlock .endpoint]
  | .broadcast => [.lock .broadcast, .write .broadcasts, .unlock .broadcast]
  | .request sent => [.lock .write, .read .clientFd, .write .socket, .unlock .write] ++ if sent then [.lock .request, .write .ongoing, .unlock .request] else []
  | .pendingRequests => [.lock .request, .read .ongoing, .unlock .request]
  | .isConnected => [.read .clientFd]
  | .setLogger => [.write .logger]
  | .destroy => [.clearRunning, .join, .closeAll]

structure State where
  /-- the thread that holds a mutex -/
  holder : Mutex → Option Nat := fun _ => none
  /-- what each thread has left to do in the call it is in; the worker is about to look whether it should run -/
  ops : Nat → List Op := fun t => if t = 1 then [.loop] else []
  running : Bool := true
  /-- the destructor was called -/
  destroyed : Bool := false
  /-- `std::terminate` was called -/
  terminated : Bool := false

def State.set (s : State) (t : Nat) (l : List Op) : State := { s with ops := fun u => if u = t then l else s.ops u }

def State.hold (s : State) (m : Mutex) (h : Option Nat) : State := { s with holder := fun x => if x = m then h else s.holder x }

inductive Act where
  /-- A thread calls the transport. -/
  | call (t : Nat) (c : Call)
  /-- A thread takes its next step. An endpoint that is called in it makes the calls `cs`; an iteration of the worker finds `r`. -/
  | exec (t : Nat) (cs : List Call) (r : Round)
  deriving DecidableEq

/-- The next step of thread `t`, which has `rest` to do after it. -/
def exec (s : State) (t : Nat) (cs : List Call) (r : Round) : Op → List Op → Option State
  | .lock m, rest => if s.holder m = none then some ((s.set t rest).hold m (some t)) else none
  | .unlock m, rest => some ((s.set t rest).hold m none)
  | .read _, rest => some (s.set t rest)
  | .write _, rest => some (s.set t rest)
  | .lookup, rest => some (s.set t rest)
  | .handle, rest => some (s.set t (cs.flatMap callOps ++ rest))
  | .unsolicited, rest => some (s.set t (cs.flatMap callOps ++ rest))
  | .clearRunning, rest => some { s.set t rest with running := false }
  | .loop, rest => some (s.set t (if s.running then roundOps r ++ [.loop] else rest))
  -- a thread that joins itself gets an exception, in a destructor
  | .join, rest => if t = 1 then some { s with terminated := true } else if s.ops 1 = [] then some (s.set t rest) else none
  | .closeAll, rest => some (s.set t rest)

def step (s : State) : Act → Option State
  | .call t c => if s.terminated = false ∧ t ≠ 1 ∧ s.ops t = [] ∧ s.destroyed = false then some { s.set t (callOps c) with destroyed := decide (c = .destroy) } else none
  | .exec t cs r => if s.terminated then none else match s.ops t with
    | [] => none
    | o :: rest => exec s t cs r o rest

/-- The histories in which thread `t` makes only calls `c` with `P s t c`, `s` being the state at that time, and endpoints that it calls only those with `Q o c`, where `o` is the call of the
    endpoint. -/
inductive Reachable (P : State → Nat → Call → Prop) (Q : Op → Call → Prop) : State → Prop
  | init : Reachable P Q {}
  | call {s s' : State} {t : Nat} {c : Call} : Reachable P Q s → P s t c → step s (.call t c) = some s' → Reachable P Q s'
  | exec {s s' : State} {t : Nat} {cs : List Call} {r : Round} : Reachable P Q s → (∀ o ∈ (s.ops t).head?, ∀ c ∈ cs, Q o c) → step s (.exec t cs r) = some s' → Reachable P Q s'

/-- The member that a step accesses, and whether it writes. -/
def Op.access : Op → Option (Var × Bool)
  | .read v => some (v, false)
  | .write v => some (v, true)
  | .lookup => some (.endpoints, false)
  | .clearRunning => some (.running, true)
  | .loop => some (.running, false)
  | .closeAll => some (.connections, true)
  | .lock _ | .unlock _ | .handle | .unsolicited | .join => none

/-- Thread `t` is about to access `v`. -/
def State.accesses (s : State) (t : Nat) (v : Var) (w : Bool) : Prop := ∃ o rest, s.ops t = o :: rest ∧ o.access = some (v, w)

end Scalopus.UnixThreads
