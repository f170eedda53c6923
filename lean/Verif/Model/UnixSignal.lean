import Verif.Model.Base

/-!
# Signals that reach the worker of a unix transport

Models the worker of a server and of a client (scalopus_transport/src/transport_unix.cpp:218-384) in a process that has a signal handler: a call that waits fails with `EINTR` when the handler has
run. `select` then leaves the sets as they were, with every descriptor in them; `accept` fails, and a failing `read` ends `receive` (protocol.cpp:44-75). Calls that need not wait are not disturbed.

Simplifications: a message arrives as a whole and is answered in the step that reads it (bytes: `Model/Protocol`; writes that wait: `Model/UnixBlock`); connections are looked at in the order in which
they were accepted, not by descriptor. A client's connections are not used up: every client is known by its own number.
-/

namespace Scalopus.UnixSignal

/-- What the sets of `select` say about a connection after the call. -/
structure Watch where
  conn : Nat
  readable : Bool
  exceptional : Bool
  deriving DecidableEq, Repr

inductive Worker where
  /-- about to look at `running_`, or in `select`, transport_unix.cpp:225-242 -/
  | select
  /-- in `accept`, 251-260; then these connections are looked at -/
  | accept (w : List Watch)
  /-- looking at the connections, 309-347 -/
  | round (w : List Watch)
  /-- `work` has returned; the destructor goes on -/
  | ended
  deriving DecidableEq, Repr

def upd {α : Type} (f : Nat → α) (i : Nat) (x : α) : Nat → α := fun j => if j = i then x else f j

structure State where
  worker : Worker := .select
  /-- clients that `accept` will give -/
  waiting : List Nat := []
  /-- `connections_` without the socket that listens -/
  conns : List Nat := []
  /-- messages of each client that the server has not read -/
  inbox : Nat → List Nat := fun _ => []
  /-- the client has closed its end -/
  left : Nat → Bool := fun _ => false
  /-- clients that ever connected -/
  known : List Nat := []
  /-- `broadcast_messages_` -/
  queue : List Nat := []
  /-- the destructor was called, 206 -/
  stop : Bool := false
  /-- Ghost: messages that were handled, of each client. -/
  answered : Nat → List Nat := fun _ => []
  /-- Ghost: broadcasts that were sent to each client. -/
  got : Nat → List Nat := fun _ => []
  /-- Ghost: how often the descriptor of each client was closed. -/
  closes : Nat → Nat := fun _ => 0

inductive Act where
  | connect (c : Nat)
  | send (c m : Nat)
  | leave (c : Nat)
  | broadcast (b : Nat)
  | destroy
  /-- The worker goes on. -/
  | work
  /-- A signal handler runs in the worker's thread. -/
  | signal
  deriving DecidableEq, Repr

/-- Reading from the connection does not wait. -/
def ready (s : State) (c : Nat) : Bool := !(s.inbox c).isEmpty || s.left c

/-- `select` has nothing to report: it waits. -/
def quiet (s : State) : Bool := s.waiting.isEmpty && s.conns.all fun c => !ready s c

/-- transport_unix.cpp:332-337 and 341-346 -/
def close (s : State) (c : Nat) : State := { s with conns := s.conns.filter (· ≠ c), closes := upd s.closes c (s.closes c + 1) }

/-- One connection, transport_unix.cpp:318-345; `none` if reading waits. -/
def look (s : State) (x : Watch) : Option State :=
  let s1 : Option State :=
    if x.readable then
      match s.inbox x.conn with
      | m :: l => some { s with inbox := upd s.inbox x.conn l, answered := upd s.answered x.conn (s.answered x.conn ++ [m]) }
      | [] => if s.left x.conn then some (close s x.conn) else none
    else some s
  s1.map fun s => if x.exceptional then close s x.conn else s

/-- The broadcasts, transport_unix.cpp:349-364, and the end of the iteration. -/
def finish (s : State) : State :=
  { s with worker := .select, queue := [], got := fun c => if c ∈ s.conns then s.got c ++ s.queue else s.got c }

def work (s : State) : Option State :=
  match s.worker with
  | .select =>
    if s.stop then some { s with worker := .ended }
    else
      let w := s.conns.map fun c => (⟨c, ready s c, false⟩ : Watch)
      some { s with worker := if s.waiting.isEmpty then .round w else .accept w }
  | .accept w =>
    match s.waiting with
    | [] => none
    | c :: l => some { s with worker := .round w, waiting := l, conns := s.conns ++ [c] }
  | .round [] => some (finish s)
  | .round (x :: w) => (look s x).map fun s => { s with worker := .round w }
  | .ended => none

/-- What a signal does to the call that waits. -/
def signal (s : State) : State :=
  match s.worker with
  | .select => if quiet s then { s with worker := .accept (s.conns.map fun c => ⟨c, true, true⟩) } else s
  | .accept _ => if s.waiting.isEmpty then { s with worker := .select } else s
  | .round (⟨c, true, e⟩ :: w) =>
    if ready s c then s
    else
      let s := close s c
      { (if e then close s c else s) with worker := .round w }
  | .round _ => s
  | .ended => s

def step (s : State) : Act → Option State
  | .connect c => if c ∈ s.known then none else some { s with waiting := s.waiting ++ [c], known := s.known ++ [c] }
  | .send c m =>
    if c ∈ s.known ∧ s.left c = false then
      if s.closes c = 0 then some { s with inbox := upd s.inbox c (s.inbox c ++ [m]) } else some s
    else none
  | .leave c => if c ∈ s.known then some { s with left := upd s.left c true } else none
  | .broadcast b => some { s with queue := s.queue ++ [b] }
  | .destroy => some { s with stop := true }
  | .work => work s
  | .signal => some (signal s)

def run (s : State) : List Act → Option State
  | [] => some s
  | a :: l => (step s a).bind fun t => run t l

/-! ### A client -/

inductive CWorker where
  | select
  /-- in `receive`, transport_unix.cpp:263-271 -/
  | receive
  /-- the rest of the iteration -/
  | rest
  | ended
  deriving DecidableEq, Repr

structure Client where
  worker : CWorker := .select
  inbox : List Nat := []
  /-- the server has closed its end -/
  left : Bool := false
  running : Bool := true
  /-- `client_fd_` is not 0: `isConnected` -/
  connected : Bool := true
  handled : List Nat := []

inductive CAct where
  | send (m : Nat)
  | leave
  | destroy
  | work
  | signal
  deriving DecidableEq, Repr

/-- transport_unix.cpp:225-269 and 306-347, where the client's connection is passed over -/
def cwork (s : Client) : Option Client :=
  match s.worker with
  | .select =>
    if s.running = false then some { s with worker := .ended }
    else some { s with worker := if s.inbox = [] ∧ s.left = false then .rest else .receive }
  | .receive =>
    match s.inbox with
    | m :: l => some { s with worker := .rest, inbox := l, handled := s.handled ++ [m] }
    | [] => if s.left then some { s with worker := .rest, running := false, connected := false } else none
  | .rest => some { s with worker := .select }
  | .ended => none

def csignal (s : Client) : Client :=
  match s.worker with
  | .select => if s.inbox = [] ∧ s.left = false then { s with worker := .receive } else s
  | .receive => if s.inbox = [] ∧ s.left = false then { s with worker := .rest, running := false, connected := false } else s
  | .rest => s
  | .ended => s

def cstep (s : Client) : CAct → Option Client
  | .send m => if s.left then none else some { s with inbox := s.inbox ++ [m] }
  | .leave => some { s with left := true }
  | .destroy => some { s with running := false }
  | .work => cwork s
  | .signal => some (csignal s)

def crun (s : Client) : List CAct → Option Client
  | [] => some s
  | a :: l => (cstep s a).bind fun t => crun t l

end Scalopus.UnixSignal
