/-!
# Lifetimes of loopback transports (scalopus_transport/src/transport_loopback.cpp)

A server and its clients. A client keeps its server (`server_`, transport_loopback.h:81), the server knows its clients by weak pointers (`clients_`, :83), and the server's worker holds a client while it
gives it a broadcast (transport_loopback.cpp:126-145). The destructor of a transport joins its own worker (:41-45).
-/

namespace Scalopus.LoopbackLife

/-- A client: how many references users hold, and whether it has been destroyed. -/
structure Client where
  held : Nat := 1
  gone : Bool := false
deriving DecidableEq, Repr

/-- The server: in use, in its destructor, destroyed. -/
inductive Phase
  | alive | dying | gone
deriving DecidableEq, Repr

structure State where
  /-- references to the server held by users -/
  held : Nat := 1
  phase : Phase := .alive
  clients : List Client := []
  /-- the server's worker is in its loop over `clients_` (transport_loopback.cpp:126-145) -/
  walking : Bool := false
  /-- the client that the server's worker holds (:128) -/
  lent : Option Nat := none
deriving DecidableEq, Repr

inductive Act
  /-- `TransportLoopbackFactory::connect` (transport_loopback.cpp:200-214). -/
  | connect
  | holdServer
  | dropServer
  | holdClient (i : Nat)
  | dropClient (i : Nat)
  /-- The server's worker has a broadcast, and starts to walk through the clients. -/
  | walk
  /-- `weak_client.lock()` gives the client. -/
  | lend (i : Nat)
  /-- The client was called, and the worker's reference to it ends. -/
  | unlend
  /-- The loop over the clients ends. -/
  | walked
  /-- The destructor of the server has joined the worker. -/
  | joined
deriving DecidableEq, Repr

/-- Outcomes: not possible here; undefined behaviour; `std::terminate`; a new state. -/
inductive Out
  | no | ub | terminate | ok (s : State)
deriving DecidableEq, Repr

def client (s : State) (i : Nat) : Client := s.clients.getD i { held := 0, gone := true }

def setClient (s : State) (i : Nat) (c : Client) : State := { s with clients := s.clients.set i c }

/-- A reference to the server has ended: with the last, its destructor runs, in the thread that ended it. In the worker, `thread_.join()` throws `std::system_error` (a thread cannot join itself), and
out of a destructor this terminates. -/
def checkServer (s : State) (inWorker : Bool) : Out :=
  if s.phase = .alive ∧ s.held = 0 ∧ s.clients.all (·.gone) then if inWorker then .terminate else .ok { s with phase := .dying } else .ok s

/-- A reference to client `i` has ended: with the last, its destructor runs: it joins the client's own worker, and drops its reference to the server. -/
def checkClient (s : State) (i : Nat) (inWorker : Bool) : Out :=
  if (client s i).held = 0 ∧ s.lent ≠ some i then checkServer (setClient s i { client s i with gone := true }) inWorker else .ok s

def step (s : State) : Act → Out
  -- `clients_.push_back` (:52-55) while the worker iterates over `clients_`: not synchronised, and may move the elements
  | .connect => if s.phase = .alive then if s.walking then .ub else .ok { s with clients := s.clients ++ [{}] } else .no
  | .holdServer => if 0 < s.held then .ok { s with held := s.held + 1 } else .no
  | .dropServer => if 0 < s.held then checkServer { s with held := s.held - 1 } false else .no
  | .holdClient i => if 0 < (client s i).held then .ok (setClient s i { client s i with held := (client s i).held + 1 }) else .no
  | .dropClient i => if 0 < (client s i).held then checkClient (setClient s i { client s i with held := (client s i).held - 1 }) i false else .no
  -- after `running_ = false` the worker finishes the broadcasts it has (:119-148)
  | .walk => if s.phase ≠ .gone ∧ s.walking = false then .ok { s with walking := true } else .no
  | .lend i => if s.walking = true ∧ s.lent = none ∧ i < s.clients.length ∧ (client s i).gone = false then .ok { s with lent := some i } else .no
  | .unlend => match s.lent with
    | some i => checkClient { s with lent := none } i true
    | none => .no
  | .walked => if s.walking = true ∧ s.lent = none then .ok { s with walking := false } else .no
  | .joined => if s.phase = .dying ∧ s.walking = false then .ok { s with phase := .gone } else .no

def run (s : State) : List Act → Out
  | [] => .ok s
  | a :: as => match step s a with
    | .ok s' => run s' as
    | o => o

end Scalopus.LoopbackLife
