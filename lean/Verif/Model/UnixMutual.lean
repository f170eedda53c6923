import Verif.Model.Base

/-!
# A client and a server that write to each other

A unix client and its server, with the buffers of their sockets (scalopus_transport/src/transport_unix.cpp:138-162, 218-384). Both workers read and write on the same thread, and a write waits while the
buffer of the socket is full (transport_unix.cpp:235 and protocol.cpp:165-192). The client's requests are written by the threads that call `request`, with `write_lock_` held (transport_unix.cpp:149-156); the client's worker takes the lock for
the answer to a message of the server (:295-299) and for a broadcast (:355-363).

Simplifications: only the numbers of bytes matter; a worker that reads may read any number of the bytes that have arrived, and a message that it has begun to read is completed by the other side, which writes it
as a whole. A server does not call `request`.
-/

namespace Scalopus.UnixMutual

/-- What a worker is doing. -/
inductive Mode where
  /-- It is in `select`, or reading. -/
  | reading
  /-- It waits for `write_lock_`, to write this many bytes. -/
  | waiting (k : Nat)
  /-- It has this many bytes still to write. -/
  | writing (k : Nat)
  deriving DecidableEq

structure State where
  /-- bytes that the server has written and the client has not read -/
  toClient : Nat := 0
  /-- bytes that the client has written and the server has not read -/
  toServer : Nat := 0
  server : Mode := .reading
  client : Mode := .reading
  /-- a thread of the client is in `request`, and has this many bytes still to write -/
  app : Option Nat := none
  /-- the destructor was called -/
  stopServer : Bool := false
  stopClient : Bool := false
  /-- the worker has ended, and the destructor goes on -/
  endedServer : Bool := false
  endedClient : Bool := false

inductive Act where
  /-- The server's worker reads `n` bytes; begins to write an answer or a broadcast; goes on writing. -/
  | serverRead (n : Nat) | serverBegin (k : Nat) | serverWrite
  /-- The client's worker. -/
  | clientRead (n : Nat) | clientBegin (k : Nat) | clientLock | clientWrite
  /-- A thread that calls `request`, when the lock is free. -/
  | request (k : Nat) | requestWrite
  /-- The destructors, and the end of the workers. -/
  | destroyServer | destroyClient | joinServer | joinClient
  deriving DecidableEq

def Mode.isWriting : Mode → Bool
  | .writing _ => true
  | _ => false

def step (cap : Nat) (s : State) : Act → Option State
  | .serverRead n => if s.server = .reading ∧ s.endedServer = false ∧ 0 < n ∧ n ≤ s.toServer then some { s with toServer := s.toServer - n } else none
  | .serverBegin k => if s.server = .reading ∧ s.endedServer = false ∧ 0 < k then some { s with server := .writing k } else none
  | .serverWrite => match s.server with
    | .writing k =>
      if s.endedClient then some { s with server := .reading }                      -- the write fails, protocol.cpp:165-200
      else if k ≤ cap - s.toClient then some { s with server := .reading, toClient := s.toClient + k }
      else if cap - s.toClient = 0 then none
      else some { s with server := .writing (k - (cap - s.toClient)), toClient := s.toClient + (cap - s.toClient) }
    | _ => none
  | .clientRead n => if s.client = .reading ∧ s.endedClient = false ∧ 0 < n ∧ n ≤ s.toClient then some { s with toClient := s.toClient - n } else none
  | .clientBegin k => if s.client = .reading ∧ s.endedClient = false ∧ 0 < k then some { s with client := .waiting k } else none
  | .clientLock => match s.client with
    | .waiting k => if s.app = none then some { s with client := .writing k } else none
    | _ => none
  | .clientWrite => match s.client with
    | .writing k =>
      if s.endedServer then some { s with client := .reading }
      else if k ≤ cap - s.toServer then some { s with client := .reading, toServer := s.toServer + k }
      else if cap - s.toServer = 0 then none
      else some { s with client := .writing (k - (cap - s.toServer)), toServer := s.toServer + (cap - s.toServer) }
    | _ => none
  | .request k => if s.app = none ∧ s.client.isWriting = false ∧ s.stopClient = false ∧ 0 < k then some { s with app := some k } else none
  | .requestWrite => match s.app with
    | some k =>
      if s.endedServer then some { s with app := none }
      else if k ≤ cap - s.toServer then some { s with app := none, toServer := s.toServer + k }
      else if cap - s.toServer = 0 then none
      else some { s with app := some (k - (cap - s.toServer)), toServer := s.toServer + (cap - s.toServer) }
    | none => none
  | .destroyServer => some { s with stopServer := true }
  | .destroyClient => some { s with stopClient := true }
  | .joinServer => if s.stopServer = true ∧ s.server = .reading then some { s with endedServer := true } else none
  | .joinClient => if s.stopClient = true ∧ s.client = .reading then some { s with endedClient := true } else none

def run (cap : Nat) (s : State) (as : List Act) : Option State := as.foldlM (step cap) s

end Scalopus.UnixMutual
