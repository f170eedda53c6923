/-!
# Descriptors of the unix transport (scalopus_transport/src/transport_unix.cpp)

The kernel's table of descriptors of the process, in which other threads also open and close descriptors, and the worker of one unix transport as a list of operations on descriptors. What is read and
written is left out. Descriptors are given any number that is free (the kernel gives the lowest).
-/

namespace Scalopus.UnixFds

/-- What a descriptor refers to: a socket of the transport (listening, accepted from a client, connected to a server), or something of another part of the process. -/
inductive File
  | listen | conn | client | other (n : Nat)
deriving DecidableEq, Repr

def File.own : File → Bool
  | .other _ => false
  | _ => true

/-- What the worker, or the destructor, has still to do in its round. -/
inductive Op
  /-- `accept` (transport_unix.cpp:247-258) -/
  | accept
  /-- the client's message (:260-302) -/
  | client
  /-- the loop over a copy of the connections, with the sets of `select` (:309-346) -/
  | checkAll (reads excepts : List Nat)
  /-- its body for one connection -/
  | check (fd : Nat) (read except : Bool)
  | close (fd : Nat)
  | shutdown (fd : Nat)
deriving DecidableEq, Repr

structure State where
  /-- the kernel's table -/
  table : Nat → Option File := fun _ => none
  /-- `server_fd_`, `client_fd_` (transport_unix.h:88-89) -/
  serverFd : Nat := 0
  clientFd : Nat := 0
  /-- `connections_` (:94) -/
  conns : List Nat := []
  /-- `running_` (:92) -/
  running : Bool := false
  started : Bool := false
  /-- the destructor has joined the worker -/
  joined : Bool := false
  ops : List Op := []
  /-- files of others that the transport has closed or shut down -/
  harmed : List Nat := []

inductive Act
  /-- `serve` succeeds, with this descriptor (transport_unix.cpp:49-98). -/
  | serve (fd : Nat)
  /-- `connect` succeeds, with this descriptor (:100-136). -/
  | connect (fd : Nat)
  /-- Another thread opens a file, and gets this descriptor. -/
  | openOther (n fd : Nat)
  /-- Another thread closes its file. -/
  | closeOther (fd : Nat)
  /-- A round of the worker begins; `select` reports these descriptors. -/
  | round (reads excepts : List Nat)
  /-- `accept` gives this descriptor, or fails. -/
  | accepted (fd : Option Nat)
  /-- The next operation; `ok`: reading a message succeeds. -/
  | next (ok : Bool)
  /-- The destructor sets `running_` to false. -/
  | stop
  /-- The worker ended, and is joined; the destructor begins to close the connections (:204-216). -/
  | join
deriving DecidableEq, Repr

inductive Out
  | no | ub | ok (s : State)

def setFd (s : State) (fd : Nat) (f : Option File) : State := { s with table := fun i => if i = fd then f else s.table i }

/-- A call of the transport on the descriptor reaches a file of others. -/
def touch (s : State) (fd : Nat) : State := match s.table fd with
  | some (.other n) => { s with harmed := n :: s.harmed }
  | _ => s

/-- The closing of a connection (:334-336, :342-344): `close`, then `shutdown`. The connection is taken out of `connections_` after that in the code, here with `close`; only the worker sees `connections_`. -/
def closing (fd : Nat) : List Op := [.close fd, .shutdown fd]

/-- What one connection needs (:313-345). -/
def checks (fd : Nat) (read except ok : Bool) : List Op := (if read && !ok then closing fd else []) ++ (if except then closing fd else [])

/-- `isConnected` (:165-168). -/
def isConnected (s : State) : Bool := s.clientFd != 0 || s.serverFd != 0

def step (s : State) : Act → Out
  | .serve fd => if s.started = false ∧ s.table fd = none then .ok { setFd s fd (some .listen) with serverFd := fd, conns := [fd], running := true, started := true } else .no
  | .connect fd => if s.started = false ∧ s.table fd = none then .ok { setFd s fd (some .client) with clientFd := fd, conns := [fd], running := true, started := true } else .no
  | .openOther n fd => if s.table fd = none then .ok (setFd s fd (some (.other n))) else .no
  | .closeOther fd => match s.table fd with
    | some (.other _) => .ok (setFd s fd none)
    | _ => .no
  -- :229-245; `FD_SET` writes outside the set for descriptors from FD_SETSIZE on
  | .round reads excepts =>
    if s.running = true ∧ s.joined = false ∧ s.ops = [] ∧ reads ⊆ s.conns ∧ excepts ⊆ s.conns then
      if s.conns.any (1024 ≤ ·) then .ub
      else .ok { s with ops := (if s.serverFd ∈ reads then [.accept] else []) ++ (if s.clientFd ∈ reads then [.client] else []) ++ [.checkAll reads excepts] }
    else .no
  | .accepted fd => match s.ops with
    | .accept :: rest => match fd with
      | none => .ok { s with ops := [] }
      | some f => if s.table f = none ∧ s.table s.serverFd = some .listen then .ok { setFd s f (some .conn) with conns := f :: s.conns, ops := rest } else .no
    | _ => .no
  | .next ok => match s.ops with
    -- reading from a listening socket fails
    | .client :: rest => if ok ∧ s.table s.clientFd ≠ some .listen then .ok { s with ops := rest } else .ok { s with ops := rest, running := false, clientFd := 0 }
    | .checkAll reads excepts :: rest => .ok { s with ops := (s.conns.map fun fd => .check fd (decide (fd ∈ reads)) (decide (fd ∈ excepts))) ++ rest }
    | .check fd read except :: rest => .ok { s with ops := (if fd = s.serverFd ∨ fd = s.clientFd then [] else checks fd read except ok) ++ rest }
    | .close fd :: rest => .ok { setFd (touch s fd) fd none with conns := s.conns.filter (· != fd), ops := rest }
    | .shutdown fd :: rest => .ok { touch s fd with ops := rest }
    | _ => .no
  | .stop => if s.started = true ∧ s.joined = false then .ok { s with running := false } else .no
  | .join => if s.started = true ∧ s.joined = false ∧ s.running = false ∧ s.ops = [] then .ok { s with joined := true, ops := s.conns.flatMap closing } else .no

def run (s : State) : List Act → Out
  | [] => .ok s
  | a :: as => match step s a with
    | .ok s' => run s' as
    | o => o

end Scalopus.UnixFds
