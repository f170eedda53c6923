import Verif.Model.Base

/-!
# Sockets of servers in the processes that a program starts

Which processes of a machine hold the sockets of unix servers. `serve` and the worker create their sockets with `socket` and `accept`, without `SOCK_CLOEXEC` (scalopus_transport/src/transport_unix.cpp:52,
251), so that a process that the program starts with `fork` and `execvp`, for example the one of subprocess.hpp:112-163, holds them too. A socket is closed by the kernel when the last process that holds it
has closed it.

Simplifications: a program has at most one server; of a connection only the server's end is modelled; what is sent is left out.
-/

namespace Scalopus.Inherit

inductive Sock where
  /-- the listening socket with the name `<pid>_scalopus` (transport_unix.cpp:65-85) -/
  | listen (pid : Nat)
  /-- the server's end of a connection -/
  | conn (id : Nat)
  deriving DecidableEq

structure State where
  /-- the processes of the machine -/
  procs : List Nat := []
  /-- the sockets that each process holds -/
  fds : Nat → List Sock := fun _ => []
  /-- the sockets of the server that was created in this process: `connections_` (transport_unix.h:94) -/
  own : Nat → List Sock := fun _ => []
  /-- connections, with the name they were made to, that no server has accepted -/
  queue : List (Nat × Nat) := []
  next : Nat := 0
  /-- processes in which `serve` failed -/
  refused : List Nat := []

inductive Act where
  /-- A process with this id starts, by one without sockets. -/
  | start (p : Nat)
  /-- `transportServer` in process `p`. -/
  | serve (p : Nat)
  /-- Someone connects to the server of process `p`. -/
  | connect (p : Nat)
  /-- The worker of the server of process `p` accepts connection `id`. -/
  | accept (p id : Nat)
  /-- Process `p` starts another program, in process `q`. -/
  | spawn (p q : Nat)
  /-- The server of process `p` is destroyed. -/
  | destroy (p : Nat)
  | exit (p : Nat)
  deriving DecidableEq

/-- /proc/net/unix has the name as long as a process holds the socket; `getTransportServers` reports it (transport_unix.cpp:169-202). -/
def listed (s : State) (p : Nat) : Bool := s.procs.any fun r => decide (Sock.listen p ∈ s.fds r)

/-- Some process holds the server's end of the connection. -/
def held (s : State) (id : Nat) : Bool := s.procs.any fun r => decide (Sock.conn id ∈ s.fds r)

/-- The client of the connection reads the end of the stream. -/
def eof (s : State) (id : Nat) : Bool := decide (id < s.next) && !held s id && !s.queue.any fun e => e.2 == id

def upd {α : Type} (f : Nat → α) (i : Nat) (x : α) : Nat → α := fun j => if j = i then x else f j

/-- The kernel closes what is in the queue of a listening socket with it. -/
def settle (s : State) : State := { s with queue := s.queue.filter fun e => listed s e.1 }

def step (s : State) : Act → Option State
  | .start p => if p ∉ s.procs then some { s with procs := p :: s.procs, fds := upd s.fds p [], own := upd s.own p [] } else none
  | .serve p =>
    if p ∈ s.procs ∧ s.own p = [] then
      if listed s p then some { s with refused := p :: s.refused }                     -- `bind` fails, transport_unix.cpp:74-78
      else some { s with fds := upd s.fds p (.listen p :: s.fds p), own := upd s.own p [.listen p] }
    else none
  | .connect p => if listed s p then some { s with queue := s.queue ++ [(p, s.next)], next := s.next + 1 } else none
  | .accept p id =>
    if p ∈ s.procs ∧ .listen p ∈ s.own p ∧ (p, id) ∈ s.queue then
      some { s with fds := upd s.fds p (.conn id :: s.fds p), own := upd s.own p (.conn id :: s.own p), queue := s.queue.filter (·.2 ≠ id) }
    else none
  -- `fork` copies the table; the new program has no server
  | .spawn p q => if p ∈ s.procs ∧ q ∉ s.procs then some { s with procs := q :: s.procs, fds := upd s.fds q (s.fds p), own := upd s.own q [] } else none
  -- transport_unix.cpp:211-215: `close`, and then `shutdown`, which fails for a closed descriptor
  | .destroy p =>
    if p ∈ s.procs then some (settle { s with fds := upd s.fds p ((s.fds p).filter (· ∉ s.own p)), own := upd s.own p [] }) else none
  | .exit p =>
    if p ∈ s.procs then some (settle { s with procs := s.procs.filter (· ≠ p), fds := upd s.fds p [], own := upd s.own p [] }) else none

def run (s : State) (as : List Act) : Option State := as.foldlM step s

end Scalopus.Inherit
