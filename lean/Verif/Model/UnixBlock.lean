import Verif.Model.Base

/-!
# What the worker of a unix server waits for

Models the server's worker with the buffers of its sockets (scalopus_transport/src/transport_unix.cpp:218-384, scalopus_transport/src/protocol.cpp:44-200). Reading and writing block: `readData` waits
for the bytes of a message that has begun to arrive (protocol.cpp:54), and `send` waits for room in the buffer of the socket (protocol.cpp:165-192, no `MSG_DONTWAIT`). What is in the messages is in
`Model/Protocol.lean` and `Model/Unix.lean`; here only their number and their sizes matter.

Simplifications: a connection is accepted at once; a connection that is closed in an iteration may still be given the broadcasts of this iteration, which are dropped; endpoints that the worker calls return.
-/

namespace Scalopus.UnixBlock

/-- What the worker has to do in an iteration of its loop. -/
inductive Task where
  /-- transport_unix.cpp:318-345: receive a message of connection `i`, handle it and reply -/
  | recv (i : Nat)
  /-- transport_unix.cpp:327-329, 362-363: write `k` more bytes of a message to connection `i`; a reply or a broadcast -/
  | send (i k : Nat) (reply : Bool)
  deriving DecidableEq

structure State where
  /-- complete messages of each connection that the server has not read -/
  inbox : Nat → Nat := fun _ => 0
  /-- the first bytes of a further message have arrived -/
  begun : Nat → Bool := fun _ => false
  /-- bytes in the buffer of each connection that the client has not read -/
  out : Nat → Nat := fun _ => 0
  /-- the client has closed its end -/
  closed : Nat → Bool := fun _ => false
  /-- `connections_` -/
  conns : List Nat := []
  tasks : List Task := []
  /-- the destructor was called (transport_unix.cpp:206) -/
  stopping : Bool := false
  /-- the worker has ended, so that the destructor goes on (transport_unix.cpp:207) -/
  ended : Bool := false
  /-- replies that were written to each connection -/
  replied : Nat → Nat := fun _ => 0

inductive Act where
  | connect (i : Nat)
  /-- Client `i` sends a message, sends the first bytes of one, or the others. -/
  | message (i : Nat) | begin (i : Nat) | complete (i : Nat)
  /-- Client `i` reads `n` bytes. -/
  | read (i n : Nat)
  | close (i : Nat)
  /-- The worker begins an iteration: `select` says that `readable` can be read, and there are broadcasts of these sizes. -/
  | round (readable broadcasts : List Nat)
  /-- The worker goes on with its next task. An endpoint that is called gives a reply of this size, if it does. -/
  | work (reply : Option Nat)
  /-- The owner calls the destructor. -/
  | stop
  /-- The worker sees that it should end. -/
  | finish
  deriving DecidableEq

def upd {α : Type} (f : Nat → α) (i : Nat) (x : α) : Nat → α := fun j => if j = i then x else f j

/-- transport_unix.cpp:324-330: writing the reply, if there is one -/
def replyTask (i : Nat) : Option Nat → List Task
  | some k => [.send i k true]
  | none => []

/-- One task of the worker; `none` if it waits. `cap` is the size of the buffers. -/
def task (cap : Nat) (s : State) (reply : Option Nat) (rest : List Task) : Task → Option State
  | .recv i =>
    if s.inbox i ≠ 0 then
      some { s with inbox := upd s.inbox i (s.inbox i - 1), tasks := replyTask i reply ++ rest }
    else if s.closed i then some { s with conns := s.conns.erase i, tasks := rest }   -- the end of the stream: transport_unix.cpp:332-337
    else none                                                                         -- protocol.cpp:54
  | .send i k reply =>
    if s.closed i then some { s with tasks := rest }                                  -- EPIPE, protocol.cpp:165-200
    else
      let w := min k (cap - s.out i)
      if w = k then some { s with out := upd s.out i (s.out i + k), tasks := rest, replied := if reply then upd s.replied i (s.replied i + 1) else s.replied }
      else if w = 0 then none
      else some { s with out := upd s.out i (s.out i + w), tasks := .send i (k - w) reply :: rest }

def step (cap : Nat) (s : State) : Act → Option State
  | .connect i => if i ∉ s.conns ∧ s.closed i = false ∧ s.stopping = false then some { s with conns := s.conns ++ [i] } else none
  | .message i => if s.closed i = false ∧ s.begun i = false ∧ i ∈ s.conns then some { s with inbox := upd s.inbox i (s.inbox i + 1) } else none
  | .begin i => if s.closed i = false ∧ s.begun i = false ∧ i ∈ s.conns then some { s with begun := upd s.begun i true } else none
  | .complete i => if s.closed i = false ∧ s.begun i = true then some { s with begun := upd s.begun i false, inbox := upd s.inbox i (s.inbox i + 1) } else none
  | .read i n => some { s with out := upd s.out i (s.out i - n) }
  | .close i => some { s with closed := upd s.closed i true }
  | .round readable broadcasts =>
    if s.tasks = [] ∧ s.stopping = false ∧ readable.Nodup ∧ ∀ i ∈ readable, i ∈ s.conns ∧ (s.inbox i ≠ 0 ∨ s.begun i = true ∨ s.closed i = true) then
      some { s with tasks := readable.map .recv ++ broadcasts.flatMap fun k => s.conns.map fun i => .send i k false }
    else none
  | .work reply => match s.tasks with
    | [] => none
    | t :: rest => task cap s reply rest t
  | .stop => some { s with stopping := true }
  | .finish => if s.tasks = [] ∧ s.stopping = true then some { s with ended := true } else none

def run (cap : Nat) (s : State) (as : List Act) : Option State := as.foldlM (step cap) s

end Scalopus.UnixBlock
