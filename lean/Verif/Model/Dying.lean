import Verif.Model.UnixClient
import Verif.Model.Cbor

/-!
# Processes that end while they are recorded

Any number of traced processes broadcast batches of events to one consumer that records, and any of them may end at any moment, also while it writes a message.
The consumer has one worker for each connection (transport_unix.cpp:218-384). Every interleaving of the processes and the workers is an execution.

Simplifications: one source records all the time; what a living process sends is available to the worker as a whole (C04 and C133 are about pieces); the kernel
keeps what a process wrote after its end and reports the end of the stream after it; there are no requests (those are in C10).
-/

namespace Scalopus.Dying

open Protocol
open Cbor (Threads encodeBatch)

/-- `"native_trace_receiver"`: the name that the sender addresses (endpoint_native_trace_sender.cpp:107) and the receiver has (endpoint_native_trace_receiver.cpp:34). -/
def receiverName : Bytes := [110, 97, 116, 105, 118, 101, 95, 116, 114, 97, 99, 101, 95, 114, 101, 99, 101, 105, 118, 101, 114]

/-- The bytes of one broadcast batch: endpoint_native_trace_sender.cpp:63-73, :107 and transport_unix.cpp:351-362 (a broadcast has the request id 0, protocol.h:48). -/
def wire (pid : Nat) (m : Threads) : Bytes := encode { requestId := 0, endpoint := receiverName, data := encodeBatch pid m }

/-- One process and the connection to it. `sent`, `torn` and `taken` only record what happened. -/
structure Conn where
  pid : Nat
  /-- the process has not ended -/
  alive : Bool := true
  /-- written to the socket and not yet read -/
  bytes : Bytes := []
  /-- the worker found the connection to be lost (transport_unix.cpp:264-269); its loop ends (:225) -/
  lost : Bool := false
  /-- the batches that were written completely -/
  sent : List Threads := []
  /-- the batch during which the process ended, and how many bytes of its message were written -/
  torn : Option (Threads × Nat) := none
  /-- how many messages the worker handed over or tried to -/
  taken : Nat := 0
  deriving Repr

/-- `recorded_data_` of the source (native_trace_source.h:78), and where each element came from: connection and number of the message. -/
structure State where
  conns : List Conn
  data : List Bytes := []
  from' : List (Nat × Nat) := []
  /-- undefined behaviour in the consumer -/
  ub : Bool := false
  deriving Repr

def init (pids : List Nat) : State := { conns := pids.map fun p => { pid := p } }

inductive Action where
  /-- process `p` broadcasts a batch -/
  | send (p : Nat) (m : Threads)
  /-- process `p` ends after it wrote `cut` bytes of the message with this batch (0: between messages) -/
  | die (p : Nat) (m : Threads) (cut : Nat)
  /-- the worker of connection `p` finds its socket readable -/
  | read (p : Nat)

/-- One step; `none` if it is not possible.
    `read`: transport_unix.cpp:261-302 by `UnixClient.onReadable`; the loop ends when the connection is lost (:225). Then endpoint_native_trace_receiver.cpp:45-49,
    native_trace_provider.cpp:64-91 and native_trace_source.cpp:209-213. -/
def step (s : State) : Action → Option State
  | .send p m => do
    let c ← s.conns[p]?
    if c.alive then some { s with conns := s.conns.set p { c with bytes := c.bytes ++ wire c.pid m, sent := c.sent ++ [m] } } else none
  | .die p m cut => do
    let c ← s.conns[p]?
    if c.alive ∧ cut < (wire c.pid m).length then
      some { s with conns := s.conns.set p { c with alive := false, bytes := c.bytes ++ (wire c.pid m).take cut, torn := some (m, cut) } }
    else none
  | .read p => do
    let c ← s.conns[p]?
    if s.ub ∨ c.lost ∨ (c.alive ∧ c.bytes = []) then none
    else match UnixClient.onReadable [] { bytes := c.bytes }, receive { bytes := c.bytes } with
      | .ok o, .ok (_, _, e) =>
        let s' := { s with conns := s.conns.set p { c with bytes := e.bytes, lost := o.lost, taken := c.taken + 1 } }
        match o.unsolicited with
        | some (name, data) => if name = receiverName then some { s' with data := s.data ++ [data], from' := s.from' ++ [(p, c.taken)] } else some s'
        | none => some s'
      | _, _ => some { s with ub := true }

def run (s : State) : List Action → Option State
  | [] => some s
  | a :: as => (step s a).bind fun s' => run s' as

end Scalopus.Dying
