import Verif.Model.Protocol

/-!
# Broadcasts (scalopus_interface/src/transport.cpp:39-57, scalopus_transport/src/transport_unix.cpp:348-364)
-/

namespace Scalopus.Broadcast

open Protocol

/-- The parts of a server transport that concern broadcasts. -/
structure State where
  /-- `broadcast_messages_`: endpoint name and data -/
  queue : List (Bytes × Bytes) := []
  /-- `connections_` without the server socket; one number per accepted client -/
  conns : List Nat := []
  /-- what was put on the wire, to whom -/
  sent : List (Nat × Msg) := []
  deriving Repr

/-- Steps: calls from any thread, and the steps of the server's worker. -/
inductive Act where
  /-- `Transport::broadcast(name, data)`, transport.cpp:39-43 -/
  | broadcast (name data : Bytes)
  /-- one iteration of the loop over queued broadcasts, transport_unix.cpp:349-364; sends to connections in `broken`
      fail -/
  | process (broken : List Nat)
  /-- a client is accepted, transport_unix.cpp:251-257 -/
  | connect (c : Nat)
  /-- a connection is closed and removed, transport_unix.cpp:334-336 -/
  | disconnect (c : Nat)
  deriving Repr

/-- `popBroadcast`, transport.cpp:45-51: takes the element at the back. -/
def popBroadcast (q : List (Bytes × Bytes)) : Option ((Bytes × Bytes) × List (Bytes × Bytes)) :=
  match q.getLast? with
  | none => none
  | some m => some (m, q.dropLast)

/-- The message of a broadcast, transport_unix.cpp:352-354 (`request_id` keeps its default 0, protocol.h:48). -/
def message (m : Bytes × Bytes) : Msg := { requestId := 0, endpoint := m.1, data := m.2 }

/-- One step. -/
def step (s : State) : Act → State
  | .broadcast n d => { s with queue := s.queue ++ [(n, d)] }
  | .process broken =>
    match popBroadcast s.queue with
    | none => s
    | some (m, q) =>
      { s with
        queue := q
        sent := s.sent ++ (s.conns.filter (fun c => !broken.contains c)).map (fun c => (c, message m)) }
  | .connect c => { s with conns := if c ∈ s.conns then s.conns else s.conns ++ [c] }
  | .disconnect c => { s with conns := s.conns.filter (· ≠ c) }

/-- A history. -/
def run (s : State) (as : List Act) : State := as.foldl step s

end Scalopus.Broadcast
