import Verif.Model.Base

/-!
# Loopback servers, their owners and the managers that find them

Models one `TransportLoopbackFactory` with any number of servers and any number of `EndpointManagerPoll`s that use it: who holds a server, which servers are discovered, and what a round of a manager
does. scalopus_transport/src/transport_loopback.cpp:57-60, 131-214 and scalopus_general/src/endpoint_manager_poll.cpp:48-92.

A client holds its server (`server_`, transport_loopback.cpp:47-50, and `Ptr` is a `shared_ptr`), so a server exists while its owner or a client holds it. A manager holds the clients it made
(`transports_`, endpoint_manager_poll.cpp:92).

Simplifications: the address of a server, which is the key in `transports_`, is its number; a manager that is connected holds its server, so the address of a connected server is not given to another
one. What is asked over the connections is left out (see `Model/Manager.lean`). References are counted, not named. One round of a manager may be interleaved with anything, at the granularity of one
destination.
-/

namespace Scalopus.LoopbackOwner

/-- A server. `held`: the references of the program to it, or to clients of it that the program made. `gone`: it was destroyed. -/
structure Server where
  held : Nat := 1
  gone : Bool := false
  deriving DecidableEq

/-- A manager. `conns`: `transports_`, key and the `server_` of the client. `pending`: what `discover()` gave and is still to be looked at in this round, endpoint_manager_poll.cpp:71-75. -/
structure Manager where
  conns : List (Nat × Option Nat) := []
  pending : Option (List Nat) := none
  gone : Bool := false
  deriving DecidableEq

structure State where
  servers : List Server := []
  managers : List Manager := []
  /-- A null pointer was used. -/
  ub : Bool := false
  deriving DecidableEq

/-- `TransportLoopback::isConnected` of a client, transport_loopback.cpp:57-60. -/
def isConnected (server : Option Nat) : Bool := server.isSome

/-- A client of some manager holds server `i`. -/
def State.connected (s : State) (i : Nat) : Bool := s.managers.any fun m => m.conns.any fun c => c.2 == some i

/-- Servers that nobody holds are destroyed. -/
def State.settle (s : State) : State :=
  { s with servers := s.servers.mapIdx fun i v => if v.held = 0 ∧ s.connected i = false then { v with gone := true } else v }

/-- `TransportLoopbackFactory::discover`, transport_loopback.cpp:174-189: the servers that exist, in the order in which they were made. -/
def discover (s : State) : List Nat := (List.range s.servers.length).filter fun i => match s.servers[i]? with
  | some v => !v.gone
  | none => false

inductive Act where
  /-- `factory.serve()`, 191-196. -/
  | serve
  /-- The program copies a reference, or connects a client of its own (198-212). -/
  | hold (i : Nat)
  /-- The program drops a reference to the server or to a client of its own. -/
  | drop (i : Nat)
  | newManager
  /-- A round of manager `m` begins: `manage()` up to line 71. -/
  | round (m : Nat)
  /-- Manager `m` looks at the next destination: `connect()`, endpoint_manager_poll.cpp:78-92. -/
  | next (m : Nat)
  /-- The round of manager `m` ends. -/
  | endRound (m : Nat)
  /-- Manager `m` is destroyed; its destructor waits for the end of a round, 48-51. -/
  | destroy (m : Nat)
  deriving DecidableEq

/-- One step without the destructors of servers. `none`: not possible. -/
def step' (s : State) : Act → Option State
  | .serve => some { s with servers := s.servers ++ [{}] }
  | .hold i => match s.servers[i]? with
    | some v => if v.gone then none else some { s with servers := s.servers.set i { v with held := v.held + 1 } }
    | none => none
  | .drop i => match s.servers[i]? with
    | some v => if v.held = 0 then none else some { s with servers := s.servers.set i { v with held := v.held - 1 } }
    | none => none
  | .newManager => some { s with managers := s.managers ++ [{}] }
  | .round m => match s.managers[m]? with
    | some g => if g.gone = true ∨ g.pending ≠ none then none else
      some { s with managers := s.managers.set m { g with conns := g.conns.filter fun c => isConnected c.2, pending := some (discover s) } }
    | none => none
  | .next m => match s.managers[m]? with
    | some g => match g.pending with
      | some (i :: rest) =>
        if g.conns.any (fun c => c.1 == i) then some { s with managers := s.managers.set m { g with pending := some rest } }   -- 80-83
        else match s.servers[i]? with
          | some v =>
            -- `connect` gives a null pointer for a server that is gone, line 87 uses it
            if v.gone then some { s with ub := true }
            else some { s with managers := s.managers.set m { g with conns := g.conns ++ [(i, some i)], pending := some rest } }
          | none => none
      | _ => none
    | none => none
  | .endRound m => match s.managers[m]? with
    | some g => if g.pending = some [] then some { s with managers := s.managers.set m { g with pending := none } } else none
    | none => none
  | .destroy m => match s.managers[m]? with
    | some g => if g.gone = true ∨ g.pending ≠ none then none else some { s with managers := s.managers.set m { g with conns := [], gone := true } }
    | none => none

/-- One step. Nothing follows undefined behaviour. -/
def step (s : State) (a : Act) : Option State := if s.ub then none else (step' s a).map State.settle

def run (s : State) : List Act → Option State
  | [] => some s
  | a :: as => (step s a).bind fun t => run t as

end Scalopus.LoopbackOwner
