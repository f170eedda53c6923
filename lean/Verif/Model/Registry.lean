import Verif.Model.Protocol

/-!
# Endpoints of a transport (scalopus_interface/src/transport.cpp:59-81, endpoint.cpp:44-56)

Endpoint objects and transports are numbers (object identities). What `getName` returns is a parameter.
-/

namespace Scalopus.Registry

open Protocol

/-- All transports and endpoints of a program. -/
structure State where
  /-- `endpoints_` of each transport: name and endpoint object -/
  endpoints : Nat → List (Bytes × Nat) := fun _ => []
  /-- `transport_` of each endpoint (endpoint.h:89), `none` is the null pointer -/
  transport : Nat → Option Nat := fun _ => none

/-- `map[k] = v`. -/
def assign (m : List (Bytes × Nat)) (k : Bytes) (v : Nat) : List (Bytes × Nat) := (k, v) :: m.filter (fun e => e.1 ≠ k)

/-- `Transport::addEndpoint` of transport `t`, transport.cpp:59-64. -/
def addEndpoint (getName : Nat → Bytes) (s : State) (t e : Nat) : State :=
  { endpoints := fun t' => if t' = t then assign (s.endpoints t) (getName e) e else s.endpoints t'
    transport := fun e' => if e' = e then some t else s.transport e' }

/-- `Transport::getEndpoint`, transport.cpp:72-81. -/
def getEndpoint (s : State) (t : Nat) (name : Bytes) : Option Nat :=
  ((s.endpoints t).find? (fun e => e.1 = name)).map (·.2)

/-- The names in `Transport::endpoints`, transport.cpp:66-70. -/
def endpointNames (s : State) (t : Nat) : List Bytes := (s.endpoints t).map (·.1)

/-- A history of `addEndpoint` calls: transport and endpoint. -/
def run (getName : Nat → Bytes) (h : List (Nat × Nat)) : State :=
  h.foldl (fun s a => addEndpoint getName s a.1 a.2) {}

end Scalopus.Registry
