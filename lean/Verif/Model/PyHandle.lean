import Verif.Model.Base

/-!
# The Python object that stands for a transport, and messages for endpoints written in Python

Models one transport in a Python program: who holds it, whether a Python object stands for it, and what happens when a message arrives for one of its endpoints.
scalopus_python/lib/scalopus_interface.cpp:81-121, 181-229, with pybind11's rules for passing objects:

* A `shared_ptr` that is passed to Python gives the Python object that stands for it if there is one, otherwise a new one that holds the transport (lines 216, 231-234).
* `getTransport()` (line 196, policy `reference`) gives the Python object if there is one, otherwise a new one that does not hold the transport. The endpoint
  keeps the address of a transport that was destroyed (endpoint.cpp:44-56); making a Python object for it looks at the object for its type, which is undefined then.
* A `Transport&` as argument of a Python method (lines 95, 111) gives the Python object if there is one; otherwise the transport would have to be copied. A transport cannot be copied, so that
  is an exception (`cast_error`). It is thrown in the thread of the transport, which does not catch it (transport_unix.cpp:287-295, 318-331): the program ends.

Simplifications: one transport; a message is a number; what a method returns is not modelled (see `Model/PyData.lean`); references are counted, not named.
-/

namespace Scalopus.PyHandle

/-- An endpoint. -/
inductive Kind where
  /-- written in C++ -/
  | cpp
  /-- an object of a class written in Python; whether the class has the method for the message -/
  | python (method : Bool)
  deriving DecidableEq

structure State where
  /-- C++ holds the transport: `transports_` of a manager, endpoint_manager_poll.cpp:92. -/
  cpp : Bool := false
  /-- How many references the program has to the Python object that stands for the transport; with 0 there is no such object. -/
  vars : Nat := 0
  /-- That object holds the transport. -/
  owns : Bool := false
  /-- The transport has been destroyed. -/
  gone : Bool := false
  /-- The endpoints of the transport, by name. -/
  eps : List (Nat × Kind) := []
  /-- The calls of methods of Python endpoints so far: name of the endpoint and message. -/
  calls : List (Nat × Nat) := []
  /-- The program was ended by an exception that nobody caught. -/
  dead : Bool := false
  /-- The program used memory that was released. -/
  ub : Bool := false
  deriving DecidableEq

inductive Act where
  /-- A reference to the Python object is copied. -/
  | ref
  /-- A reference to the Python object is gone. -/
  | unref
  /-- `endpoint.getTransport()` of an endpoint of this transport, and the program keeps the result. -/
  | getTransport
  /-- The manager cleans the transport up, or is destroyed. -/
  | forget
  /-- An endpoint is added. -/
  | add (name : Nat) (k : Kind)
  /-- A message for the endpoint `name` arrives. -/
  | message (name msg : Nat)
  /-- The program calls a method of the Python object. -/
  | use
  deriving DecidableEq

/-- A transport that Python made: `factory.serve()`, `factory.connect(…)`, lines 233-234. -/
def made : State := { vars := 1, owns := true }

/-- A transport that a manager made, for which a factory written in Python was called (lines 213-229) that makes an endpoint of kind `k` for the name `name` and keeps `n` references to the
    transport. The Python object of line 216 holds the transport and exists while there are references to it. endpoint_manager_poll.cpp:92-110. -/
def managed (name : Nat) (k : Kind) (n : Nat) : State := { cpp := true, vars := n, owns := decide (0 < n), eps := [(name, k)] }

/-- The transport is destroyed when nobody holds it. -/
def State.settle (s : State) : State := if s.cpp = false ∧ ¬ (0 < s.vars ∧ s.owns = true) then { s with gone := true } else s

/-- What a message does, lines 86-116: `overload(transport, my_bytes)` needs the Python object. -/
def deliver (s : State) (name msg : Nat) : State :=
  match s.eps.lookup name with
  | some (.python true) => if 0 < s.vars then { s with calls := s.calls ++ [(name, msg)] } else { s with dead := true }
  | _ => s

def step (s : State) : Act → Option State
  | .ref => if 0 < s.vars then some { s with vars := s.vars + 1 } else none
  | .unref => if 0 < s.vars then some { s with vars := s.vars - 1 }.settle else none
  | .getTransport => if s.eps = [] then none else
    if 0 < s.vars then some { s with vars := s.vars + 1, ub := s.ub || s.gone } else some { s with vars := 1, owns := false, ub := s.ub || s.gone }
  | .forget => if s.cpp = true then some { s with cpp := false }.settle else none
  | .add name k => if s.gone = true then none else some { s with eps := (name, k) :: s.eps.filter fun p => p.1 != name }
  | .message name msg => if s.gone = true ∨ s.dead = true then none else some (deliver s name msg)
  | .use => if 0 < s.vars then some (if s.gone = true then { s with ub := true } else s) else none

def run (s : State) : List Act → Option State
  | [] => some s
  | a :: as => (step s a).bind fun t => run t as

end Scalopus.PyHandle
