import Verif.Model.Registry
import Verif.Model.PyData

/-!
# Classes of endpoints written in Python

A program derives a class from `scalopus.interface.Endpoint` (scalopus_python/scalopus/interface.py:39-65), which has methods for what a class leaves out, or from `scalopus.lib.interface.Endpoint`
(scalopus_python/lib/scalopus_interface.cpp:192-197), and defines some of `getName`, `handle`, `unsolicited` and `setTransport`. Models what the library calls: `PyEndpoint` (scalopus_interface.cpp:81-120) with
the defaults of `Endpoint` (scalopus_interface/src/endpoint.cpp:35-51), from `Transport::addEndpoint` (scalopus_interface/src/transport.cpp:59-64) and for messages.

Simplifications: a method is what it gives for each message (`handle`, `unsolicited`) or for this object (`getName`, `setTransport`); it does not use the transport. Methods that call the method of the same
name of their base are left out. The transports are alive, and their Python objects too (for that see `PyHandle`). For locks see `PyUnix` and `PyLoopback`.
-/

namespace Scalopus.PyClass

open Protocol PyData

/-- A class. `python`: derived from `scalopus.interface.Endpoint` (interface.py:39-45), otherwise from the class of the library. A method is `none` if the class does not define it. `setTransport` tells
whether the method returns. -/
structure Class where
  python : Bool := true
  getName : Option PyResult := .none
  handle : Option (Obj → PyResult) := .none
  unsolicited : Option (Obj → PyResult) := .none
  setTransport : Option Bool := .none

/-- `getName` (scalopus_interface.cpp:81-84). Left out, it is an exception: `raise NotImplemented(...)` (interface.py:59-65) is a `TypeError`, a pure virtual function a `RuntimeError`. The result is converted to
`std::string`, from `str` or `bytes`. -/
def nameOf (c : Class) : Res Bytes :=
  match c.getName with
  | .none => .throws (if c.python then "TypeError" else "RuntimeError")
  | some .raises => .throws "error_already_set"
  | some (.returns (.str s)) => .ok (utf8 s)
  | some (.returns (.bytes b)) => .ok b
  | some (.returns _) => .throws "cast_error"

/-- The method for requests (scalopus_interface.cpp:86-100): left out, it is the one of interface.py:47-57, which returns `None`, or there is none. -/
def handleOf (c : Class) : Option (Obj → PyResult) :=
  match c.handle with
  | some f => some f
  | .none => if c.python then some fun _ => .returns .none else .none

/-- What the transport gets from the endpoint for a request, scalopus_interface.cpp:86-100 -/
def answer (c : Class) (d : Bytes) : Loopback.Handled := PyData.handle (handleOf c) d

/-- What the transport gets from the endpoint for another message, scalopus_interface.cpp:102-116; interface.py does not define the method. -/
def answerUnsolicited (c : Class) (d : Bytes) : Loopback.Handled := PyData.handle c.unsolicited d

/-- `transport.addEndpoint(endpoint)` (transport.cpp:59-64): first the name, then the entry, then `setTransport` (scalopus_interface.cpp:118-121). The flag says whether it raises. -/
def add (classOf : Nat → Class) (s : Registry.State) (t e : Nat) : Registry.State × Bool :=
  match nameOf (classOf e) with
  | .ok n =>
    let entered : Registry.State := { s with endpoints := fun t' => if t' = t then Registry.assign (s.endpoints t) n e else s.endpoints t' }
    match (classOf e).setTransport with
    | .none => ({ entered with transport := fun e' => if e' = e then some t else s.transport e' }, false)
    | some true => (entered, false)
    | some false => (entered, true)
  | _ => (s, true)

/-- A program that adds endpoints to transports, and handles exceptions. -/
def run (classOf : Nat → Class) (h : List (Nat × Nat)) : Registry.State :=
  h.foldl (fun s a => (add classOf s a.1 a.2).1) {}

/-- A request that arrives at a transport: the endpoint that gets it, and what it gives (transport_unix.cpp:325-341, transport_loopback.cpp:94-106) -/
def deliver (classOf : Nat → Class) (s : Registry.State) (t : Nat) (name data : Bytes) : Option (Nat × Loopback.Handled) :=
  (Registry.getEndpoint s t name).map fun e => (e, answer (classOf e) data)

end Scalopus.PyClass
