import Verif.Model.Base

/-!
# References between the objects of a Python program that uses scalopus

Models which objects keep which alive when a Python program combines managers, transports, endpoints, providers and factory functions: scalopus_python/lib/scalopus_interface.cpp:181-229,
pybind_fix.h:49-170, scalopus_general.cpp:74-87, scalopus_python/scalopus/general.py:30-54, endpoint_manager_poll.cpp:56-122, 155-159, general_provider.h:68.

A reference is either visible to the garbage collector of Python (an attribute of a Python object, a variable that a function closes over) or held by C++ (a `shared_ptr` or a
`py::object` inside of a `std::function`), which Python counts but cannot see through. An object is released when nothing refers to it; in addition the collector may release a set of objects
if all references to them are visible and come from the set.

Simplifications: an object of C++ and the Python object that stands for it are one; the name under which a factory or endpoint is registered is a number; objects of C++ take no attributes.
-/

namespace Scalopus.Refs

inductive Kind where
  /-- `EndpointManagerPoll` -/
  | manager
  /-- a transport -/
  | transport
  /-- an object of a class written in Python: an endpoint, a provider or anything else -/
  | python
  /-- a function or bound method -/
  | function
  /-- `GeneralProvider` -/
  | general
  deriving DecidableEq

structure Edge where
  src : Nat
  dst : Nat
  /-- Held by C++. -/
  hidden : Bool
  /-- The name of a factory or endpoint, 0 for anything else. -/
  name : Nat := 0
  deriving DecidableEq

structure State where
  next : Nat := 0
  objs : List (Nat × Kind) := []
  edges : List Edge := []
  /-- The objects that variables of the program refer to. -/
  roots : List Nat := []
  /-- How many exceptions the program got. -/
  raised : Nat := 0

inductive Act where
  /-- The program makes an object and keeps it in a variable. -/
  | new (k : Kind)
  /-- `x.attribute = y`, or `x` is a function that closes over `y`. -/
  | keep (x y : Nat)
  /-- `del x.attribute` -/
  | unkeep (x y : Nat)
  /-- `GeneralProvider(m)` -/
  | newGeneral (m : Nat)
  /-- `m.addEndpointFactory(name, f)` -/
  | addFactory (m name f : Nat)
  /-- `t.addEndpoint(e)`, where `e.getName()` gives `name` -/
  | addEndpoint (t name e : Nat)
  /-- The manager `m` connects with a transport `t`. -/
  | adopt (m : Nat)
  /-- The manager `m` cleans up the transport `t`. -/
  | forget (m t : Nat)
  /-- `weak_provider_endpoint_factory(p)` -/
  | weakFactory (p : Nat)
  /-- The variables that refer to `x` are gone. -/
  | drop (x : Nat)
  /-- These objects are released. -/
  | collect (xs : List Nat)

def State.has (s : State) (x : Nat) (k : Kind) : Bool := decide ((x, k) ∈ s.objs)

def State.alive (s : State) (x : Nat) : Bool := s.objs.any fun o => o.1 == x

/-- The names that the body of a function in scalopus_python/scalopus/general.py:30-54 finds at the level of the module. -/
def generalNames : List String :=
  ["general", "EndpointIntrospect", "EndpointProcessInfo", "EndpointManagerPoll", "GeneralProvider", "setThreadName", "weak_provider_endpoint_factory"]

/-- `weak_provider_endpoint_factory(p)`, general.py:39-54. Line 47 looks up `weakref` in the module; without it there is a `NameError`. Otherwise a function is made that holds no reference to `p`. -/
def weakFactory (names : List String) (s : State) : State :=
  if "weakref" ∈ names then { s with next := s.next + 1, objs := s.objs ++ [(s.next, .function)], roots := s.roots ++ [s.next] }
  else { s with raised := s.raised + 1 }

/-- One step.
    `addFactory`: the lambda that holds `fun` replaces a factory of the same name, scalopus_interface.cpp:213-229 and endpoint_manager_poll.cpp:155-159.
    `addEndpoint`: the pointer to the endpoint holds the Python object and replaces one of the same name, pybind_fix.h:57-75 and transport.cpp:59-64.
    `adopt`, `forget`: endpoint_manager_poll.cpp:60-68, 86-93. `newGeneral`: general_provider.h:68. -/
def step (s : State) : Act → Option State
  | .new k => if k = .general then none else
    some { s with next := s.next + 1, objs := s.objs ++ [(s.next, k)], roots := s.roots ++ [s.next] }
  | .keep x y =>
    if (s.has x .python ∨ s.has x .function) ∧ s.alive y then some { s with edges := s.edges ++ [{ src := x, dst := y, hidden := false }] } else none
  | .unkeep x y => some { s with edges := s.edges.filter fun e => !(e.src == x && e.dst == y && !e.hidden) }
  | .newGeneral m =>
    if s.has m .manager then
      some { s with next := s.next + 1, objs := s.objs ++ [(s.next, .general)], roots := s.roots ++ [s.next], edges := s.edges ++ [{ src := s.next, dst := m, hidden := true }] }
    else none
  | .addFactory m name f =>
    if s.has m .manager ∧ s.has f .function ∧ 0 < name then
      some { s with edges := (s.edges.filter fun e => !(e.src == m && e.name == name)) ++ [{ src := m, dst := f, hidden := true, name := name }] }
    else none
  | .addEndpoint t name x =>
    if s.has t .transport ∧ s.has x .python ∧ 0 < name then
      some { s with edges := (s.edges.filter fun e => !(e.src == t && e.name == name)) ++ [{ src := t, dst := x, hidden := true, name := name }] }
    else none
  | .adopt m =>
    if s.has m .manager then
      some { s with next := s.next + 1, objs := s.objs ++ [(s.next, .transport)], edges := s.edges ++ [{ src := m, dst := s.next, hidden := true }] }
    else none
  | .forget m t => some { s with edges := s.edges.filter fun e => !(e.src == m && e.dst == t && e.name == 0) }
  | .weakFactory p => if s.alive p then some (weakFactory generalNames s) else none
  | .drop x => some { s with roots := s.roots.filter fun r => r != x }
  | .collect xs =>
    if (∀ x ∈ xs, s.alive x = true ∧ x ∉ s.roots) ∧ (∀ e ∈ s.edges, e.dst ∈ xs → e.src ∈ xs ∧ e.hidden = false) then
      some { s with objs := s.objs.filter fun o => !(xs.contains o.1), edges := s.edges.filter fun e => !(xs.contains e.src) }
    else none

def run (s : State) : List Act → Option State
  | [] => some s
  | a :: as => (step s a).bind fun t => run t as

end Scalopus.Refs
