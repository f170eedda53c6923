import Verif.Model.Configurator

/-!
# Configurations of the switches, built in Python

Models the class `TraceConfiguration` as Python sees it (scalopus_python/lib/scalopus_tracing.cpp:86-104) and `setTraceState` of the endpoint (80; scalopus_tracing/src/endpoint_trace_configurator.cpp:60-81).
A Python program makes configurations, sets their attributes and sends them. The attribute `thread_state` is a `std::map<unsigned long, bool>` (endpoint_trace_configurator.h:48-59): `pybind11/stl.h`
(scalopus_tracing.cpp:32) converts it to a new dict when it is read, and a dict to a new map when it is assigned.

Configurations are numbered in the order in which they are made. A statement that raises is handled, and the program goes on. Simplifications: of the values that Python has, `None`, `bool`, `int` and one that
cannot be converted (as a `str`) are modelled; keys of dicts are integers. The process that `setTraceState` asks answers; its answer is part of the statement.
-/

namespace Scalopus.PyConfig

open Configurator (Config)

/-- A Python value. -/
inductive Val
  | none | bool (b : Bool) | int (n : Int) | str
deriving DecidableEq, Repr

/-- The conversion to `bool` (pybind11), for the attributes of scalopus_tracing.cpp:88-91 and the arguments of :94-95 -/
def toBool : Val → Option Bool
  | .none => some false
  | .bool b => some b
  | .int n => some (n != 0)
  | .str => Option.none

/-- The conversion to `unsigned long` (pybind11), scalopus_tracing.cpp:92-95 -/
def toULong (n : Int) : Option Nat := if 0 ≤ n ∧ n < 2 ^ 64 then some n.toNat else Option.none

/-- `map[k] = v` of a `std::map`, which is sorted: scalopus_tracing.cpp:95 -/
def put (m : List (Nat × Bool)) (k : Nat) (v : Bool) : List (Nat × Bool) :=
  match m with
  | [] => [(k, v)]
  | x :: m => if k < x.1 then (k, v) :: x :: m else if k = x.1 then (k, v) :: m else x :: put m k v

/-- A dict becomes a map (pybind11/stl.h), if all keys and values can be converted: scalopus_tracing.cpp:92 -/
def toMap : List (Int × Val) → Option (List (Nat × Bool))
  | [] => some []
  | (k, v) :: d =>
    match toULong k, toBool v, toMap d with
    | some k, some v, some m => some (put m k v)
    | _, _, _ => Option.none

/-- A map becomes a new dict, when the attribute is read: scalopus_tracing.cpp:92, :102 -/
def toDict (m : List (Nat × Bool)) : List (Int × Val) := m.map fun x => ((x.1 : Int), .bool x.2)

/-- The program: its configurations, and those that were sent. -/
structure State where
  confs : List Config := []
  sent : List Config := []
deriving DecidableEq, Repr

/-- The statements of a program. -/
inductive Stmt
  /-- `c = TraceConfiguration()`, :87 -/
  | new
  /-- `c.process_state = v`, :88 -/
  | process (c : Nat) (v : Val)
  /-- `c.set_process_state = v`, :90 -/
  | setProcess (c : Nat) (v : Val)
  /-- `c.cmd_success = v`, :89 -/
  | success (c : Nat) (v : Val)
  /-- `c.add_thread_entry(k, v)`, :94 -/
  | entry (c : Nat) (k : Int) (v : Val)
  /-- `c.thread_state = {…}`, a dict with these entries (with different keys), :92 -/
  | assign (c : Nat) (d : List (Int × Val))
  /-- `c.thread_state = d.thread_state`, :92 -/
  | copy (c d : Nat)
  /-- `c.thread_state[k] = v`: the attribute is read, and the dict that this gives is changed, :92 -/
  | item (c : Nat) (k : Int) (v : Val)
  /-- `del c.thread_state[k]`, :92 -/
  | del (c : Nat) (k : Int)
  /-- `d = endpoint.setTraceState(c)`, :80, where `answer` is what the process answers; `d` is a new configuration. -/
  | send (c : Nat) (answer : Config)
deriving DecidableEq, Repr

/-- A statement about configuration `c`. The flag says whether it raises. -/
def on (s : State) (c : Nat) (f : Config → Option Config) : State × Bool :=
  match s.confs[c]? with
  | some x => match f x with
    | some y => ({ s with confs := s.confs.set c y }, false)
    | Option.none => (s, true)
  | Option.none => (s, true)

/-- One statement. -/
def step (s : State) : Stmt → State × Bool
  | .new => ({ s with confs := s.confs ++ [{}] }, false)
  | .process c v => on s c fun x => (toBool v).map fun b => { x with process := b }
  | .setProcess c v => on s c fun x => (toBool v).map fun b => { x with setProcess := b }
  | .success c v => on s c fun x => (toBool v).map fun b => { x with success := b }
  | .entry c k v => on s c fun x => (toULong k).bind fun k => (toBool v).map fun b => { x with threads := put x.threads k b }
  | .assign c d => on s c fun x => (toMap d).map fun m => { x with threads := m }
  | .copy c d => on s c fun x => s.confs[d]?.bind fun y => (toMap (toDict y.threads)).map fun m => { x with threads := m }
  -- the dict is dropped at the end of the statement
  | .item c _ _ => on s c fun x => some x
  | .del c k => on s c fun x => if (toDict x.threads).any (fun y => y.1 = k) then some x else Option.none
  -- `json::to_bson` of a number of 2^63 or more is an exception (`C128.large_id_not_sent`): endpoint_trace_configurator.cpp:69-73
  | .send c answer =>
    match s.confs[c]? with
    | some x => if x.threads.any (fun y => 2 ^ 63 ≤ y.1) then (s, true) else ({ confs := s.confs ++ [answer], sent := s.sent ++ [x] }, false)
    | Option.none => (s, true)

/-- A program. -/
def run (s : State) (p : List Stmt) : State := p.foldl (fun s x => (step s x).1) s

end Scalopus.PyConfig
