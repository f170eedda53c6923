import Verif.Model.ScopeNames

/-!
# Names of the tracepoints of processes that come and go

Puts together what decides under which name an event is shown: the names that a process registers (static_string_tracker.cpp, endpoint_trace_mapping.cpp), the connections of the consumer's manager
(endpoint_manager_poll.cpp:53-76), the events that a source keeps until its interval is finished (native_trace_source.cpp:46-68, 68-75) and the names that the provider asks for at that time
(native_trace_source.cpp:77-80, scope_tracing_provider.cpp:46-97).

Simplifications: a running process that is connected answers the query for its names in time and right (C49); one that has ended and whose connection was not yet cleaned up does not answer; what is recorded
of a connected process arrives at once. There is one source.
-/

namespace Scalopus.EndedNames

open Endpoints (TraceMap)

/-- A running process. `inst` tells processes apart, `pid` does so only among running ones. -/
structure Proc where
  inst : Nat
  pid : Int
  /-- id and name of the tracepoints that it has registered -/
  names : List (Nat × String) := []

/-- An event in the source's store. The events carry the pid; `inst` and `name` say where it comes from: the process, and what it had registered for the id when it was emitted. -/
structure Event where
  inst : Nat
  pid : Int
  id : Nat
  name : Option String
  deriving DecidableEq

structure State where
  next : Nat := 0
  procs : List Proc := []
  /-- the processes that the consumer is connected with, in the order of the manager -/
  conns : List Nat := []
  recording : Bool := false
  store : List Event := []
  /-- `mapping_` of the provider -/
  mapping : TraceMap := []
  /-- what the last finished interval gave: the events and the names under which they are shown -/
  shown : List (Event × String) := []

inductive Act where
  /-- a process starts -/
  | start (pid : Int)
  /-- a process registers a tracepoint -/
  | register (inst id : Nat) (name : String)
  /-- a process emits an event -/
  | emit (inst id : Nat)
  /-- a process ends -/
  | exit (inst : Nat)
  /-- a round of the consumer's manager -/
  | poll
  /-- the interval is started and finished -/
  | begin
  | finish

def State.proc (s : State) (inst : Nat) : Option Proc := s.procs.find? fun p => p.inst == inst

/-- What the provider gets from a connection, scope_tracing_provider.cpp:60-71: the names of a process that runs, nothing from one that has ended. -/
def answer (s : State) (inst : Nat) : Option (Res TraceMap) :=
  match s.proc inst with
  | some p => some (.ok [(p.pid, p.names)])
  | none => some (.ok [])

def step (s : State) : Act → Option State
  | .start pid => if ∃ p ∈ s.procs, p.pid = pid then none else some { s with next := s.next + 1, procs := s.procs ++ [{ inst := s.next, pid := pid }] }
  | .register inst id name => match s.proc inst with
    | none => none
    | some _ => some { s with procs := s.procs.map fun p => if p.inst = inst then { p with names := (id, name) :: p.names.filter fun x => x.1 != id } else p }
  | .emit inst id => match s.proc inst with
    | none => none
    | some p => if s.recording ∧ inst ∈ s.conns then some { s with store := s.store ++ [{ inst := inst, pid := p.pid, id := id, name := p.names.lookup id }] } else some s
  | .exit inst => match s.proc inst with
    | none => none
    | some _ => some { s with procs := s.procs.filter fun p => p.inst != inst }
  | .poll =>
    let kept := s.conns.filter fun i => (s.proc i).isSome
    some { s with conns := kept ++ (s.procs.map (·.inst)).filter fun i => !kept.contains i }
  | .begin => if s.recording then none else some { s with recording := true, store := [] }
  | .finish => if s.recording then
      match ScopeNames.updateMapping s.mapping (some (s.conns.map (answer s))) with
      | .ok m => some { s with recording := false, mapping := m, shown := s.store.map fun e => (e, ScopeNames.getScopeName m e.pid e.id) }
      | _ => none
    else none

def run (s : State) : List Act → Option State
  | [] => some s
  | a :: as => (step s a).bind fun t => run t as

end Scalopus.EndedNames
