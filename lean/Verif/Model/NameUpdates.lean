import Verif.Model.ScopeNames

/-!
# Viewers that ask for names at the same time

Models how several sessions, each with its own thread, ask the processes for names when a recording ends: `updateMapping` and then `getMapping` of `ScopeTracingProvider`
(scalopus_tracing/src/scope_tracing_provider.cpp:40-79), as called by `finishInterval` (native_trace_source.cpp:77-82, lttng_source.cpp:86-87), and of `GeneralProvider` (scalopus_general/src/general_provider.cpp:46-68), as
called by general_source.cpp:42-45. All sessions of a server use the same provider, which keeps what was asked last. The first provider has its mutex only while it stores the answers, the second one while it asks.
-/

namespace Scalopus.NameUpdates

open Endpoints (TraceMap)

/-- Where a session is in `finishInterval`. -/
inductive Phase where
  | idle
  /-- has called `updateMapping` -/
  | called
  /-- has the answers `acc`, and has to ask the processes `todo` -/
  | asking (acc : TraceMap) (todo : List Int)
  /-- has returned from `updateMapping` -/
  | stored
  /-- has the names from `getMapping`, and uses them for the events it returns -/
  | shown (m : TraceMap)

structure State where
  /-- the processes that the manager is connected to -/
  procs : List Int := []
  /-- what each process would answer now: the names of its tracepoints, or of its threads -/
  names : Int → List (Nat × String) := fun _ => []
  /-- `mapping_`: scope_tracing_provider.h:83, general_provider.h:71 -/
  mapping : TraceMap := []
  sess : Nat → Phase := fun _ => .idle
  /-- who has the mutex for a longer time -/
  holder : Option Nat := none

def State.set (s : State) (i : Nat) (f : Phase) : State := { s with sess := fun j => if j = i then f else s.sess j }

inductive Act where
  /-- processes come and go -/
  | connect (l : List Int)
  /-- a process gets other names -/
  | change (p : Int) (l : List (Nat × String))
  /-- a session is finished, at any time and by any thread -/
  | finish (i : Nat)
  /-- it begins to ask -/
  | start (i : Nat)
  /-- Its next question goes to process `p`, which answers or not in time. -/
  | ask (i : Nat) (p : Int) (answers : Bool)
  /-- A question fails with an exception. -/
  | fail (i : Nat)
  | store (i : Nat)
  | look (i : Nat)

/-- One step. `guarded`: the provider asks with its mutex locked, and stores every answer at once (general_provider.cpp:54-65); otherwise it does so for itself and stores the answers at the end
    (scope_tracing_provider.cpp:49-77). Left out: the answer of a process that has several transports; that a process which is late gives the general provider an entry without name (C57). -/
def step (guarded : Bool) (s : State) : Act → Option State
  | .connect l => some { s with procs := l }
  | .change p l => some { s with names := fun q => if q = p then l else s.names q }
  | .finish i => match s.sess i with
    | .idle | .shown _ => some (s.set i .called)
    | _ => none
  -- scope_tracing_provider.cpp:49-57, general_provider.cpp:54-57
  | .start i => match s.sess i with
    | .called =>
      if guarded then
        if s.holder = none then some { s.set i (.asking [] s.procs) with holder := some i, mapping := [] } else none
      else some (s.set i (.asking [] s.procs))
    | _ => none
  -- scope_tracing_provider.cpp:67-70, general_provider.cpp:64-65
  | .ask i p answers => match s.sess i with
    | .asking acc (q :: todo) =>
      if q = p then
        let acc := if answers then acc ++ [(p, s.names p)] else acc
        some (if guarded then { s.set i (.asking acc todo) with mapping := acc } else s.set i (.asking acc todo))
      else none
    | _ => none
  | .fail i => match s.sess i with
    | .asking _ _ => some (if guarded then { s.set i .idle with holder := none } else s.set i .idle)
    | _ => none
  -- scope_tracing_provider.cpp:76-77, general_provider.cpp:68
  | .store i => match s.sess i with
    | .asking acc [] => some (if guarded then { s.set i .stored with holder := none } else { s.set i .stored with mapping := acc })
    | _ => none
  -- scope_tracing_provider.cpp:42-43, general_provider.cpp:48-49
  | .look i => match s.sess i with
    | .stored => if s.holder = none then some (s.set i (.shown s.mapping)) else none
    | _ => none

def run (guarded : Bool) (s : State) : List Act → Option State
  | [] => some s
  | a :: as => (step guarded s a).bind fun s' => run guarded s' as

end Scalopus.NameUpdates
