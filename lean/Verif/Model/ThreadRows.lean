import Verif.Model.ThreadNames
import Verif.Model.GeneralSource

/-!
# Threads of a traced program as the viewer shows them

Puts together what decides in which row an event of a thread is shown and under which name: the id of the thread that an event is stored under (scalopus_tracing/src/native/tracepoint_collector_native.cpp:53-90,
written to the entry by native_trace_source.cpp:108-122), the names that threads have when the recording is finished (Model/ThreadNames), and the entries that name the rows (Model/GeneralSource).
The viewer has one row for each process id and thread id.

Simplifications: one process, which answers the query for its names in time; the recording is on, and events arrive completely and in the order of time (C18, C31, C58); tracing by a thread after its clean-up
is left out (C62).
-/

namespace Scalopus.ThreadRows

/-- An entry or an exit of a scope in the recording. Entries carry the id of the thread only; `thread` says which thread it was. -/
structure Event where
  thread : Nat
  tid : Nat
  enter : Bool
  id : Nat
  deriving Repr, DecidableEq

structure State where
  names : ThreadNames.State := {}
  /-- the entries of the recording, in the order of time -/
  events : List Event := []
  deriving Repr, DecidableEq

inductive Act where
  /-- a thread starts, ends or is named -/
  | thread (a : ThreadNames.Act)
  /-- thread `t` enters or leaves the scope `id` -/
  | emit (t : Nat) (enter : Bool) (id : Nat)
  deriving Repr, DecidableEq

/-- The buffer is found by `pthread_self()`, and its events are sent under this id: tracepoint_collector_native.cpp:55, 79-89, endpoint_native_trace_sender.cpp:76-115. -/
def step (s : State) : Act → Res State
  | .thread a => (ThreadNames.step s.names a).bind fun n => .ok { s with names := n }
  | .emit t enter id =>
    match s.names.threads[t]? with
    | none => .ok s
    | some th => if th.ended then .ok s else .ok { s with events := s.events ++ [⟨t, th.tid, enter, id⟩] }

def run (s : State) : List Act → Res State
  | [] => .ok s
  | a :: as => (step s a).bind fun s' => run s' as

/-- The entries that name the rows, made when the recording is finished: general_source.cpp:40-73 with the answer of endpoint_process_info.cpp:60-76. -/
def rowNames (pid : Int) (name : String) (s : State) : Res (List Json) :=
  GeneralSource.finishInterval [some (.ok { pid := pid, name := name, threads := s.names.names })] []

end Scalopus.ThreadRows
