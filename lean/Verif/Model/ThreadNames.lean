import Verif.Model.Base

/-!
# Names of threads

Models `ThreadNameTracker` (scalopus_general/src/thread_name_tracker.cpp:35-52) and the macro `TRACE_THREAD_NAME`
(scalopus_general/include/scalopus_general/internal/thread_naming.h:37-46). Calls of the map are single steps, which C45 justifies.

Simplifications: `pthread_self` is unique among the threads that exist and may be used again; a thread ends when its clean-up object is destroyed; a call of
`setCurrentName` after that passes through the definition of a destroyed variable: undefined behaviour.
-/

namespace Scalopus.ThreadNames

/-- A thread: its `pthread_self`, whether its clean-up object (thread_name_tracker.cpp:45) was made, the macros whose
    `static thread_local bool` is set. -/
structure Thread where
  tid : Nat
  cleanup : Bool := false
  once : List Nat := []
  ended : Bool := false
  deriving Repr, DecidableEq

structure State where
  /-- the map of the tracker -/
  names : List (Nat × String) := []
  threads : List Thread := []
  deriving Repr, DecidableEq

inductive Act where
  /-- a thread with this `pthread_self` starts -/
  | start (tid : Nat)
  /-- `setCurrentName(name)` in thread `t`, thread_name_tracker.cpp:41-47 -/
  | setCurrent (t : Nat) (name : String)
  /-- thread `t` passes the macro with number `k`, internal/thread_naming.h:37-46 -/
  | pass (t : Nat) (k : Nat) (name : String)
  /-- `setThreadName(tid, name)` from anywhere, thread_name_tracker.cpp:49-52 -/
  | setOther (tid : Nat) (name : String)
  /-- thread `t` ends: the clean-up object erases its entry, thread_name_tracker.cpp:45 -/
  | exit (t : Nat)
  deriving Repr, DecidableEq

/-- `mapping_[key] = value`, map_tracker.h:56. -/
def insert (m : List (Nat × String)) (key : Nat) (value : String) : List (Nat × String) :=
  (key, value) :: m.filter fun e => e.1 ≠ key

/-- `setCurrentName`, thread_name_tracker.cpp:41-47. -/
def setCurrentName (s : State) (t : Nat) (th : Thread) (name : String) : State :=
  { s with names := insert s.names th.tid name, threads := s.threads.set t { th with cleanup := true } }

def step (s : State) : Act → Res State
  | .start tid =>
    if s.threads.any (fun th => th.tid = tid ∧ th.ended = false) then .ok s
    else .ok { s with threads := s.threads ++ [{ tid := tid }] }
  | .setCurrent t name =>
    match s.threads[t]? with
    | none => .ok s
    | some th => if th.ended then .ub else .ok (setCurrentName s t th name)
  | .pass t k name =>
    match s.threads[t]? with
    | none => .ok s
    | some th =>
      -- a `thread_local bool` has no destructor: it may still be read after the clean-up
      if k ∈ th.once then .ok s
      else if th.ended then .ub
      else
        let th : Thread := { th with once := k :: th.once }
        .ok (setCurrentName s t th name)
  | .setOther tid name => .ok { s with names := insert s.names tid name }
  | .exit t =>
    match s.threads[t]? with
    | none => .ok s
    | some th =>
      if th.ended then .ok s
      else
        let s' : State := { s with threads := s.threads.set t { th with ended := true } }
        if th.cleanup then .ok { s' with names := s'.names.filter fun e => e.1 ≠ th.tid } else .ok s'

def run (s : State) : List Act → Res State
  | [] => .ok s
  | a :: as => (step s a).bind fun s' => run s' as

end Scalopus.ThreadNames
