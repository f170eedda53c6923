import Verif.Model.Base

/-!
# The threads of the endpoint manager

Models how the threads that use an `EndpointManagerPoll` interleave: its own polling thread, the thread that owns it, and any others
(scalopus_general/src/endpoint_manager_poll.cpp:48-171). What the calls do to the maps is in `Model/Manager.lean`; here every access to a member of the manager, every
operation on `mutex_` and on `thread_`, and every call of a function supplied by the user is one step. Thread 0 owns the manager, thread 1 is the polling thread.
-/

namespace Scalopus.ManagerThreads

/-- The members of the manager; the three maps are always accessed together, so they are one. -/
inductive Var where
  | maps      -- `endpoint_factories_`, `transport_endpoints_`, `transports_`
  | logger    -- `logger_`, a std::function
  | polling   -- `is_polling_`, a plain bool
  | interval  -- `poll_interval_`
  deriving DecidableEq

inductive Op where
  | lock | unlock
  | readMaps | writeMaps
  /-- `log`, 161-167: reads `logger_`, and calls it if it is set -/
  | log
  /-- the call of an endpoint factory, 105 -/
  | factory
  /-- 170 -/
  | setLogger
  /-- 134 -/
  | testStop
  /-- 136 -/
  | clearPolling
  /-- 137 -/
  | join
  /-- 127 -/
  | setPolling
  /-- 128 -/
  | setInterval
  /-- 129 -/
  | spawn
  /-- 142 -/
  | loop
  /-- 145 -/
  | sleep
  deriving DecidableEq

/-- What `connect` finds for one endpoint that the other side supports, 99-121. -/
inductive Sup where
  | made | null | unsupported
  deriving DecidableEq

/-- What `connect` finds for one destination, 78-98. -/
inductive Dest where
  | known | failed | connected (sups : List Sup)

/-- What `manage` finds: how many connections are lost (59-68), and the destinations (71-75). -/
structure Found where
  lost : Nat := 0
  dests : List Dest := []

/-- endpoint_manager_poll.cpp:99-121, one iteration -/
def supOps : Sup → List Op
  | .made => [.readMaps, .factory, .writeMaps]
  | .null => [.readMaps, .factory, .log]
  | .unsupported => [.readMaps, .log]

/-- `connect`, endpoint_manager_poll.cpp:78-122 -/
def destOps : Dest → List Op
  | .known => [.readMaps]
  | .failed => [.readMaps, .log, .log]
  | .connected sups => [.readMaps, .log, .writeMaps] ++ sups.flatMap supOps

/-- `manage`, endpoint_manager_poll.cpp:53-76 -/
def manageOps (f : Found) : List Op :=
  .lock :: .readMaps :: ((List.replicate f.lost [Op.log, .writeMaps]).flatten ++ f.dests.flatMap destOps) ++ [.unlock]

/-- The calls of the interface. (`connect` is left to `manage`: its documentation requires the caller to hold the mutex, which is private.) -/
inductive Call where
  | manage (f : Found) | endpoints | addFactory | setLogger | start | stop

/-- What a call does. `endpoints`: 149-153, `addEndpointFactory`: 155-159, `setLogger`: 168-171, `startPolling`: 124-130, `stopPolling`: 132-139; the destructor (48-51) is a
    `stopPolling`. -/
def callOps : Call → List Op
  | .manage f => manageOps f
  | .endpoints => [.lock, .readMaps, .unlock]
  | .addFactory => [.lock, .writeMaps, .unlock]
  | .setLogger => [.setLogger]
  | .start => [.testStop, .setPolling, .setInterval, .spawn]
  | .stop => [.testStop]

structure State where
  /-- the thread that holds `mutex_` -/
  holder : Option Nat := none
  /-- what each thread has left to do in the call it is in -/
  ops : Nat → List Op := fun _ => []
  polling : Bool := false
  hasLogger : Bool := false
  /-- `thread_.joinable()` -/
  joinable : Bool := false
  /-- `std::terminate` was called -/
  terminated : Bool := false

def State.set (s : State) (t : Nat) (l : List Op) : State := { s with ops := fun u => if u = t then l else s.ops u }

inductive Act where
  /-- A thread calls the manager. -/
  | call (t : Nat) (c : Call)
  /-- A thread takes its next step. A function of the user that is called in it makes the calls `cs`; a round of the polling thread finds `f`. -/
  | exec (t : Nat) (cs : List Call) (f : Found)

/-- The next step of thread `t`, which has `rest` to do after it. -/
def exec (s : State) (t : Nat) (cs : List Call) (f : Found) : Op → List Op → Option State
  | .lock, rest => if s.holder = none then some { s.set t rest with holder := some t } else none
  | .unlock, rest => some { s.set t rest with holder := none }
  | .readMaps, rest => some (s.set t rest)
  | .writeMaps, rest => some (s.set t rest)
  | .log, rest => some (s.set t (if s.hasLogger then cs.flatMap callOps ++ rest else rest))
  | .factory, rest => some (s.set t (cs.flatMap callOps ++ rest))
  | .setLogger, rest => some { s.set t rest with hasLogger := true }
  | .testStop, rest => some (s.set t (if s.polling then .clearPolling :: .join :: rest else rest))
  | .clearPolling, rest => some { s.set t rest with polling := false }
  -- joining oneself throws `resource_deadlock_would_occur`, which nothing in the polling thread catches; joining a thread that is not joinable throws, too
  | .join, rest =>
    if t = 1 ∨ s.joinable = false then some { s with terminated := true }
    else if s.ops 1 = [] then some { s.set t rest with joinable := false } else none
  | .setPolling, rest => some { s.set t rest with polling := true }
  | .setInterval, rest => some (s.set t rest)
  -- assigning to a joinable thread terminates
  | .spawn, rest => if s.joinable then some { s with terminated := true } else some { (s.set t rest).set 1 [.loop] with joinable := true }
  | .loop, rest => some (s.set t (if s.polling then manageOps f ++ [.sleep, .loop] else rest))
  | .sleep, rest => some (s.set t rest)

def step (s : State) : Act → Option State
  | .call t c => if s.terminated = false ∧ t ≠ 1 ∧ s.ops t = [] then some (s.set t (callOps c)) else none
  | .exec t cs f => if s.terminated then none else match s.ops t with
    | [] => none
    | o :: rest => exec s t cs f o rest

/-- The histories in which thread `t` makes only calls `c` with `P t c`, and the functions of the user that it runs only those with `Q t c`. -/
inductive Reachable (P Q : Nat → Call → Prop) : State → Prop
  | init : Reachable P Q {}
  | call {s s' : State} {t : Nat} {c : Call} : Reachable P Q s → P t c → step s (.call t c) = some s' → Reachable P Q s'
  | exec {s s' : State} {t : Nat} {cs : List Call} {f : Found} : Reachable P Q s → (∀ c ∈ cs, Q t c) → step s (.exec t cs f) = some s' → Reachable P Q s'

/-- The member that a step accesses, and whether it writes. -/
def Op.access : Op → Option (Var × Bool)
  | .readMaps => some (.maps, false)
  | .writeMaps => some (.maps, true)
  | .log => some (.logger, false)
  | .factory => some (.maps, false)
  | .setLogger => some (.logger, true)
  | .testStop => some (.polling, false)
  | .clearPolling => some (.polling, true)
  | .setPolling => some (.polling, true)
  | .setInterval => some (.interval, true)
  | .loop => some (.polling, false)
  | .sleep => some (.interval, false)
  | .lock | .unlock | .join | .spawn => none

/-- Thread `t` is about to access `v`. -/
def State.accesses (s : State) (t : Nat) (v : Var) (w : Bool) : Prop := ∃ o rest, s.ops t = o :: rest ∧ o.access = some (v, w)

end Scalopus.ManagerThreads
