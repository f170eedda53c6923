import Verif.Model.Base

/-!
# The threads of a traced program

Models how the threads of a program that is traced with the native backend interleave: the threads that trace, name themselves and end, those that answer queries, the worker of the sender, and the thread that
owns the sender. What the calls do is in `Model/Collector.lean`, `Model/TraceState.lean`, `Model/Scopes.lean` and `Model/ThreadNames.lean`; here every access to shared data and every operation on a mutex is one
step. Thread 0 owns the sender (scalopus_tracing/src/native/endpoint_native_trace_sender.cpp), thread 1 is its worker.

Left out: the atomic switches, the ring buffers (C02), the statics of the macros (C29) and the name of the process (C123); a tracepoint that a thread has reached before uses only switches and its ring buffer.
-/

namespace Scalopus.TracedThreads

/-- Data that several threads use: `ringbuffer_size_`, `active_tid_buffers_`, `orphaned_tid_buffers_` (tracepoint_collector_native.h:176-188), `thread_state_` (trace_configurator.h:103), the map of the names of
    tracepoints (static_string_tracker.h), that of the names of threads (thread_name_tracker.h), and of the sender `running_` (endpoint_native_trace_sender.h:54) and `transport_` (endpoint.h:91). -/
inductive Var where
  | ringSize | active | orphans | states | names | threadNames | running | transport
  deriving DecidableEq, Repr

/-- `mutex_` of the maps (map_tracker.h:108), `orphaned_mutex_` and `threads_map_mutex_`. -/
inductive Mutex where
  | active | orphans | states | names | threadNames
  deriving DecidableEq, Repr

/-- What is accessed with a mutex. -/
def Mutex.guards : Mutex → Var
  | .active => .active
  | .orphans => .orphans
  | .states => .states
  | .names => .names
  | .threadNames => .threadNames

inductive Op where
  /-- alone, or shared with others that take it shared -/
  | lock (m : Mutex) (alone : Bool)
  | unlock (m : Mutex)
  | read (v : Var)
  | write (v : Var)
  /-- endpoint_native_trace_sender.cpp:56: `running_ = false` -/
  | clearRunning
  /-- endpoint_native_trace_sender.cpp:80: the condition of the worker's loop -/
  | loop
  /-- endpoint_native_trace_sender.cpp:57 -/
  | join
  deriving DecidableEq, Repr

/-- `insert` and `erase` of a map, map_tracker.h:52-56, :91-95; under a plain mutex tracepoint_collector_native.cpp:70-72, :108-109, trace_configurator.cpp:53-63, :69-70. -/
def change (m : Mutex) : List Op := [.lock m true, .write m.guards, .unlock m]

/-- `getMap`, `getValue` and `exists` of a map, map_tracker.h:62-86. -/
def look (m : Mutex) : List Op := [.lock m false, .read m.guards, .unlock m]

/-- `getThreadMap` and `getThreadStatePtr` of a known thread, trace_configurator.cpp:53-57, :98-102: a plain mutex. -/
def lookStates : List Op := [.lock .states true, .read .states, .unlock .states]

/-- `getBuffer` of a thread that has one or has none, tracepoint_collector_native.cpp:79-91. -/
def getBuffer (found : Bool) : List Op := look .active ++ if found then look .active else .read .ringSize :: change .active

/-- `getThreadStatePtr` of a thread that has a switch or has none, trace_configurator.cpp:53-64. -/
def getThreadState (found : Bool) : List Op := if found then lookStates else change .states

inductive Call where
  /-- a thread reaches one of the functions of the backend for the first time, native_tracepoint.cpp:64-68 -/
  | tracepoint (buffer state : Bool)
  /-- `getThreadState` and `setThreadState`, trace_configurator.cpp:73-81 -/
  | threadState (found : Bool)
  /-- `getThreadMap`, trace_configurator.cpp:98-102 -/
  | threadMap
  /-- the name of a tracepoint is stored, and all are read -/
  | register
  | mapping
  /-- a thread names itself, thread_name_tracker.cpp:42-48; all names are read -/
  | nameThread
  | threadNames
  /-- tracepoint_collector_native.cpp:95-98 -/
  | setRingbufferSize
  /-- the callbacks at the end of a thread that has traced, and that has its buffer or not: tracepoint_collector_native.cpp:57-77, trace_configurator.cpp:46-52, thread_name_tracker.cpp:46 -/
  | endThread (buffer : Bool)
  /-- the constructor of the sender, endpoint_native_trace_sender.cpp:47-51 -/
  | make
  /-- `setTransport`, as called by `addEndpoint`: endpoint.cpp:44-47, transport.cpp:59-64 -/
  | setTransport
  /-- the destructor of the sender -/
  | destroy
  deriving DecidableEq, Repr

def callOps : Call → List Op
  | .tracepoint buffer state => getBuffer buffer ++ getThreadState state
  | .threadState found => getThreadState found
  | .threadMap => lookStates
  | .register => change .names
  | .mapping => look .names
  | .nameThread => change .threadNames
  | .threadNames => look .threadNames
  | .setRingbufferSize => [.write .ringSize]
  | .endThread buffer => look .active ++ (if buffer then look .active ++ change .orphans else []) ++ change .active ++ change .states ++ change .threadNames
  | .make => []
  | .setTransport => [.write .transport]
  | .destroy => [.clearRunning, .join]

/-- One iteration of the worker, endpoint_native_trace_sender.cpp:82-112; `collected`: there were events. The broadcast itself is in
    `Model/UnixThreads.lean`; the two reads of `transport_` are one step. -/
def roundOps (collected : Bool) : List Op := change .orphans ++ look .active ++ if collected then [.read .transport] else []

structure State where
  /-- which thread has which mutex, and whether alone -/
  held : List (Nat × Mutex × Bool) := []
  /-- what each thread has left to do in the call it is in -/
  ops : Nat → List Op := fun _ => []
  /-- there is a sender -/
  sender : Bool := false
  running : Bool := true

def State.set (s : State) (t : Nat) (l : List Op) : State := { s with ops := fun u => if u = t then l else s.ops u }

inductive Act where
  | call (t : Nat) (c : Call)
  /-- A thread takes its next step. In an iteration of the worker there are events or not. -/
  | exec (t : Nat) (collected : Bool)
  deriving DecidableEq, Repr

/-- A mutex can be taken: nobody has it, or all that have it share it and this one will. -/
def free (held : List (Nat × Mutex × Bool)) (m : Mutex) (alone : Bool) : Bool := held.all fun h => h.2.1 ≠ m || (!alone && !h.2.2)

/-- The next step of thread `t`, which has `rest` to do after it. -/
def exec (s : State) (t : Nat) (collected : Bool) : Op → List Op → Option State
  | .lock m alone, rest => if free s.held m alone then some { s.set t rest with held := (t, m, alone) :: s.held } else none
  | .unlock m, rest => some { s.set t rest with held := s.held.filter fun h => ¬ (h.1 = t ∧ h.2.1 = m) }
  | .read _, rest => some (s.set t rest)
  | .write _, rest => some (s.set t rest)
  | .clearRunning, rest => some { s.set t rest with running := false }
  | .loop, rest => some (s.set t (if s.running then roundOps collected ++ [.loop] else rest))
  | .join, rest => if s.ops 1 = [] then some (s.set t rest) else none

/-- Whether a call of the sender can be made: there is one, or none yet. -/
def callable (s : State) : Call → Bool
  | .make => !s.sender
  | .setTransport | .destroy => s.sender
  | _ => true

def step (s : State) : Act → Option State
  | .call t c =>
    if t ≠ 1 ∧ s.ops t = [] ∧ callable s c = true then
      match c with
      | .make => if s.ops 1 = [] then some { s.set 1 [.loop] with sender := true, running := true } else none
      | .destroy => some { s.set t (callOps .destroy) with sender := false }
      | c => some (s.set t (callOps c))
    else none
  | .exec t collected => match s.ops t with
    | [] => none
    | o :: rest => exec s t collected o rest

def run (s : State) : List Act → Option State
  | [] => some s
  | a :: as => (step s a).bind fun s' => run s' as

/-- What a step accesses, and whether it writes. -/
def Op.access : Op → Option (Var × Bool)
  | .read v => some (v, false)
  | .write v => some (v, true)
  | .clearRunning => some (.running, true)
  | .loop => some (.running, false)
  | .lock _ _ | .unlock _ | .join => none

/-- Thread `t` is about to access `v`. -/
def State.accesses (s : State) (t : Nat) (v : Var) (w : Bool) : Prop := ∃ o rest, s.ops t = o :: rest ∧ o.access = some (v, w)

end Scalopus.TracedThreads
