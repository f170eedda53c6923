import Verif.Model.Base

/-!
# Traced programs that fork

A process that was made with `fork`, without starting another program, is a copy of its parent: it has the ring buffers of all threads of the parent with the events that wait in them
(`TracePointCollectorNative`, scalopus_tracing/src/native/tracepoint_collector_native.h:124-185), the endpoints that were created in the parent, and the mutexes as they were. Of the threads it has only the
one that called `fork`: there is no sender (scalopus_tracing/src/native/endpoint_native_trace_sender.cpp:47-51) until one is created in it. Python's `multiprocessing` starts its workers in this way. Nothing
in the library is prepared for it: there is no `pthread_atfork`.

Simplifications:
- Ring buffers are lists that are never full; threads do not end; a process has at most one sender; process ids are not used again.
- Taking the events of one buffer is one step (endpoint_native_trace_sender.cpp:97-101) and so is sending them. A fork in the middle of it finds events that the sender has taken but whose slots it has not
  yet given back, which is the same for the copy as events that wait.
- Of the mutexes only that of the collector's map is modelled: a `shared_timed_mutex`, with one writer or several readers (scalopus_general/include/scalopus_general/map_tracker.h:50-108).
-/

namespace Scalopus.ForkTrace

/-- An event, with ghosts: the process in which it happened and a number. -/
structure Event where
  origin : Nat
  nr : Nat
  deriving DecidableEq, Repr

/-- Who holds the mutex of the map, or a share of it. -/
inductive Holder where
  | thread (t : Nat)
  | sender
  /-- a thread of the parent, which does not exist in this process -/
  | gone
  deriving DecidableEq, Repr

structure Proc where
  threads : List Nat
  /-- `active_tid_buffers_`, tracepoint_collector_native.h:181: the buffers, by thread -/
  bufs : List (Nat × List Event) := []
  /-- there is an `EndpointNativeTraceSender` whose thread runs -/
  sender : Bool := false
  /-- the threads in the copy of the map that the sender works on, endpoint_native_trace_sender.cpp:85 -/
  snap : List Nat := []
  /-- who has the mutex for writing -/
  writer : Option Holder := none
  /-- who has a share of it, for reading -/
  readers : List Holder := []
  /-- the `EndpointProcessInfo` objects, with the `pid` that each has stored (scalopus_general/src/endpoint_process_info.cpp:50-53) -/
  infos : List Nat := []
  deriving DecidableEq, Repr

structure State where
  procs : Nat → Option Proc := fun _ => none
  /-- what was sent: the `pid` of the message (endpoint_native_trace_sender.cpp:66) and the event -/
  sent : List (Nat × Event) := []
  /-- what processes answered when they were asked for their process information: the process and the `pid` in the answer -/
  answers : List (Nat × Nat) := []
  /-- the next number -/
  next : Nat := 0

inductive Act where
  /-- A process starts, with its first thread. -/
  | start (p t : Nat)
  /-- Thread `t` starts. -/
  | thread (p t : Nat)
  /-- A thread takes the mutex of the map for writing, in `insert`. -/
  | lock (p t : Nat)
  | unlock (p t : Nat)
  /-- A thread in `exists`, or the sender in `getMap`, takes a share of it. -/
  | share (p : Nat) (h : Holder)
  | unshare (p : Nat) (h : Holder)
  /-- The thread puts its new buffer into the map. -/
  | register (p t : Nat)
  /-- A tracepoint in a thread that has its buffer. -/
  | emit (p t : Nat)
  /-- An `EndpointNativeTraceSender` is created. -/
  | sender (p : Nat)
  /-- The sender copies the map. -/
  | copyMap (p : Nat)
  /-- The sender takes the events of a thread and sends them. -/
  | collect (p t : Nat)
  /-- Thread `t` of process `p` forks process `q`. -/
  | fork (p t q : Nat)
  /-- An `EndpointProcessInfo` is created. -/
  | newInfo (p : Nat)
  /-- The `EndpointProcessInfo` number `i` answers a request. -/
  | ask (p i : Nat)
  deriving DecidableEq, Repr

def upd (f : Nat → Option Proc) (p : Nat) (v : Proc) : Nat → Option Proc := fun q => if q = p then some v else f q

/-- `push` on the buffer of a thread, native_tracepoint.cpp:74. -/
def push (t : Nat) (e : Event) : List (Nat × List Event) → List (Nat × List Event)
  | [] => []
  | (u, l) :: bs => if u = t then (u, l ++ [e]) :: bs else (u, l) :: push t e bs

/-- `pop_into` on the buffer of a thread, endpoint_native_trace_sender.cpp:97-101: what is taken and what stays. -/
def take (t : Nat) : List (Nat × List Event) → List Event × List (Nat × List Event)
  | [] => ([], [])
  | (u, l) :: bs => if u = t then (l, (u, []) :: bs) else ((take t bs).1, (u, l) :: (take t bs).2)

/-- The buffers have one for this thread. -/
def has (bs : List (Nat × List Event)) (t : Nat) : Bool := bs.any fun b => b.1 == t

/-- Does this thread run in the process? -/
def lives (v : Proc) : Holder → Bool
  | .thread t => v.threads.contains t
  | .sender => v.sender
  | .gone => false

/-- What the child of a `fork` by thread `t` is. -/
def child (v : Proc) (t : Nat) : Proc :=
  { threads := [t], bufs := v.bufs, sender := false, snap := [], writer := v.writer.map fun _ => .gone,
    readers := v.readers.map fun _ => .gone, infos := v.infos }

def step (s : State) : Act → Option State
  | .start p t => if (s.procs p).isSome then none else some { s with procs := upd s.procs p { threads := [t] } }
  | .thread p t => match s.procs p with
    | some v => if v.threads.contains t then none else some { s with procs := upd s.procs p { v with threads := t :: v.threads } }
    | none => none
  -- map_tracker.h:55 (`std::unique_lock`)
  | .lock p t => match s.procs p with
    | some v => if v.writer = none ∧ v.readers = [] ∧ lives v (.thread t) = true then some { s with procs := upd s.procs p { v with writer := some (.thread t) } } else none
    | none => none
  | .unlock p t => match s.procs p with
    | some v => if v.writer = some (.thread t) then some { s with procs := upd s.procs p { v with writer := none } } else none
    | none => none
  -- map_tracker.h:65, 75, 84 (`std::shared_lock`)
  | .share p h => match s.procs p with
    | some v => if v.writer = none ∧ lives v h = true ∧ h ∉ v.readers then some { s with procs := upd s.procs p { v with readers := h :: v.readers } } else none
    | none => none
  | .unshare p h => match s.procs p with
    | some v => if h ∈ v.readers ∧ lives v h = true then some { s with procs := upd s.procs p { v with readers := v.readers.erase h } } else none
    | none => none
  -- tracepoint_collector_native.cpp:84-91
  | .register p t => match s.procs p with
    | some v => if v.writer = some (.thread t) ∧ has v.bufs t = false
        then some { s with procs := upd s.procs p { v with bufs := v.bufs ++ [(t, [])] } } else none
    | none => none
  -- native_tracepoint.cpp:62-76
  | .emit p t => match s.procs p with
    | some v => if v.threads.contains t ∧ has v.bufs t = true
        then some { s with procs := upd s.procs p { v with bufs := push t ⟨p, s.next⟩ v.bufs }, next := s.next + 1 } else none
    | none => none
  -- endpoint_native_trace_sender.cpp:47-51
  | .sender p => match s.procs p with
    | some v => if v.sender then none else some { s with procs := upd s.procs p { v with sender := true } }
    | none => none
  -- endpoint_native_trace_sender.cpp:85
  | .copyMap p => match s.procs p with
    | some v => if .sender ∈ v.readers ∧ v.sender = true then some { s with procs := upd s.procs p { v with snap := v.bufs.map (·.1) } } else none
    | none => none
  -- endpoint_native_trace_sender.cpp:91-109, with `getpid` in 66
  | .collect p t => match s.procs p with
    | some v => if v.sender = true ∧ v.snap.contains t
        then some { s with procs := upd s.procs p { v with bufs := (take t v.bufs).2 }, sent := s.sent ++ (take t v.bufs).1.map fun e => (p, e) } else none
    | none => none
  | .fork p t q => match s.procs p, s.procs q with
    | some v, none => if v.threads.contains t ∧ v.writer ≠ some (.thread t) ∧ .thread t ∉ v.readers then some { s with procs := upd s.procs q (child v t) } else none
    | _, _ => none
  -- endpoint_process_info.cpp:50-53
  | .newInfo p => match s.procs p with
    | some v => some { s with procs := upd s.procs p { v with infos := v.infos ++ [p] } }
    | none => none
  -- endpoint_process_info.cpp:60-75
  | .ask p i => match s.procs p with
    | some v => match v.infos[i]? with
      | some pid => some { s with answers := s.answers ++ [(p, pid)] }
      | none => none
    | none => none

def run (s : State) : List Act → Option State
  | [] => some s
  | a :: as => (step s a).bind fun s' => run s' as

end Scalopus.ForkTrace
