import Verif.Model.Base

/-!
# Tracing switches and the tracepoints that obey them

Models `TraceConfigurator` (scalopus_tracing/src/trace_configurator.cpp:35-113) and the gate in front of the tracepoints of the
native, lttng and nop backends (scalopus_tracing/src/native/native_tracepoint.cpp:62-138, src/lttng/lttng_tracepoint.cpp:41-96,
src/nop/nop_tracepoint.cpp:35-49) as a transition system. Every step is one critical section or one access to an atomic boolean;
the steps of all threads interleave.

Simplifications:
- The atomics are sequentially consistent, as in the code (`load()`, `exchange()`, `store()` with the default order).
- `pthread_self` is unique among the threads that exist; the identifier of a thread that ended may be used again.
- The configurator itself (a static `shared_ptr`) outlives all threads; code that runs while static objects are destroyed is not
  modelled.
- A thread ends when its clean-up callback has run. A call of `getThreadStatePtr` after that (from the destructor of a `thread_local`
  object made earlier) passes through the definition of a destroyed block variable: undefined behaviour ([basic.start.term]).
-/

namespace Scalopus.TraceState

/-- The backends of the tracepoints. A process can use several of them (the Python module has all). -/
inductive Backend where
  | native
  | lttng
  | nop
  deriving Repr, DecidableEq

/-- `MarkLevel`, scalopus_tracing/include/scalopus_tracing/internal/marker_tracepoint.h. -/
inductive Level where
  | global
  | process
  | thread
  deriving Repr, DecidableEq

/-- The four functions, each with its own `static` and `thread_local` variables. -/
inductive Fn where
  | entry
  | exit
  | mark
  | count
  deriving Repr, DecidableEq

/-- A call of a tracepoint. -/
inductive Point where
  | entry (id : Nat)
  | exit (id : Nat)
  | mark (id : Nat) (level : Level)
  | count (id : Nat) (value : Int)
  deriving Repr, DecidableEq

/-- Which function a tracepoint calls. -/
def Point.fn : Point → Fn
  | .entry _ => .entry
  | .exit _ => .exit
  | .mark _ _ => .mark
  | .count _ _ => .count

/-- What a backend records: the native backend a `StaticTraceEvent` with a code (tracepoint_collector_native.cpp:35-40), lttng a
    tracepoint with a name (scope_tracepoint_lttng_definition.h). -/
inductive Record where
  | native (code : Nat) (id : Nat) (value : Option Int)
  | lttng (name : String) (id : Nat) (value : Option Int)
  deriving Repr, DecidableEq

/-- The end of the tracepoint functions: native_tracepoint.cpp:74-75, :90-91, :106-120, :135-137; lttng_tracepoint.cpp:50, :62,
    :74-85, :97. -/
def record : Backend → Point → Option Record
  | .native, .entry id => some (.native 1 id none)
  | .native, .exit id => some (.native 2 id none)
  | .native, .mark id .global => some (.native 3 id none)
  | .native, .mark id .process => some (.native 4 id none)
  | .native, .mark id .thread => some (.native 5 id none)
  | .native, .count id v => some (.native 6 id (some v))
  | .lttng, .entry id => some (.lttng "scope_entry" id none)
  | .lttng, .exit id => some (.lttng "scope_exit" id none)
  | .lttng, .mark id .global => some (.lttng "mark_event_global" id none)
  | .lttng, .mark id .process => some (.lttng "mark_event_process" id none)
  | .lttng, .mark id .thread => some (.lttng "mark_event_thread" id none)
  | .lttng, .count id v => some (.lttng "count_event" id (some v))
  | .nop, _ => none

/-- Where a thread is in a tracepoint: outside; its `thread_local` variables are initialised (native_tracepoint.cpp:68); it has seen
    that the process state is on (first half of :69). -/
inductive Pc where
  | idle
  | ready (b : Backend) (p : Point)
  | loaded (b : Backend) (p : Point)
  deriving Repr, DecidableEq

/-- A thread: its `pthread_self`, the cells that its `thread_local auto thread_state` variables point to, whether the clean-up
    object of trace_configurator.cpp:46-52 was made, whether the thread ended. -/
structure Thread where
  tid : Nat
  cache : List ((Backend × Fn) × Nat) := []
  cleanup : Bool := false
  pc : Pc := .idle
  ended : Bool := false
  deriving Repr, DecidableEq

/-- An `std::atomic_bool` of a thread; `owner` is a ghost: the number of the thread that made it. -/
structure Cell where
  owner : Nat
  val : Bool
  deriving Repr, DecidableEq

/-- What can be observed. -/
inductive Obs where
  /-- a tracepoint of thread number `t` recorded an event, under the identifier `tid` -/
  | event (t : Nat) (tid : Nat) (r : Record)
  /-- `getThreadState` of thread `t` returned -/
  | threadIs (t : Nat) (b : Bool)
  /-- `setThreadState` of thread `t` returned the previous value -/
  | threadWas (t : Nat) (b : Bool)
  /-- `getProcessState` or a load through `getProcessStatePtr` returned -/
  | processIs (b : Bool)
  /-- `setProcessState` returned the previous value -/
  | processWas (b : Bool)
  /-- a load through the pointer for `tid` in the map of the `h`-th call of `getThreadMap` -/
  | loaded (h : Nat) (tid : Nat) (b : Bool)
  deriving Repr, DecidableEq

/-- The state of the process. -/
structure State where
  /-- `process_state_`, initially on (trace_configurator.cpp:37) -/
  process : Bool := true
  cells : List Cell := []
  /-- `thread_state_` -/
  map : List (Nat × Nat) := []
  threads : List Thread := []
  /-- the maps returned by `getThreadMap` so far: copies that share the cells. (A map is a list of pairs with different keys; the
      order of `std::map` plays no role here.) -/
  snaps : List (List (Nat × Nat)) := []
  log : List Obs := []
  deriving Repr, DecidableEq

/-- Steps. -/
inductive Act where
  /-- a thread with this `pthread_self` starts -/
  | start (tid : Nat)
  /-- `getThreadState()` in thread `t`, trace_configurator.cpp:73-76 -/
  | getThread (t : Nat)
  /-- `setThreadState(b)` in thread `t`, trace_configurator.cpp:78-81 -/
  | setThread (t : Nat) (b : Bool)
  /-- `getProcessState()`, trace_configurator.cpp:88-91 -/
  | getProcess
  /-- `setProcessState(b)`, trace_configurator.cpp:93-96 -/
  | setProcess (b : Bool)
  /-- thread `t` calls a tracepoint and initialises the function's variables, native_tracepoint.cpp:64-68 -/
  | reach (t : Nat) (be : Backend) (p : Point)
  /-- thread `t` loads the process state, native_tracepoint.cpp:69 -/
  | loadProcess (t : Nat)
  /-- thread `t` loads its own state, native_tracepoint.cpp:69, and records, :74 -/
  | loadThread (t : Nat)
  /-- thread `t` ends; its clean-up object is destroyed, trace_configurator.cpp:46-52, :67-71 -/
  | exit (t : Nat)
  /-- `getThreadMap()`, trace_configurator.cpp:98-102 -/
  | getMap
  /-- a store through the pointer for `tid` in the map of the `h`-th `getMap` -/
  | remoteStore (h : Nat) (tid : Nat) (b : Bool)
  /-- a load through that pointer -/
  | remoteLoad (h : Nat) (tid : Nat)
  /-- a store through `getProcessStatePtr()` -/
  | storeProcess (b : Bool)
  deriving Repr, DecidableEq

/-- `getThreadStatePtr()` called by thread number `t`, trace_configurator.cpp:40-66: the new state and the cell. -/
def threadStatePtr (s : State) (t : Nat) (th : Thread) : State × Nat :=
  let s : State := { s with threads := s.threads.set t { th with cleanup := true } }
  match s.map.lookup th.tid with
  | some c => (s, c)
  | none =>
    ({ s with cells := s.cells ++ [{ owner := t, val := true }], map := s.map ++ [(th.tid, s.cells.length)] }, s.cells.length)

/-- Write an atomic. -/
def store (s : State) (c : Nat) (b : Bool) : State :=
  { s with cells := s.cells.modify c fun x => { x with val := b } }

/-- One step. A step that is not possible in a state changes nothing. -/
def step (s : State) : Act → Res State
  | .start tid =>
    if s.threads.any (fun th => th.tid = tid ∧ th.ended = false) then .ok s
    else .ok { s with threads := s.threads ++ [{ tid := tid }] }
  | .getThread t =>
    match s.threads[t]? with
    | none => .ok s
    | some th =>
      if th.ended then .ub
      else if th.pc = .idle then
        let (s', c) := threadStatePtr s t th
        match s'.cells[c]? with
        | none => .ub
        | some x => .ok { s' with log := s'.log ++ [.threadIs t x.val] }
      else .ok s
  | .setThread t b =>
    match s.threads[t]? with
    | none => .ok s
    | some th =>
      if th.ended then .ub
      else if th.pc = .idle then
        let (s', c) := threadStatePtr s t th
        match s'.cells[c]? with
        | none => .ub
        | some x => .ok { store s' c b with log := s'.log ++ [.threadWas t x.val] }
      else .ok s
  | .getProcess => .ok { s with log := s.log ++ [.processIs s.process] }
  | .setProcess b => .ok { s with process := b, log := s.log ++ [.processWas s.process] }
  | .storeProcess b => .ok { s with process := b }
  | .reach t be p =>
    match s.threads[t]? with
    | none => .ok s
    | some th =>
      if th.pc = .idle then
        if be = .nop then .ok s
        else if th.ended then .ub
        else match th.cache.lookup (be, p.fn) with
          | some _ => .ok { s with threads := s.threads.set t { th with pc := .ready be p } }
          | none =>
            let (s', c) := threadStatePtr s t th
            let th' : Thread := { th with cleanup := true, cache := th.cache ++ [((be, p.fn), c)], pc := .ready be p }
            .ok { s' with threads := s'.threads.set t th' }
      else .ok s
  | .loadProcess t =>
    match s.threads[t]? with
    | none => .ok s
    | some th =>
      match th.pc with
      | .ready be p =>
        if s.process then .ok { s with threads := s.threads.set t { th with pc := .loaded be p } }
        else .ok { s with threads := s.threads.set t { th with pc := .idle } }
      | _ => .ok s
  | .loadThread t =>
    match s.threads[t]? with
    | none => .ok s
    | some th =>
      match th.pc with
      | .loaded be p =>
        match th.cache.lookup (be, p.fn) with
        | none => .ub
        | some c =>
          match s.cells[c]? with
          | none => .ub
          | some x =>
            let s' : State := { s with threads := s.threads.set t { th with pc := .idle } }
            if x.val then
              match record be p with
              | none => .ok s'
              | some r => .ok { s' with log := s'.log ++ [.event t th.tid r] }
            else .ok s'
      | _ => .ok s
  | .exit t =>
    match s.threads[t]? with
    | none => .ok s
    | some th =>
      if th.ended = false ∧ th.pc = .idle then
        let s' : State := { s with threads := s.threads.set t { th with ended := true } }
        if th.cleanup then .ok { s' with map := s'.map.filter fun x => x.1 ≠ th.tid } else .ok s'
      else .ok s
  | .getMap => .ok { s with snaps := s.snaps ++ [s.map] }
  | .remoteStore h tid b =>
    match s.snaps[h]? with
    | none => .ok s
    | some m =>
      match m.lookup tid with
      | none => .ok s
      | some c => .ok (store s c b)
  | .remoteLoad h tid =>
    match s.snaps[h]? with
    | none => .ok s
    | some m =>
      match m.lookup tid with
      | none => .ok s
      | some c =>
        match s.cells[c]? with
        | none => .ub
        | some x => .ok { s with log := s.log ++ [.loaded h tid x.val] }

/-- A history. -/
def run (s : State) : List Act → Res State
  | [] => .ok s
  | a :: as => (step s a).bind fun s' => run s' as

end Scalopus.TraceState
