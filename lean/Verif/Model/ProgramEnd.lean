/-!
# The end of a program that traces

Models the objects with static and thread storage duration of the library, and the order in which C++ destroys them ([basic.start.term] of C++14): when `main` returns (or `exit` is called), the thread-local
objects of the main thread are destroyed first, latest first; then the objects with static storage duration, latest first, while the other threads go on. Control that passes through the definition of a
block-scope object that has been destroyed is undefined, as is any other use of a destroyed object.

* `TraceConfigurator::getInstance` (scalopus_tracing/src/trace_configurator.cpp:104-113) and `TracePointCollectorNative::getInstance` (src/native/tracepoint_collector_native.cpp:42-51): a static `shared_ptr` each.
* `scope_entry`, `scope_exit`, `mark_event`, `count_event` (src/native/native_tracepoint.cpp:62-138): each with its own static `configurator_ptr` and `process_state` and its own thread-local `buffer_ptr`,
  `buffer` and `thread_state`.
* The thread-local `cleanup` objects (tracepoint_collector_native.cpp:58-77, trace_configurator.cpp:46-52, scalopus_general/src/thread_name_tracker.cpp:45), whose destructor calls a function
  (scalopus_general/include/scalopus_general/destructor_callback.h:41-65).
* `StaticStringTracker::getInstance` (scalopus_tracing/src/static_string_tracker.cpp:34-38) and `ThreadNameTracker::getInstance` (thread_name_tracker.cpp:35-39).
* Global objects of the program, which may own threads that their destructor joins, as endpoints and servers do (endpoint_native_trace_sender.cpp:53-58).

Simplified: a call is one step; what is in the buffers and maps is left out; threads are numbered and numbers are not used again; the stricter rule that no other thread may use the standard library while
static objects are destroyed is left out; the program's own thread-local objects are left out (see C62); objects with static storage that are made while `main` is not in a destructor of one of them or
running are left out.
-/

namespace Scalopus.ProgramEnd

/-- The four functions of native_tracepoint.cpp. -/
inductive Kind
  | entry | exit | mark | count
deriving DecidableEq, Repr

/-- Objects with static storage duration: trace_configurator.cpp:111, tracepoint_collector_native.cpp:49, native_tracepoint.cpp:64, 80, 96, 125 and 67, 83, 99, 128,
static_string_tracker.cpp:36, thread_name_tracker.cpp:37, and those of the program. -/
inductive Static
  | cfgInst | colInst | cfgPtr (k : Kind) | procState (k : Kind) | strings | names | user (i : Nat)
deriving DecidableEq, Repr

/-- Objects with thread storage duration: native_tracepoint.cpp:65, 66, 68 (and the same in the other functions), tracepoint_collector_native.cpp:58, trace_configurator.cpp:46, thread_name_tracker.cpp:45. -/
inductive Local
  | colPtr (k : Kind) | buf (k : Kind) | thrState (k : Kind) | colCleanup | cfgCleanup | nameCleanup
deriving DecidableEq, Repr

/-- An object: not made yet, made, destroyed. -/
inductive Life
  | fresh | alive | gone
deriving DecidableEq, Repr

/-- A thread: not started; running; in its end, destroying its thread-local objects; the main thread destroying static objects; the main thread in the destructor of a global object; ended. -/
inductive Mode
  | absent | run | ending | statics | dtor (i : Nat) | over
deriving DecidableEq, Repr

/-- The state of the program. `stack` and `tstack`: the objects whose destructors are due, the latest first. `done`: the `have_done_setup_varname` of the places of tracepoints
(scalopus_tracing/include/scalopus_tracing/internal/trace_macro.h:47-53). `owner`: the global object whose destructor joins the thread. Thread 0 is the main thread. -/
structure State where
  stat : Static → Life := fun _ => .fresh
  stack : List Static := []
  loc : Nat → Local → Life := fun _ _ => .fresh
  tstack : Nat → List Local := fun _ => []
  done : Nat → Bool := fun _ => false
  mode : Nat → Mode := fun t => if t = 0 then .run else .absent
  threads : List Nat := []
  owner : Nat → Option Nat := fun _ => none

/-- The object has been made: its destructor is due before those of the objects made earlier. -/
def pushS (s : State) (x : Static) : State := { s with stat := fun y => if y = x then .alive else s.stat y, stack := x :: s.stack }

/-- The same for a thread-local object of thread `t`. -/
def pushL (s : State) (t : Nat) (x : Local) : State :=
  { s with loc := fun u y => if u = t ∧ y = x then .alive else s.loc u y, tstack := fun u => if u = t then x :: s.tstack t else s.tstack u }

/-- Control passes through `static auto x = init();`. `none` is undefined behaviour. -/
def passS (x : Static) (init : State → Option State) (s : State) : Option State :=
  match s.stat x with
  | .alive => some s
  | .gone => none
  | .fresh => (init s).map (pushS · x)

/-- Control of thread `t` passes through `thread_local auto x = init();`. -/
def passL (t : Nat) (x : Local) (init : State → Option State) (s : State) : Option State :=
  match s.loc t x with
  | .alive => some s
  | .gone => none
  | .fresh => (init s).map (pushL · t x)

/-- `TraceConfigurator::getInstance`, trace_configurator.cpp:104-113. -/
def getCfg (s : State) : Option State := passS .cfgInst some s

/-- `TracePointCollectorNative::getInstance`, tracepoint_collector_native.cpp:42-51. -/
def getCol (s : State) : Option State := passS .colInst some s

/-- `TracePointCollectorNative::getBuffer`, tracepoint_collector_native.cpp:53-93. -/
def getBuffer (t : Nat) (s : State) : Option State := (getCol s).bind (passL t .colCleanup some)

/-- `TraceConfigurator::getThreadStatePtr`, trace_configurator.cpp:40-66. -/
def getThreadState (t : Nat) (s : State) : Option State := (getCfg s).bind (passL t .cfgCleanup some)

/-- `scope_entry`, `scope_exit`, `mark_event` and `count_event`, native_tracepoint.cpp:62-76, 78-92, 94-121, 123-138. -/
def tracepoint (t : Nat) (k : Kind) (s : State) : Option State :=
  (passS (.cfgPtr k) getCfg s).bind fun s =>
  (passL t (.colPtr k) getCol s).bind fun s =>
  (passL t (.buf k) (getBuffer t) s).bind fun s =>
  (passS (.procState k) some s).bind fun s =>
  passL t (.thrState k) (getThreadState t) s

/-- `TRACE_TRACKED_MAPPING_REGISTER_ONCE`, trace_macro.h:47-53, for the place `l`. -/
def registerOnce (l : Nat) (s : State) : Option State :=
  if s.done l then some s else passS .strings some { s with done := fun m => if m = l then true else s.done m }

/-- What threads call: a tracepoint with registration at a place, or without (`TRACE_SCOPE_END`, trace_macro.h:56, and the end of a `TraceRAII`, src/scope_trace_raii.cpp:40-43);
naming the current thread (thread_name_tracker.cpp:41-47); reading or setting the switch of the thread or of the process (trace_configurator.cpp:73-96); answering a request for the names of traces
(endpoint_trace_mapping.cpp:51), for the names of threads (endpoint_process_info.cpp:70), for the switches (endpoint_trace_configurator.cpp:109); the thread of a sender starts
(endpoint_native_trace_sender.cpp:78). -/
inductive Call
  | event (k : Kind) (place : Option Nat) | nameThread | threadSwitch | processSwitch | mapping | info | switches | sender
deriving DecidableEq, Repr

/-- The calls. -/
def doCall (t : Nat) : Call → State → Option State
  | .event k (some l), s => (registerOnce l s).bind (tracepoint t k)
  | .event k none, s => tracepoint t k s
  | .nameThread, s => (passS .names some s).bind (passL t .nameCleanup some)
  -- trace_configurator.cpp:73-81, called for `getInstance()`
  | .threadSwitch, s => (getCfg s).bind (getThreadState t)
  | .processSwitch, s => getCfg s
  | .mapping, s => passS .strings some s
  | .info, s => passS .names some s
  | .switches, s => getCfg s
  | .sender, s => getCol s

inductive Act
  /-- Thread `u` starts thread `t`, which the global object `o` will join. -/
  | start (u t : Nat) (o : Option Nat)
  | call (t : Nat) (c : Call)
  /-- The constructor of the global object `i` has returned in thread `t`. -/
  | made (t i : Nat)
  /-- The function of thread `t` returns. -/
  | finish (t : Nat)
  /-- `main` returns. -/
  | ret
  /-- The next thread-local object of `t` is destroyed; with none left the thread has ended, or the main thread goes on with the static objects. -/
  | dropLocal (t : Nat)
  /-- The next static object is destroyed, or its destructor begins; with none left the process ends. -/
  | dropStatic
  /-- The destructor of a global object returns, having joined its threads. -/
  | endDtor
deriving DecidableEq, Repr

/-- Outcomes: the action is not possible here; undefined behaviour; a new state. -/
inductive Out
  | no | ub | ok (s : State)

def setMode (s : State) (t : Nat) (m : Mode) : State := { s with mode := fun u => if u = t then m else s.mode u }

/-- Does the thread execute code of the program? -/
def Mode.runs : Mode → Bool
  | .run | .dtor _ => true
  | _ => false

/-- The destructor of a thread-local object. The collector and the configurator are reached by a `weak_ptr` (tracepoint_collector_native.cpp:59-61, trace_configurator.cpp:46-48), the names by a plain pointer
(thread_name_tracker.cpp:45). -/
def dtorOk (s : State) : Local → Bool
  | .nameCleanup => decide (s.stat .names = .alive)
  | _ => true

/-- One step. -/
def step (s : State) (a : Act) : Out :=
  if s.mode 0 = .over then .no
  else match a with
  | .start u t o =>
    if (s.mode u).runs ∧ s.mode t = .absent ∧ (∀ i ∈ o, s.stat (.user i) ≠ .gone) then
      .ok { setMode s t .run with threads := t :: s.threads, owner := fun u => if u = t then o else s.owner u }
    else .no
  | .call t c =>
    if (s.mode t).runs then
      match doCall t c s with
      | some s' => .ok s'
      | none => .ub
    else .no
  | .made t i => if (s.mode t).runs ∧ s.stat (.user i) = .fresh then .ok (pushS s (.user i)) else .no
  | .finish t => if t ≠ 0 ∧ s.mode t = .run then .ok (setMode s t .ending) else .no
  | .ret => if s.mode 0 = .run then .ok (setMode s 0 .ending) else .no
  | .dropLocal t =>
    if s.mode t = .ending then
      match s.tstack t with
      | [] => .ok (setMode s t (if t = 0 then .statics else .over))
      | x :: r =>
        if dtorOk s x then
          .ok { s with loc := fun u y => if u = t ∧ y = x then .gone else s.loc u y, tstack := fun u => if u = t then r else s.tstack u }
        else .ub
    else .no
  | .dropStatic =>
    if s.mode 0 = .statics then
      match s.stack with
      | [] => .ok (setMode s 0 .over)
      | .user i :: r => .ok { setMode s 0 (.dtor i) with stack := r }
      | x :: r => .ok { s with stat := fun y => if y = x then .gone else s.stat y, stack := r }
    else .no
  | .endDtor =>
    match s.mode 0 with
    | .dtor i =>
      if s.threads.all (fun t => s.owner t != some i || s.mode t == .over) then
        .ok { setMode s 0 .statics with stat := fun y => if y = .user i then .gone else s.stat y }
      else .no
    | _ => .no

def run (s : State) : List Act → Out
  | [] => .ok s
  | a :: as => match step s a with
    | .ok s' => run s' as
    | o => o

end Scalopus.ProgramEnd
