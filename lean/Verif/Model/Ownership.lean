/-!
# Who owns whom in a program that shows traces

Models the owning (`shared_ptr`) and the observing (`weak_ptr`) references between the objects of a program that connects to traced processes, and the threads that these objects have:
the manager (endpoint_manager_poll.h:42-116), the transports and endpoints that it makes (endpoint_manager_poll.cpp:53-122), the three kinds of providers (general_provider.h:46-73,
native_trace_provider.h:42-92, lttng_provider.h:48-73, scope_tracing_provider.h:42-84), their sources (general_source.h, native_trace_source.h:46-79, lttng_source.h:46-76), the server for viewers
with its sessions (catapult_server.h:46-104, catapult_backend.h:52-118, trace_session.h:50-141) and the recorder (catapult_recorder.h:44-110).

An object is destroyed by the thread that gives up the last owning reference to it. The destructor of an object with a thread waits for that thread; if it is run by that very thread, then
`std::thread::join` throws, in a destructor, which ends the process. Afterwards the references of the object are given up.

Simplifications. Objects are numbered in the order in which they are made. The order in which one thread destroys the objects that it has to destroy is left open. A thread may hold references
obtained by any chain of references that begins at the object that the thread belongs to, or at one that it holds: this allows more than the code does. A thread that is asked to end does so once it has given up
what it holds (for the thread of babeltrace's parser this can take for ever, see C71). The server, its backend and the web server of seasocks (a thirdparty library) are one object; seasocks closes all
connections when it is terminated. Functions given by the user (loggers) own nothing. A recorder whose thread does not run is destroyed without harm (in the code this ends the process, see C41). What endpoints do with the transport they belong to is the subject of C96.
-/

namespace Scalopus.Ownership

inductive Kind where
  /-- `EndpointManagerPoll` -/
  | manager
  /-- a transport made by `TransportFactory::connect` -/
  | transport
  /-- an endpoint made by a factory function -/
  | endpoint
  /-- `GeneralProvider` -/
  | general
  /-- `NativeTraceProvider` -/
  | native
  /-- `LttngProvider` -/
  | lttng
  /-- `GeneralSource` -/
  | generalSource
  /-- `NativeTraceSource` -/
  | nativeSource
  /-- `LttngSource` -/
  | lttngSource
  /-- `BabeltraceTool` -/
  | tool
  /-- `TraceSession` -/
  | session
  /-- `CatapultServer` with its `CatapultBackend` -/
  | server
  /-- `CatapultRecorder` -/
  | recorder
deriving DecidableEq, Repr

inductive Status where
  | alive
  /-- The last owning reference was given up, the destructor has not ended. -/
  | dying
  | gone
deriving DecidableEq, Repr

structure Obj where
  kind : Kind := .endpoint
  status : Status := .gone
  /-- the owning references -/
  refs : List Nat := []
  /-- the observing references -/
  weak : List Nat := []
  /-- Its thread exists. -/
  running : Bool := false
  /-- Of a session: the backend, which the function for answers captures as a plain pointer (catapult_backend.cpp:153-165). -/
  backend : Nat := 0

/-- A thread of the program, or the thread of an object: the polling thread of a manager (endpoint_manager_poll.h:113), the thread of a transport (transport_unix.h:86, transport_loopback.h:91), the
parser's thread of a tool (babeltrace_tool.h:84), the worker of a session (trace_session.h:109) and of a recorder (catapult_recorder.h:106), and the thread of the web server (catapult_server.h:102). -/
inductive Thread where
  | program (i : Nat)
  | of (o : Nat)
deriving DecidableEq, Repr

/-- a thread that the program has started -/
def Thread.isProgram : Thread → Bool
  | .program _ => true
  | .of _ => false

structure State where
  next : Nat := 0
  obj : Nat → Obj := fun _ => {}
  /-- the owning references in local variables of threads -/
  held : List (Thread × Nat) := []
  /-- the destructors that threads have begun and not ended -/
  todo : List (Thread × Nat) := []
  /-- The process was ended, by a thread that waited for itself. -/
  terminated : Bool := false

def State.upd (s : State) (x : Nat) (v : Obj) : State := { s with obj := fun y => if y = x then v else s.obj y }

/-- Somebody owns `o`. -/
def State.owned (s : State) (o : Nat) : Bool := s.held.any (fun h => h.2 == o) || (List.range s.next).any fun x => (s.obj x).refs.contains o

/-- Thread `u` has given up a reference to each of these objects: those that nobody owns any more are destroyed by it. -/
def settle (u : Thread) : List Nat → State → State
  | [], s => s
  | o :: os, s =>
    settle u os (if (s.obj o).status = .alive ∧ s.owned o = false then
      { s.upd o { s.obj o with status := .dying } with todo := s.todo ++ [(u, o)] } else s)

/-- A new object, of which nobody has a reference yet. -/
def State.create (s : State) (v : Obj) : State := { s.upd s.next { v with status := .alive } with next := s.next + 1 }

def State.hold (s : State) (u : Thread) (o : Nat) : State := { s with held := (u, o) :: s.held }

/-- `x` gets an owning reference to `o`. -/
def State.own (s : State) (x o : Nat) : State := s.upd x { s.obj x with refs := o :: (s.obj x).refs }

def isProvider : Kind → Bool
  | .general | .native | .lttng => true
  | _ => false

def isSource : Kind → Bool
  | .generalSource | .nativeSource | .lttngSource => true
  | _ => false

/-- What `makeSource` of the provider `p` makes: general_provider.cpp:41-44 and general_source.h:56, native_trace_provider.cpp:44-50 and native_trace_source.h:73, lttng_provider.cpp:53-56 and
lttng_source.h:64-65. The tool is the one the provider owns. -/
def sourceOf (s : State) (p : Nat) : Obj :=
  match (s.obj p).kind with
  | .native => { kind := .nativeSource, weak := [p] }
  | .lttng => { kind := .lttngSource, refs := p :: (s.obj p).refs }
  | _ => { kind := .generalSource, refs := [p] }

/-- The native provider owns the sources that it makes too, native_trace_provider.cpp:48. -/
def register (s : State) (p src : Nat) : State := if (s.obj p).kind = .native then s.own p src else s

/-- `makeSource()`, called by thread `u`, which keeps the source. -/
def takeSource (u : Thread) (s : State) (p : Nat) : State := register ((s.create (sourceOf s p)).hold u s.next) p s.next

/-- `addSource(provider->makeSource())`, catapult_backend.cpp:173 and catapult_recorder.cpp:96 -/
def attachSource (x : Nat) (s : State) (p : Nat) : State := register ((s.create (sourceOf s p)).own x s.next) p s.next

/-- The providers that `x` owns, in the order in which they were added. -/
def State.providers (s : State) (x : Nat) : List Nat := (s.obj x).refs.reverse.filter fun p => isProvider (s.obj p).kind

/-- The objects lead from one to the next by owning references. -/
def State.leads (s : State) : Nat → List Nat → Bool
  | _, [] => true
  | z, o :: l => (s.obj z).refs.contains o && s.leads o l

/-- Thread `u` can use the object `z`: it is its thread, or has a reference. -/
def State.uses (s : State) (u : Thread) (z : Nat) : Bool :=
  match u with
  | .program _ => s.held.contains (u, z)
  | .of y => (s.obj y).running && (y == z || s.held.contains (u, z))

/-- No work of the thread of `o` is in progress. The thread of the web server closes all connections before it ends. -/
def State.idle (s : State) (o : Nat) : Bool :=
  !(s.held.any fun h => h.1 == .of o) && !(s.todo.any fun h => h.1 == .of o) && !((s.obj o).refs.any fun y => (s.obj y).kind == .session)

/-- The kinds of objects that have a polling or working thread that the program starts. -/
def starts : Kind → Bool
  | .manager | .server | .recorder => true
  | _ => false

/-- An observing reference to a manager is locked by `updateMapping` only (scope_tracing_provider.cpp:52), which sources call in `finishInterval`: in the worker of a session, or in a thread of the program.
One to a native provider is locked by `finishInterval` (native_trace_source.cpp:77), by the factory function (endpoint_manager.h:84-91) in a thread that calls `manage`, and when data arrives
(native_trace_provider.cpp:54-61). -/
def mayLock (s : State) (u : Thread) (w : Nat) : Bool :=
  match (s.obj w).kind, u with
  | .native, _ => true
  | .manager, .program _ => true
  | .manager, .of z => (s.obj z).kind == .session
  | _, _ => false

inductive Act where
  /-- `std::make_shared<EndpointManagerPoll>(factory)` -/
  | makeManager (t : Nat)
  /-- `std::make_shared<GeneralProvider>(manager)`, general_provider.cpp:37-39 -/
  | makeGeneral (t m : Nat)
  /-- `std::make_shared<NativeTraceProvider>(manager)`, native_trace_provider.cpp:40-42, scope_tracing_provider.cpp:36-38 -/
  | makeNative (t m : Nat)
  /-- `std::make_shared<LttngProvider>(path, manager)`, lttng_provider.cpp:37-42 -/
  | makeLttng (t m : Nat)
  /-- `std::make_shared<CatapultServer>()` or, with `recorder`, `std::make_shared<CatapultRecorder>()` -/
  | makeServer (t : Nat) (recorder : Bool)
  /-- `addEndpointFactory(name, provider)`, endpoint_manager.h:81-92 -/
  | addFactory (t m p : Nat)
  /-- `addProvider`, catapult_backend.cpp:48-51, catapult_recorder.cpp:78-81 -/
  | addProvider (t x p : Nat)
  /-- `provider->makeSource()` -/
  | makeSource (t p : Nat)
  /-- `startPolling` (endpoint_manager_poll.cpp:124-130), `CatapultServer::start` (catapult_server.cpp:60-85), `CatapultRecorder::start` (catapult_recorder.cpp:83-100) -/
  | start (t x : Nat)
  /-- `stopPolling` (endpoint_manager_poll.cpp:132-139), `CatapultRecorder::stop` (catapult_recorder.cpp:54-58) -/
  | stop (t x : Nat)
  /-- a copy of a pointer for another thread of the program -/
  | give (t t' o : Nat)
  /-- `manage` finds a process: endpoint_manager_poll.cpp:84-93 -/
  | discover (u : Thread) (m : Nat)
  /-- `connect` adds an endpoint: endpoint_manager_poll.cpp:99-111. `some n`: the receiver of the native provider `n`, native_trace_provider.cpp:52-62, 93-98. -/
  | endpoint (u : Thread) (m tr : Nat) (native : Option Nat)
  /-- `manage` finds that a process has ended: endpoint_manager_poll.cpp:55-68 -/
  | lose (u : Thread) (m tr : Nat)
  /-- A viewer connects: catapult_backend.cpp:144-176, in the thread of the server. -/
  | connect (x : Nat)
  /-- A viewer leaves: catapult_backend.cpp:134-142, in the thread of the server. -/
  | disconnect (x y : Nat)
  /-- A thread copies an owning reference, for example `manager->endpoints()` (endpoint_manager_poll.cpp:149-153), `getSession` (catapult_backend.cpp:122-132), the sources that record
  (native_trace_provider.cpp:66-78). `z` and `path` lead to it. -/
  | copy (u : Thread) (z : Nat) (path : List Nat) (o : Nat)
  /-- A thread locks an observing reference, which gives nothing if the object is being destroyed. -/
  | lock (u : Thread) (z : Nat) (path : List Nat) (w : Nat)
  /-- A thread gives up a reference. -/
  | drop (u : Thread) (o : Nat)
  /-- A thread ends a destructor that it has begun: endpoint_manager_poll.cpp:48-51, transport_unix.cpp:204-220, transport_loopback.cpp:41-45, babeltrace_tool.cpp:78-81 with lttng_provider.cpp:48-51, trace_session.cpp:41-45,
  catapult_server.cpp:92-99, catapult_recorder.cpp:146-153. -/
  | destroy (u : Thread) (o : Nat)

/-- The last of `z` and the objects after it. -/
def endOf (z : Nat) (path : List Nat) : Nat := path.getLast?.getD z

/-- `none`: the action is not possible. -/
def step (s : State) : Act → Option State
  | .makeManager t => some ((s.create { kind := .manager }).hold (.program t) s.next)
  | .makeGeneral t m =>
    if s.uses (.program t) m ∧ (s.obj m).kind = .manager then some ((s.create { kind := .general, refs := [m] }).hold (.program t) s.next) else none
  | .makeNative t m =>
    if s.uses (.program t) m ∧ (s.obj m).kind = .manager then some ((s.create { kind := .native, weak := [m] }).hold (.program t) s.next) else none
  | .makeLttng t m =>
    if s.uses (.program t) m ∧ (s.obj m).kind = .manager then
      some (((s.create { kind := .tool, running := true }).create { kind := .lttng, refs := [s.next], weak := [m] }).hold (.program t) (s.next + 1)) else none
  | .makeServer t recorder => some ((s.create { kind := if recorder then .recorder else .server }).hold (.program t) s.next)
  | .addFactory t m p =>
    if s.uses (.program t) m ∧ s.uses (.program t) p ∧ (s.obj m).kind = .manager ∧ (s.obj p).kind = .native then
      some (s.upd m { s.obj m with weak := p :: (s.obj m).weak }) else none
  | .addProvider t x p =>
    if s.uses (.program t) x ∧ s.uses (.program t) p ∧ ((s.obj x).kind = .server ∨ (s.obj x).kind = .recorder) ∧ isProvider (s.obj p).kind then some (s.own x p) else none
  | .makeSource t p =>
    if s.uses (.program t) p ∧ isProvider (s.obj p).kind then some (takeSource (.program t) s p) else none
  | .start t x =>
    if s.uses (.program t) x ∧ starts (s.obj x).kind ∧ (s.obj x).running = false then
      let old := (s.obj x).refs.filter fun o => isSource (s.obj o).kind
      let s1 := settle (.program t) old (s.upd x { s.obj x with running := true, refs := (s.obj x).refs.filter fun o => !isSource (s.obj o).kind })
      if (s.obj x).kind = .recorder then some ((s1.providers x).foldl (attachSource x) s1) else some s1
    else none
  | .stop t x =>
    if s.uses (.program t) x ∧ ((s.obj x).kind = .manager ∨ (s.obj x).kind = .recorder) ∧ s.idle x then some (s.upd x { s.obj x with running := false }) else none
  | .give t t' o => if s.uses (.program t) o then some (s.hold (.program t') o) else none
  | .discover u m =>
    if s.uses u m ∧ (s.obj m).kind = .manager then some ((s.create { kind := .transport, running := true }).own m s.next) else none
  | .endpoint u m tr native =>
    if s.uses u m ∧ (s.obj m).kind = .manager ∧ tr ∈ (s.obj m).refs ∧ (s.obj tr).kind = .transport ∧ (∀ n, native = some n → (u, n) ∈ s.held ∧ (s.obj n).kind = .native) then
      some (((s.create { kind := .endpoint, weak := native.toList }).own tr s.next).own m s.next) else none
  | .lose u m tr =>
    if s.uses u m ∧ (s.obj m).kind = .manager ∧ tr ∈ (s.obj m).refs ∧ (s.obj tr).kind = .transport then
      some (settle u (s.obj tr).refs ((s.hold u tr).upd m { s.obj m with refs := (s.obj m).refs.filter fun o => !(o == tr || (s.obj tr).refs.contains o) })) else none
  | .connect x =>
    if (s.obj x).running ∧ (s.obj x).kind = .server then
      let s1 := (s.create { kind := .session, running := true, backend := x }).own x s.next
      some ((s.providers x).foldl (attachSource s.next) s1) else none
  | .disconnect x y =>
    if (s.obj x).running ∧ (s.obj x).kind = .server ∧ y ∈ (s.obj x).refs ∧ (s.obj y).kind = .session then
      some (settle (.of x) [y] (s.upd x { s.obj x with refs := (s.obj x).refs.filter fun o => !(o == y) })) else none
  | .copy u z path o =>
    if s.uses u z ∧ s.leads z (path ++ [o]) ∧ ((s.obj o).kind = .session → u.isProgram = false) then some (s.hold u o) else none
  | .lock u z path w =>
    if s.uses u z ∧ s.leads z path ∧ w ∈ (s.obj (endOf z path)).weak ∧ (s.obj w).status = .alive ∧ mayLock s u w then some (s.hold u w) else none
  | .drop u o => if (u, o) ∈ s.held then some (settle u [o] { s with held := s.held.erase (u, o) }) else none
  | .destroy u o =>
    if (u, o) ∈ s.todo then
      if (s.obj o).running ∧ u = .of o then some { s with terminated := true }
      else if (s.obj o).running ∧ s.idle o = false then none
      else some (settle u (s.obj o).refs { s.upd o { kind := (s.obj o).kind, backend := (s.obj o).backend } with todo := s.todo.erase (u, o) })
    else none

def run (s : State) : List Act → Option State
  | [] => some s
  | a :: l => (step s a).bind fun s' => run s' l

/-- Is `finishInterval()` of the source defined? The general and the LTTng source use the provider that they own (general_source.cpp:42, lttng_source.cpp:86); the native source locks an observing reference and uses
the result even if it is null (native_trace_source.cpp:77-82), which is undefined. -/
def finish (s : State) (src : Nat) : Bool :=
  match (s.obj src).kind with
  | .nativeSource => (s.obj src).weak.all fun p => (s.obj p).status == .alive
  | .generalSource => (s.obj src).refs.any fun p => (s.obj p).kind == .general && (s.obj p).status == .alive
  | .lttngSource => (s.obj src).refs.any fun p => (s.obj p).kind == .lttng && (s.obj p).status == .alive
  | _ => true

end Scalopus.Ownership
