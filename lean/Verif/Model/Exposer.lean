import Verif.Model.PyTool
import Verif.Model.Manager

/-!
# What a process exposes, and which commands of the tool reach it

Puts together what a process serves (`DefaultExposer`, scalopus_python/scalopus/common.py:33-51, or endpoints that it adds itself), the discovery round of the tool (`Model/Manager`) and the
commands `discover` and `trace_configure` (`Model/PyTool`).

Simplifications: as in `Model/Manager` and `Model/PyTool`. The order in which the servers are found is also the order of the manager's map of transports; the theorems are for all orders. The
factories that the tool registers give an endpoint whenever they are called (they do: endpoint_trace_configurator.cpp, endpoint_process_info.cpp, endpoint_introspect.cpp: `factory`).
-/

namespace Scalopus.Exposer

/-- A process with a server. -/
structure Process where
  pid : Int
  name : String := ""
  threads : List (Nat × String) := []
  trace : TraceState.State := {}
  /-- The names of the endpoints that were added to the server, each once (a map, transport.cpp:59-64). -/
  serves : List String
  /-- It does not answer the question for its endpoints within the time the tool waits. -/
  slow : Bool := false

/-- The endpoints that `DefaultExposer` adds, common.py:45-51. The names: endpoint_introspect.cpp:38, endpoint_process_info.cpp:43, endpoint_trace_mapping.cpp:42, endpoint_native_trace_sender.cpp:45. -/
def defaults : List String := ["introspect", "process_info", "scope_tracing", "native_trace_sender"]

/-- `DefaultExposer(name)` in a process, after which the program adds other endpoints to the server. `name` is `sys.argv[0]` if it is left out, common.py:36. -/
def exposed (pid : Int) (name : String) (threads : List (Nat × String)) (trace : TraceState.State) (more : List String) : Process :=
  { pid := pid, name := name, threads := threads, trace := trace, serves := defaults ++ more.filter (· ∉ defaults) }

inductive Command where
  | catapultServer | discover | record | traceConfigure
  deriving DecidableEq

/-- The factories that the commands register, __main__.py:41-49 (`run_catapult_server`), 85-86 (`run_discover`), 124-126 (`run_record`), 163-166 (`run_trace_configure`). -/
def registers : Command → List String
  | .catapultServer => ["native_trace_sender", "scope_tracing", "process_info", "trace_configurator"]
  | .discover => ["process_info"]
  | .record => ["native_trace_sender", "scope_tracing", "process_info"]
  | .traceConfigure => ["trace_configurator", "process_info"]

/-- The manager of the tool before its first round, __main__.py:83-86. -/
def manager (c : Command) : Manager.State := (registers c).foldl (fun s n => Manager.addFactory n 1 s) {}

/-- How a process appears to the manager. The introspection endpoint answers with all names, endpoint_introspect.cpp:47-58; without one there is no answer. -/
def dest (i : Nat) (p : Process) : Manager.Dest :=
  ⟨i, .ok (some true), if "introspect" ∈ p.serves ∧ p.slow = false then .data (some (.obj [("endpoints", .arr (p.serves.map .str))])) else .late⟩

/-- `poller.manage()` of a command, __main__.py:88 and 168. -/
def discovery (c : Command) (l : List Process) : Manager.State × Res Unit :=
  Manager.manage ⟨fun _ => true, l.mapIdx dest, fun _ _ => .ok (some 0)⟩ (manager c)

/-- `name in poller.endpoints()[transport]`, for the transport to the `i`th process, endpoint_manager_poll.cpp:149-153. -/
def has (s : Manager.State) (i : Nat) (name : String) : Bool :=
  match s.transports.lookup i with
  | none => false
  | some t => (((s.tables.lookup t).getD []).lookup name).isSome

/-- A process as a command sees it after its discovery round. -/
def seen (s : Manager.State) (i : Nat) (p : Process) : PyTool.Proc :=
  { pid := p.pid, name := p.name, threads := p.threads, trace := p.trace, supported := p.serves,
    hasConfig := has s i "trace_configurator", hasInfo := has s i "process_info", hasIntrospect := has s i "introspect" }

def seenAll (c : Command) (l : List (Process × PyTool.Env)) : List (PyTool.Proc × PyTool.Env) :=
  l.mapIdx fun i x => (seen (discovery c (l.map (·.1))).1 i x.1, x.2)

/-- `python3 -m scalopus trace_configure`, __main__.py:160-228 -/
def traceConfigure (a : PyTool.Args) (l : List (Process × PyTool.Env)) : PyTool.Outcome := PyTool.traceConfigure a (seenAll .traceConfigure l)

/-- `python3 -m scalopus discover`, __main__.py:82-117 -/
def discover (l : List (Process × PyTool.Env)) : List PyTool.Listed × Res Unit := PyTool.discover (seenAll .discover l)

end Scalopus.Exposer
