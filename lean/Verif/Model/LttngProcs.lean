import Verif.Model.Base

/-!
# The processes and descriptors of LTTng tools

What `BabeltraceTool::init` and `halt` (scalopus_tracing/src/lttng/babeltrace_tool.cpp:49-76, 83-102) do to the system: `subprocess::popen` (scalopus_tracing/include_consumer/scalopus_tracing/subprocess.hpp:29-40, 58-66, 85-94, 112-135)
makes three pipes, forks, and keeps one end of each pipe; `halt` closes the first, sends `SIGINT` to the process and destroys the object, which closes the other two. Nobody calls `wait` (78-83).

The system: a table of processes with a limit. A process that has ended stays in the table until its parent waits for it, unless the parent ignores `SIGCHLD`; the parents of other processes wait for them. The system picks any number that is not
in the table for a new process. The worker thread and what the child does with the pipes are not part of this model (C70, C71, C105); neither is a child whose `execvp` fails (C72).
-/

namespace Scalopus.LttngProcs

/-- A process in the table. `owner`: which start of a tool of this program made it, `none`: not a child of this program. -/
structure Entry where
  pid : Nat
  owner : Option Nat
  ended : Bool := false
  deriving Repr, DecidableEq

/-- What `::kill` reached, babeltrace_tool.cpp:98 -/
inductive Signal where
  | process (pid : Nat) (owner : Option Nat)
  /-- `kill(-1, SIGINT)` -/
  | everyone
  deriving Repr, DecidableEq

/-- `process_` of a tool: `none` is the null pointer, `some none` has the pid -1 because `fork` failed (subprocess.hpp:116). -/
abbrev Tool := Option (Option Nat)

structure State where
  limit : Nat
  /-- the program ignores `SIGCHLD` -/
  ignoring : Bool := false
  table : List Entry := []
  starts : Nat := 0
  tools : List Tool := []
  /-- descriptors that the tools have opened and not closed -/
  fds : Nat := 0
  signals : List Signal := []
  deriving Repr, DecidableEq

inductive Act where
  | newTool
  /-- `init` of a tool; `pid` is what the system picks, `pipes` how many pipes can be made -/
  | init (tool pid pipes : Nat)
  | halt (tool : Nat)
  /-- a process ends -/
  | exits (pid : Nat)
  /-- another program starts a process -/
  | foreign (pid : Nat)
  deriving Repr, DecidableEq

/-- The system: a process has this number. -/
def taken (s : State) (pid : Nat) : Bool := s.table.any (·.pid == pid)

/-- `popen`: three pipes, `fork`, and three ends closed (subprocess.hpp:32-39, 116-134). After a failed `pipe` the exception leaves the ends of the earlier ones open (36). -/
def popen (s : State) (i pid pipes : Nat) : State :=
  if pipes < 3 then { s with fds := s.fds + 2 * pipes }
  else if s.limit ≤ s.table.length then { s with tools := s.tools.set i (some none), fds := s.fds + 3 }
  else if taken s pid then s
  else { s with tools := s.tools.set i (some (some pid)), fds := s.fds + 3, starts := s.starts + 1, table := s.table ++ [{ pid := pid, owner := some s.starts }] }

/-- babeltrace_tool.cpp:98. What `kill(pid, SIGINT)` reaches: a process that has ended but is in the table gets nothing, and neither does a number that is not in the table. -/
def reached (s : State) : Option Nat → List Signal
  | none => [.everyone]
  | some p =>
    match s.table.find? (·.pid == p) with
    | some e => if e.ended then [] else [.process p e.owner]
    | none => []

/-- A process ends (the system; nobody calls `wait`, subprocess.hpp:78-83). -/
def ends (s : State) (pid : Nat) : List Entry :=
  if s.ignoring then s.table.filter (·.pid != pid)
  else (s.table.filter fun e => e.pid != pid || e.owner.isSome).map fun e => if e.pid = pid then { e with ended := true } else e

/-- `BabeltraceTool()`, `init` (babeltrace_tool.cpp:49-76), `halt` (83-102), and the system. -/
def step (s : State) : Act → State
  | .newTool => { s with tools := s.tools ++ [none] }
  | .init i pid pipes =>
    match s.tools[i]? with
    | some none => popen s i pid pipes
    | _ => s    -- babeltrace_tool.cpp:51-54
  | .halt i =>
    match s.tools[i]? with
    | some (some p) => { s with signals := s.signals ++ reached s p, tools := s.tools.set i none, fds := s.fds - 3 }
    | _ => s    -- babeltrace_tool.cpp:93
  | .exits pid => { s with table := ends s pid }
  | .foreign pid => if s.limit ≤ s.table.length ∨ taken s pid then s else { s with table := s.table ++ [{ pid := pid, owner := none }] }

def run (s : State) (as : List Act) : State := as.foldl step s

end Scalopus.LttngProcs
