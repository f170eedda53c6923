import Verif.Model.Base

/-!
# Starting and halting babeltrace

Models `BabeltraceTool::init`, `halt` and the destructor (scalopus_tracing/src/lttng/babeltrace_tool.cpp:49-102), `BabeltraceParser::process` as far as it starts and ends
(babeltrace_parser.cpp:53-62, 72, 118-131), `BabeltraceParser::halt` (138-143) and the process handling of `subprocess::popen`
(include_consumer/scalopus_tracing/subprocess.hpp:112-163).
-/

namespace Scalopus.LttngTool

/-- What a process executes. -/
inductive Program where
  /-- the program that uses the tool -/
  | own
  /-- babeltrace or lttng -/
  | tool
  deriving DecidableEq

/-- A process: what it executes and, if that is the program itself, the value of `pid` in its `popen` object. -/
structure Process where
  program : Program
  pid : Int
  deriving DecidableEq

/-- `popen::run` and `child`, subprocess.hpp:112-163: the processes after it, given what `fork`, `dup2` and `execvp` do. `child` returns if one of the latter fails, and the forked
    process goes on in `run`. (If `fork` fails it returns -1.) -/
def run (fork : Option Nat) (dupOk execOk : Bool) : List Process :=
  match fork with
  | none => [⟨.own, -1⟩]
  | some child => [⟨.own, child⟩, if dupOk && execOk then ⟨.tool, 0⟩ else ⟨.own, 0⟩]

/-- The target of a signal: `kill(pid, sig)` of POSIX. -/
inductive Target where
  /-- the process with this id -/
  | process (pid : Nat)
  /-- all processes of the caller's process group -/
  | group
  /-- all processes that the caller may signal -/
  | everyone
  /-- all processes of this group -/
  | otherGroup (pgid : Nat)
  deriving DecidableEq

/-- `kill`, as used in babeltrace_tool.cpp:98. -/
def killTarget (pid : Int) : Target :=
  if 0 < pid then .process pid.toNat
  else if pid = 0 then .group
  else if pid = -1 then .everyone
  else .otherGroup (-pid).toNat

/-- The thread of the parser. -/
inductive Worker where
  | none
  /-- The thread was started and has not yet stored `processing_` (babeltrace_parser.cpp:62). -/
  | starting
  /-- At the head of the loop, about to load `processing_` (72). -/
  | loop
  /-- In `fgets`, waiting for the rest of a line (88). -/
  | reading
  | ended
  deriving DecidableEq

/-- The thread that uses the tool. -/
inductive Main where
  /-- no process was started -/
  | idle
  /-- `process_` is set, the worker was started -/
  | running
  /-- In `halt`, after `parser_->halt()`: about to join the worker (babeltrace_tool.cpp:87-90). -/
  | joining
  deriving DecidableEq

structure State where
  main : Main := .idle
  worker : Worker := .none
  processing : Bool := false

inductive Act where
  /-- `init`, with a process that could be started. -/
  | init
  /-- `halt`: `processing_` is set to false and the sessions are cleared. -/
  | halt
  /-- The join returns and the process is ended, babeltrace_tool.cpp:92-101. -/
  | join
  /-- The worker takes a step. -/
  | worker
  /-- babeltrace prints part of a line -/
  | partLine
  /-- babeltrace prints the rest of it -/
  | restOfLine
  /-- babeltrace ends -/
  | eof
  deriving DecidableEq

/-- Whether a step is one of this program, not of babeltrace or of the user of the tool. -/
def Act.internal : Act → Bool
  | .join => true
  | .worker => true
  | _ => false

def step (s : State) : Act → Option State
  | .init => if s.main = .idle then some { s with main := .running, worker := .starting } else none
  | .halt => if s.main = .running then some { s with main := .joining, processing := false } else none
  | .join => if s.main = .joining ∧ s.worker = .ended then some { s with main := .idle, worker := .none } else none
  | .worker => match s.worker with
    | .starting => some { s with worker := .loop, processing := true }
    -- 72; the body of the loop without output is left out
    | .loop => some { s with worker := if s.processing then .loop else .ended }
    | _ => none
  -- only a worker in the loop, which is about to wait for output, can be woken by it
  | .partLine => if s.worker = .loop ∧ s.processing then some { s with worker := .reading } else none
  | .restOfLine => if s.worker = .reading then some { s with worker := .loop } else none
  -- at the end of the file, 118-122
  | .eof => if s.worker = .loop ∨ s.worker = .reading then some { s with worker := .loop, processing := false } else none

inductive Reachable : State → Prop
  | init : Reachable {}
  | step {s s' : State} {a : Act} : Reachable s → step s a = some s' → Reachable s'

end Scalopus.LttngTool
