import Verif.Model.Base

/-!
# The two pipes of babeltrace

What babeltrace writes to its standard output goes through a pipe to the parser, and what it writes to its standard error, warnings about lost events for example, through another pipe
(scalopus_tracing/include_consumer/scalopus_tracing/subprocess.hpp:29-40, 137-152). `BabeltraceTool` reads the first one (babeltrace_tool.cpp:74-75) and never the second one. A write blocks while its pipe is
full; a pipe has a capacity.

Simplifications: a line is written, and read, as a whole.
-/

namespace Scalopus.LttngStderr

inductive Op where
  /-- babeltrace prints this line -/
  | line (l : Nat)
  /-- and this many bytes of warnings -/
  | err (n : Nat)
  deriving DecidableEq

structure State where
  /-- what babeltrace will write, unless it is held up -/
  todo : List Op
  /-- lines in the pipe of the standard output -/
  out : List Nat := []
  /-- bytes in the pipe of the standard error -/
  err : Nat := 0
  /-- lines that the parser has handled -/
  parsed : List Nat := []

inductive Act where
  /-- babeltrace writes -/
  | child
  /-- the parser reads a line: babeltrace_parser.cpp:72-116 -/
  | parser
  deriving DecidableEq

/-- The capacities of the pipes: lines of the standard output, bytes of the standard error. -/
structure Caps where
  out : Nat
  err : Nat

def step (c : Caps) (s : State) : Act → Option State
  | .child => match s.todo with
    | [] => none
    | .line l :: r => if s.out.length < c.out then some { s with todo := r, out := s.out ++ [l] } else none
    | .err n :: r =>
      if n ≤ c.err - s.err then some { s with todo := r, err := s.err + n }
      else if c.err - s.err = 0 then none
      else some { s with todo := .err (n - (c.err - s.err)) :: r, err := s.err + (c.err - s.err) }
  | .parser => match s.out with
    | [] => none
    | l :: r => some { s with out := r, parsed := s.parsed ++ [l] }

def run (c : Caps) (s : State) (as : List Act) : Option State := as.foldlM (step c) s

end Scalopus.LttngStderr
