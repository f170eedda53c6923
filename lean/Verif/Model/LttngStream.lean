import Verif.Model.Ctf

/-!
# Reading the output of babeltrace

Models the loop of `BabeltraceParser::process` (scalopus_tracing/src/lttng/babeltrace_parser.cpp:61-131) up to the point where a line has been read, with the pipe and the buffer of
the C library between babeltrace and the parser. A character is a byte. What is done with a line is in `Model/LttngSessions`; halting is in `Model/LttngTool`. `select` failing
(80-83) only repeats the loop and is left out; a pipe has no exceptional condition (123-127).
-/

namespace Scalopus.LttngStream

open Ctf (Text)

/-- The size of the array the line is read into, minus the terminating zero (babeltrace_parser.cpp:63, 88). -/
def limit : Nat := 1023

/-- The size of the buffer of the FILE that `stdio_filebuf::file()` returns (subprocess.hpp:96-99): libstdc++ opens it with `fdopen`, and the C library gives a pipe a buffer of
    `st_blksize` bytes. (The size 1 in subprocess.hpp:129 is that of the buffer of the C++ stream, which is not used.) -/
def bufSize : Nat := 4096

/-- Where the loop is. -/
inductive Pc where
  /-- about to wait in `select` (79) -/
  | poll
  /-- in `fgets` (88), having taken `acc` -/
  | gets (acc : Text)
  /-- the loop has ended -/
  | done

structure State where
  /-- What babeltrace has printed and the parser's process has not read. -/
  pipe : Text := []
  /-- babeltrace has ended, so that the pipe will get no more. -/
  closed : Bool := false
  /-- The buffer of the FILE. -/
  buf : Text := []
  pc : Pc := .poll
  /-- The strings passed on, 84-91. -/
  lines : List Text := []

/-- `std::string(tmp.data())` (90) ends at the first zero byte. -/
def cString (t : Text) : Text := t.takeWhile (· ≠ Char.ofNat 0)

/-- What follows `fgets` having returned `acc`, 88-122: a string that is not empty is passed on; at the end of the file the loop ends. -/
def passOn (s : State) (acc : Text) (eof : Bool) : State :=
  { s with lines := if cString acc = [] then s.lines else s.lines ++ [cString acc], pc := if eof then .done else .poll }

/-- A step of the loop; `n` is how much a `read` returns, if it can return that much. -/
def parserStep (s : State) (n : Nat) : Option State :=
  match s.pc with
  | .poll =>
    -- the descriptor is readable if there is something in the pipe or if it was closed: what is in the buffer does not count
    if s.pipe ≠ [] ∨ s.closed then some { s with pc := .gets [] } else none
  | .gets acc =>
    if acc.length = limit ∨ acc.getLast? = some '\n' then some (passOn s acc false)
    else match s.buf with
      | c :: buf => some { s with buf := buf, pc := .gets (acc ++ [c]) }
      | [] =>
        if s.pipe ≠ [] then
          if 0 < n ∧ n ≤ bufSize then some { s with buf := s.pipe.take n, pipe := s.pipe.drop n } else none
        else if s.closed then some (passOn s acc true)
        -- the read blocks
        else none
  | .done => none

inductive Act where
  /-- babeltrace prints something -/
  | print (t : Text)
  /-- babeltrace ends -/
  | close
  | parser (n : Nat)

def step (s : State) : Act → Option State
  | .print t => if s.closed then none else some { s with pipe := s.pipe ++ t }
  | .close => some { s with closed := true }
  | .parser n => parserStep s n

/-- The states reached while babeltrace printed `t`. -/
inductive Reachable : Text → State → Prop
  | init : Reachable [] {}
  | print {t t' : Text} {s s' : State} : Reachable t s → step s (.print t') = some s' → Reachable (t ++ t') s'
  | close {t : Text} {s s' : State} : Reachable t s → step s .close = some s' → Reachable t s'
  | parser {t : Text} {s s' : State} {n : Nat} : Reachable t s → step s (.parser n) = some s' → Reachable t s'

end Scalopus.LttngStream
