import Verif.Model.PyMarks

/-!
# The example programs in Python

Models the programs in scalopus_python/examples: readme_example.py:37-89, readme_example_lttng.py:35-81, embedded_catapult_server.py:37-91, python_provider_example.py:36-134 and showcase_counters.py:37-52.

Simplifications: what is recorded has names instead of ids (that each name has its id and is shown is the subject of `Model/PyMarks` and `Model/PyTransparent`). Waiting and printing do nothing. The set-up (exposer, manager, server, name of
the thread) succeeds; it is the subject of `Model/Exposer`, `Model/PyPoll` and `Model/PyServer`. `while True` is any number of rounds. A program is not interrupted by a signal.
-/

namespace Scalopus.PyExamples

open PyMarks (Level)

inductive Ev where
  | enter (name : String)
  | leave (name : String)
  | mark (name : String) (l : Level)
  | count (name : String) (v : Int)
  deriving Repr, DecidableEq

inductive Stmt where
  /-- `time.sleep`, `print` -/
  | nothing
  | seq (a b : Stmt)
  /-- a call of a function with `@traced`, tracing.py:184-188; `with trace_section(name)`, tracing.py:124-132 -/
  | traced (name : String) (body : Stmt)
  /-- a call of a function with `@suppressed`, tracing.py:228-232; `with ThreadStateSwitcher(False)`, tracing.py:217-221 -/
  | suppressed (body : Stmt)
  /-- `tracing.HELPER(name).global_()` or the like -/
  | mark (helper name : String) (l : Level)
  /-- `tracing.HELPER(name).count(v)` -/
  | count (helper name : String) (v : Int)
  deriving Repr, DecidableEq

structure St where
  on : Bool := true
  events : List Ev := []
  deriving Repr, DecidableEq

def emit (s : St) (e : Ev) : St := if s.on then { s with events := s.events ++ [e] } else s

/-- Runs a statement; `true`: it has raised an exception, which leaves all the `with` blocks around it. `has` are the helpers that the module has: one that is missing is an AttributeError. -/
def exec (has : String → Bool) : Stmt → St → Bool × St
  | .nothing, s => (false, s)
  | .seq a b, s => match exec has a s with
    | (true, s1) => (true, s1)
    | (false, s1) => exec has b s1
  | .traced n body, s =>
    let r := exec has body (emit s (.enter n))
    (r.1, emit r.2 (.leave n))
  | .suppressed body, s =>
    let r := exec has body { s with on := false }
    (r.1, { r.2 with on := s.on })
  | .mark h n l, s => if has h then (false, emit s (.mark n l)) else (true, s)
  | .count h n v, s => if has h then (false, emit s (.count n v)) else (true, s)

/-- `while True:`, up to `n` rounds; an exception ends the program. -/
def loop (has : String → Bool) (body : Nat → Stmt) : Nat → Bool × St
  | 0 => (false, {})
  | n + 1 => match loop has body n with
    | (true, s) => (true, s)
    | (false, s) => exec has (body n) s

/-- The helpers of scalopus.tracing. -/
def tracing (h : String) : Bool := (PyMarks.moduleHelper h).isSome

/-- `fooBarBuz`, readme_example.py:37-39 and in the others -/
def fooBarBuz : Stmt := .traced "fooBarBuz" .nothing

/-- `c`, readme_example.py:47-52 and in the others -/
def fnC : Stmt := .traced "c" (.seq .nothing (.seq .nothing (.seq fooBarBuz .nothing)))

/-! ## readme_example.py -/

/-- `d`, readme_example.py:41-45 -/
def readmeD : Stmt := .suppressed (.seq .nothing (.seq fooBarBuz .nothing))

/-- `b`, readme_example.py:54-62 -/
def readmeB : Stmt := .traced "my trace name" (.seq .nothing (.seq .nothing (.seq fnC (.seq (.mark "trace_mark" "between c and d" .global) (.seq readmeD .nothing)))))

/-- `a`, readme_example.py:64-70 -/
def readmeA : Stmt := .traced "a" (.seq .nothing (.seq .nothing (.seq (.mark "trace_mark" "between_a_and_b" .process) (.seq readmeB .nothing))))

/-- readme_example.py:77-89 -/
def readme : Stmt :=
  .seq (.traced "my_relevant_scope" (.seq .nothing readmeA)) (.seq (.traced "My Section" (.seq .nothing readmeA)) (.suppressed (.seq fooBarBuz .nothing)))

/-! ## The others -/

/-- `b`, embedded_catapult_server.py:48-53 and in the others -/
def fnB : Stmt := .traced "b" (.seq .nothing (.seq .nothing (.seq fnC .nothing)))

/-- `a`, embedded_catapult_server.py:55-60 and in the others -/
def fnA : Stmt := .traced "a" (.seq .nothing (.seq .nothing (.seq fnB .nothing)))

/-- The loops of embedded_catapult_server.py:83-91, readme_example_lttng.py:73-81, python_provider_example.py:126-134 -/
def sections : Stmt := .seq (.traced "my_relevant_scope" (.seq .nothing fnA)) (.traced "My Section" (.seq .nothing fnA))

/-- The loop of showcase_counters.py:41-52 with `steps = n + 1`; `fast` and `slow` are the values `b` and `a` of each round (47-48): what is called fast has the longer period. -/
def counters (fast slow : Nat → Int) (n : Nat) : Stmt :=
  .seq .nothing (.seq (.count "trace_count" "sinusoids/fast" (fast n)) (.seq (.count "trace_count" "sinusoids/slow" (slow n)) (.count "trace_count" "ramp" (((n + 1) % 100 : Nat) : Int))))

/-! ## The source of python_provider_example.py -/

/-- An event of the source: begin or end, its time, and the time of the begin since the start of the interval (from which its name is made). -/
structure SrcEv where
  begin : Bool
  ts : Nat
  since : Nat
  deriving Repr, DecidableEq

/-- A second, in units of 2^-22 s: until the year 2038 every value of `time.time()` is a multiple of it, and `t + 1` is exact. The products with 1e6, which are rounded, are left out: `ts` is the time itself. -/
def second : Nat := 2 ^ 22

/-- `finishInterval`, python_provider_example.py:49-65. -/
def source (start stop t : Nat) : List SrcEv :=
  if _h : t < stop then ⟨true, t, t - start⟩ :: ⟨false, t + second, t - start⟩ :: source start stop (t + second) else []
termination_by stop - t
decreasing_by simp [second]; omega

end Scalopus.PyExamples
