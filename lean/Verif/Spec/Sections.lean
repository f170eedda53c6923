import Verif.Model.Sections
import Verif.Spec.NativeSource

/-!
# Specification: the sections that a viewer draws, and those that a thread should have

The viewer draws one row for each thread of each process. It goes through the entries in the order in which it gets them; an entry with phase `B` begins a section,
one with phase `E` ends the section of this row that was begun last (trace event format, duration events).
-/

namespace Scalopus.Sections

open NativeSource.Spec (Shown)

/-- A section of a row: its name, its begin and its end, and how many sections it lies in. -/
structure Section where
  name : String
  start : ℚ
  stop : ℚ
  depth : Nat
  deriving DecidableEq

/-- A row: the sections that have begun and not ended, the last one first, and those that have ended, in the order of their ends. -/
structure Row where
  opened : List (String × ℚ) := []
  sections : List Section := []
  deriving DecidableEq

def Row.step (r : Row) (x : Shown) : Row :=
  if x.ph = "B" then { r with opened := (x.name, x.ts) :: r.opened }
  else if x.ph = "E" then
    match r.opened with
    | [] => r
    | (n, t) :: rest => { opened := rest, sections := r.sections ++ [⟨n, t, x.ts, rest.length⟩] }
  else r

/-- The row of thread `tid` of process `pid`. -/
def look (pid : Int) (tid : Nat) (l : List Shown) : Row := (l.filter fun x => x.pid = pid ∧ x.tid = tid).foldl Row.step {}

/-- The sections that a thread that is in `d` scopes should have: each scope with the name of its tracepoint, from its entry to its own exit. `time` says how a time is shown. -/
def Prog.sections (name : Nat → String) (time : Nat → ℚ) : Nat → Prog → List Section
  | _, .done => []
  | d, .scope id start stop body rest => body.sections name time (d + 1) ++ ⟨name id, time start, time stop, d⟩ :: rest.sections name time d
  | d, .mark _ _ _ rest => rest.sections name time d
  | d, .count _ _ _ rest => rest.sections name time d

/-- The sections within the scopes that are left after the recording. -/
def openedSections (name : Nat → String) (time : Nat → ℚ) : Nat → List ((Nat × Nat) × Prog) → List Section
  | _, [] => []
  | d, (_, p) :: l => p.sections name time (d + 1) ++ openedSections name time (d + 1) l

/-- What should be shown of a thread: the scopes entered and left during the recording. Of a scope that was entered before the recording nothing is shown; one that is left
    after it has begun and not ended. -/
def History.row (name : Nat → String) (time : Nat → ℚ) (h : History) : Row where
  sections := h.left.flatMap (fun x => x.1.sections name time 0) ++ (h.inside.sections name time 0 ++ openedSections name time 0 h.opened)
  opened := (h.opened.map fun x => (name x.1.1, time x.1.2)).reverse

end Scalopus.Sections
