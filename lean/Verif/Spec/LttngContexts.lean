import Verif.Spec.LttngSource

/-!
# Specification: lines with further contexts

A user may record more contexts than the two that the library needs (scalopus_tracing/test/start:12-16), for example the name of the process or of the thread
(`lttng add-context -u -t procname`). They are printed in the order in which they were added, names in quotes. What is shown should be the same as without them.
-/

namespace Scalopus.LttngSource.Spec

open Ctf (Text)
open Ctf.Spec (Line Field Value)

/-- An event, and further contexts that were added before, between and after the two ids. -/
structure Recorded where
  event : Traced
  before : List Field
  between : List Field
  after : List Field

def vpid (n : Nat) : Field := ⟨"vpid".toList, .int n⟩

def pthreadId (n : Nat) : Field := ⟨"pthread_id".toList, .int n⟩

/-- The line that babeltrace prints. -/
def Recorded.line (r : Recorded) : Line :=
  { r.event.line with context := r.before ++ vpid r.event.pid :: r.between ++ pthreadId r.event.tid :: r.after }

/-- The further contexts. -/
def Recorded.further (r : Recorded) : List Field := r.before ++ r.between ++ r.after

/-- What babeltrace prints: events of this library, and those of other tracepoints. -/
inductive Printed where
  | ours (r : Recorded)
  | other (l : Line)

/-- The line. -/
def Printed.text : Printed → Text
  | .ours r => r.line.text
  | .other l => l.text

/-- The line if the further contexts had not been added. -/
def Printed.plain : Printed → Text
  | .ours r => r.event.line.text
  | .other l => l.text

end Scalopus.LttngSource.Spec
