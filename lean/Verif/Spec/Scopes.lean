import Verif.Model.Scopes

/-!
# Specification of traced programs

Which events a program may emit, given the two switches, without any reference to how switches are stored.
-/

namespace Scalopus.Scopes

open TraceState

/-- What one tracepoint emits: its record if both switches are on. -/
def emits (be : Backend) (proc thr : Bool) (p : Point) : List Record :=
  if proc && thr then (record be p).toList else []

/-- `Trace be proc thr p l e`: started with the given switches, `p` may emit `l` (ending with an exception iff `e`). -/
inductive Trace (be : Backend) : Bool → Bool → Prog → List Record → Bool → Prop where
  | skip {P T : Bool} : Trace be P T .skip [] false
  | seq {P T : Bool} {p q : Prog} {l1 l2 : List Record} {e : Bool} : Trace be P T p l1 false → Trace be P T q l2 e →
      Trace be P T (.seq p q) (l1 ++ l2) e
  | seqThrow {P T : Bool} {p q : Prog} {l : List Record} : Trace be P T p l true → Trace be P T (.seq p q) l true
  | left {P T : Bool} {p q : Prog} {l : List Record} {e : Bool} : Trace be P T p l e → Trace be P T (.choice p q) l e
  | right {P T : Bool} {p q : Prog} {l : List Record} {e : Bool} : Trace be P T q l e → Trace be P T (.choice p q) l e
  | done {P T : Bool} {p : Prog} : Trace be P T (.loop p) [] false
  | again {P T : Bool} {p : Prog} {l1 l2 : List Record} {e : Bool} : Trace be P T p l1 false → Trace be P T (.loop p) l2 e →
      Trace be P T (.loop p) (l1 ++ l2) e
  | loopThrow {P T : Bool} {p : Prog} {l : List Record} : Trace be P T p l true → Trace be P T (.loop p) l true
  /-- a scope emits its entry, what is inside, and its exit, whether or not an exception passes -/
  | scope {P T : Bool} {id : Nat} {body : Prog} {l : List Record} {e : Bool} : Trace be P T body l e →
      Trace be P T (.scope id body) (emits be P T (.entry id) ++ l ++ emits be P T (.exit id)) e
  /-- inside a scoped switch the switch has the new value -/
  | threadSwitch {P T b : Bool} {body : Prog} {l : List Record} {e : Bool} : Trace be P b body l e → Trace be P T (.switch false b body) l e
  | processSwitch {P T b : Bool} {body : Prog} {l : List Record} {e : Bool} : Trace be b T body l e → Trace be P T (.switch true b body) l e
  | mark {P T : Bool} {id : Nat} {v : Level} : Trace be P T (.mark id v) (emits be P T (.mark id v)) false
  | count {P T : Bool} {id : Nat} {v : Int} : Trace be P T (.count id v) (emits be P T (.count id v)) false
  | throw {P T : Bool} : Trace be P T .throw [] true
  | tryOk {P T : Bool} {p h : Prog} {l : List Record} : Trace be P T p l false → Trace be P T (.tryCatch p h) l false
  | tryCatch {P T : Bool} {p h : Prog} {l1 l2 : List Record} {e : Bool} : Trace be P T p l1 true → Trace be P T h l2 e →
      Trace be P T (.tryCatch p h) (l1 ++ l2) e

/-- Properly nested events: every entry is followed by nested events and the exit with the same id. -/
inductive Nested (be : Backend) : List Record → Prop where
  | nil : Nested be []
  | append {l1 l2 : List Record} : Nested be l1 → Nested be l2 → Nested be (l1 ++ l2)
  | mark {id : Nat} {v : Level} {r : Record} : record be (.mark id v) = some r → Nested be [r]
  | count {id : Nat} {v : Int} {r : Record} : record be (.count id v) = some r → Nested be [r]
  | wrap {id : Nat} {l : List Record} {r1 r2 : Record} : record be (.entry id) = some r1 → record be (.exit id) = some r2 → Nested be l →
      Nested be ([r1] ++ l ++ [r2])

/-- The events of one thread in the log. -/
def eventsOf (t : Nat) (log : List Obs) : List Record :=
  log.filterMap fun o => match o with | .event t' _ r => if t' = t then some r else none | _ => none

end Scalopus.Scopes
