import Verif.Model.ThreadNames

/-!
# Specification of thread names: every thread carries its own name
-/

namespace Scalopus.ThreadNames.Spec

/-- A thread, the name that it last set, the macros that it has passed. -/
structure Thread where
  tid : Nat
  name : Option String := none
  passed : List Nat := []
  ended : Bool := false
  deriving Repr, DecidableEq

def step (ths : List Thread) : Act → List Thread
  | .start tid => if ths.any (fun th => th.tid = tid ∧ th.ended = false) then ths else ths ++ [{ tid := tid }]
  | .setCurrent t name => ths.modify t fun th => { th with name := some name }
  | .pass t k name => ths.modify t fun th => if k ∈ th.passed then th else { th with name := some name, passed := k :: th.passed }
  | .setOther _ _ => ths
  | .exit t => ths.modify t fun th => { th with ended := true }

def run (ths : List Thread) (acts : List Act) : List Thread := acts.foldl step ths

end Scalopus.ThreadNames.Spec
