import Verif.Model.Recording

/-!
# Specification of recording intervals, on the log of observable events
-/

namespace Scalopus.Recording

variable {δ : Type}

/-- No start, stop or finish of source `i` begins in this part of the log. -/
def Undisturbed (i : Nat) (l : List (Obs δ)) : Prop := .starting i ∉ l ∧ .stopping i ∉ l ∧ .finishing i ∉ l

def taken (i : Nat) : Obs δ → List (Nat × δ)
  | .returned j ds => if j = i then ds else []
  | _ => []

/-- Everything that `finishInterval()` of source `i` returned. -/
def returnedBy (i : Nat) (l : List (Obs δ)) : List (Nat × δ) := l.flatMap (taken i)

end Scalopus.Recording
