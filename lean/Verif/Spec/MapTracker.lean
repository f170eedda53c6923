import Verif.Model.MapTracker

/-!
# Specification of the map: calls executed one at a time on a mathematical map
-/

namespace Scalopus.MapTracker.Spec

variable {K V : Type} [DecidableEq K]

/-- The map after a call. -/
def apply (m : K → Option V) : Op K V → K → Option V
  | .insert key value => fun k => if k = key then some value else m k
  | .erase key => fun k => if k = key then none else m k
  | .clear => fun _ => none
  | _ => m

/-- The results that a call may have. -/
def Allowed (m : K → Option V) : Op K V → Resp K V → Prop
  | .getMap, r => ∃ l, r = .map l ∧ (l.map (·.1)).Nodup ∧ ∀ k v, (k, v) ∈ l ↔ m k = some v
  | .getValue k, r => r = .value (m k)
  | .exists k, r => r = .bool (m k).isSome
  | _, r => r = .done

/-- A history in which every call has a result that is allowed where it stands. -/
def Valid (m : K → Option V) : List (Nat × Op K V × Resp K V) → Prop
  | [] => True
  | (_, op, r) :: h => Allowed m op r ∧ Valid (apply m op) h

/-- The map after a history. -/
def after (m : K → Option V) : List (Nat × Op K V × Resp K V) → K → Option V
  | [] => m
  | (_, op, _) :: h => after (apply m op) h

end Scalopus.MapTracker.Spec
