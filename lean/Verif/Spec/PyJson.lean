import Verif.Model.PyJson

/-!
# Which values JSON and Python have in common
-/

namespace Scalopus.PyJson.Spec

open PyJson

/-- All integers in `j` satisfy `P`, and the keys of each object are in order (a JSON object is a `std::map`). -/
inductive Good (P : Int → Prop) : Json → Prop
  | null : Good P .null
  | bool (b : Bool) : Good P (.bool b)
  | int (n : Int) : P n → Good P (.int n)
  | float (f : UInt64) : Good P (.float f)
  | str (s : String) : Good P (.str s)
  | arr (l : List Json) : (∀ j ∈ l, Good P j) → Good P (.arr l)
  | obj (l : List (String × Json)) : (l.map Prod.fst).Pairwise (· < ·) → (∀ x ∈ l, Good P x.2) → Good P (.obj l)

/-- A number that JSON (as nlohmann::json represents it) can hold: a signed or an unsigned 64 bit integer. -/
def Holds64 (n : Int) : Prop := -(2 : Int) ^ 63 ≤ n ∧ n < 2 ^ 64

/-- A signed 64 bit integer. -/
def Signed64 (n : Int) : Prop := -(2 : Int) ^ 63 ≤ n ∧ n < 2 ^ 63

/-- `n` occurs in `j`. -/
inductive Occurs (n : Int) : Json → Prop
  | here : Occurs n (.int n)
  | arr (l : List Json) (j : Json) : j ∈ l → Occurs n j → Occurs n (.arr l)
  | obj (l : List (String × Json)) (x : String × Json) : x ∈ l → Occurs n x.2 → Occurs n (.obj l)

/-- A Python value made of None, bool, 64 bit int, float, str, lists and dicts with (different) strings as keys. -/
inductive Plain : Py → Prop
  | none : Plain .none
  | bool (b : Bool) : Plain (.bool b)
  | int (n : Int) : Signed64 n → Plain (.int n)
  | float (f : UInt64) : Plain (.float f)
  | str (s : String) : Plain (.str s)
  | list (l : List Py) : (∀ v ∈ l, Plain v) → Plain (.list l)
  | dict (l : List (String × Py)) : (l.map Prod.fst).Nodup → (∀ x ∈ l, Plain x.2) → Plain (.dict (l.map fun x => (Py.str x.1, x.2)))

/-- Equality of Python values: the order of the items of a dict does not matter. -/
inductive Same : Py → Py → Prop
  | refl (v : Py) : Same v v
  | list (l l' : List Py) : l.length = l'.length → (∀ (i : Nat) (v v' : Py), l[i]? = some v → l'[i]? = some v' → Same v v') → Same (.list l) (.list l')
  | dict (l l' : List (Py × Py)) : (l.map Prod.fst).Perm (l'.map Prod.fst) → (∀ k v v', (k, v) ∈ l → (k, v') ∈ l' → Same v v') → Same (.dict l) (.dict l')

end Scalopus.PyJson.Spec
