import Verif.Spec.PyJson
import Verif.Spec.JsonText

/-!
# What a viewer should get for a Python value
-/

namespace Scalopus.PySource

open PyJson PyJson.Spec
open JsonText (J Text)

/-- The value of a text of digits. -/
def natValue : Nat → Text → Option Nat
  | acc, [] => some acc
  | acc, c :: t => if '0' ≤ c ∧ c ≤ '9' then natValue (10 * acc + (c.toNat - '0'.toNat)) t else none

/-- The value of a whole number in decimal. -/
def intValue : Text → Option Int
  | [] => none
  | ['-'] => none
  | '-' :: t => (natValue 0 t).map fun n => -(n : Int)
  | t => (natValue 0 t).map fun n => (n : Int)

/-- `j` is how the viewer sees the Python value; `fl` says what is written for a double. -/
inductive Shows (fl : UInt64 → J) : Py → J → Prop
  | none : Shows fl .none .null
  | bool (b : Bool) : Shows fl (.bool b) (.bool b)
  | int (n : Int) (t : Text) : intValue t = some n → Shows fl (.int n) (.num t)
  | float (bits : UInt64) : Shows fl (.float bits) (fl bits)
  | str (s : String) : Shows fl (.str s) (.str (some s.toList))
  | list (l : List Py) (js : List J) : l.length = js.length → (∀ (i : Nat) (v : Py) (j : J), l[i]? = some v → js[i]? = some j → Shows fl v j) → Shows fl (.list l) (.arr js)
  | dict (l : List (String × Py)) (m : List (JsonText.Str × J)) : (m.map Prod.fst).Perm (l.map fun x => some x.1.toList) →
      (∀ (k : String) (v : Py) (j : J), (k, v) ∈ l → (some k.toList, j) ∈ m → Shows fl v j) → Shows fl (.dict (l.map fun x => (Py.str x.1, x.2))) (.obj m)

/-- Values that can be converted to JSON: integers fit into 64 bits, keys are strings, and the elements of sets are ordered. (Objects of unknown types become null.) -/
inductive Convertible : Py → Prop
  | none : Convertible .none
  | bool (b : Bool) : Convertible (.bool b)
  | int (n : Int) : Signed64 n → Convertible (.int n)
  | float (f : UInt64) : Convertible (.float f)
  | str (s : String) : Convertible (.str s)
  | bytes (l : List UInt8) : Convertible (.bytes l)
  | list (l : List Py) : (∀ v ∈ l, Convertible v) → Convertible (.list l)
  | tuple (l : List Py) : (∀ v ∈ l, Convertible v) → Convertible (.tuple l)
  | dict (l : List (Py × Py)) : (∀ x ∈ l, ∃ k, x.1 = .str k) → (∀ x ∈ l, Convertible x.2) → Convertible (.dict l)
  | set (l : List Py) : (∀ v ∈ l, Convertible v) → (∀ js, pyToJsonList l = .ok js → ordered js = true) → Convertible (.set l)
  | other : Convertible .other

end Scalopus.PySource
