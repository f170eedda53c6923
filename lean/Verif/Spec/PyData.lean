import Verif.Model.PyData
import Mathlib.Data.List.Forall2

/-!
# What data a Python object stands for
-/

namespace Scalopus.PyData

open Protocol

/-- The object is an integer, or counts as one, and its value is that of the byte. -/
inductive IsByte : Obj → UInt8 → Prop
  | int (n : Int) (b : UInt8) : n = b.toNat → IsByte (.int n) b
  | number (n : Int) (b : UInt8) : n = b.toNat → IsByte (.number n) b
  | true : IsByte (.bool true) 1
  | false : IsByte (.bool false) 0

/-- The object stands for these bytes: a string for its UTF-8 encoding, a list or a buffer for its items. -/
inductive Denotes : Obj → Bytes → Prop
  | str (s : String) (b : Bytes) : String.fromUTF8? ⟨b.toArray⟩ = some s → Denotes (.str s) b
  | bytes (b : Bytes) : Denotes (.bytes b) b
  | bytearray (b : Bytes) : Denotes (.bytearray b) b
  | buffer (l : List Obj) (b : Bytes) : List.Forall₂ IsByte l b → Denotes (.buffer l) b
  | list (l : List Obj) (b : Bytes) : List.Forall₂ IsByte l b → Denotes (.list l) b

/-- The object is of a type that can be sent: a string, a list or a buffer. -/
def Sendable : Obj → Prop
  | .str _ => True
  | .badStr => True
  | .bytes _ => True
  | .bytearray _ => True
  | .buffer _ => True
  | .list _ => True
  | _ => False

end Scalopus.PyData
