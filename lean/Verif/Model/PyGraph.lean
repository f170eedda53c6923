import Verif.Model.PyJson

/-!
# Conversion of Python objects that refer to each other

Models `pyToJson` (scalopus_python/lib/json_util.cpp:120-208) on the objects of a Python program, which refer to each other: an object may be in several containers, and a container may contain itself. `pyToJson` calls
itself for each element (170, 186, 198), without a limit, so that each level needs room on the stack. For objects that contain no others, and for what becomes of the elements, `PyJson.pyToJson` is used.
-/

namespace Scalopus.PyGraph

open PyJson

/-- An object. Objects are numbers; containers refer to their elements. The keys of a dict are values: that they are hashable keeps them from containing themselves. -/
inductive Node where
  /-- An object that refers to no others: a string, bytes, None, a boolean, a number, or something that is not converted. -/
  | leaf (v : Py)
  | list (l : List Nat)
  | tuple (l : List Nat)
  | dict (l : List (Py × Nat))
  | set (l : List Nat)

/-- The objects of the program. -/
abbrev Mem := Nat → Node

/-- `none`: the stack is used up, which ends the process. -/
abbrev Out (α : Type) := Option (Res α)

/-- What follows a call. -/
def andThen {α β : Type} : Out α → (α → Out β) → Out β
  | none, _ => none
  | some (.ok a), f => f a
  | some (.throws w), _ => some (.throws w)
  | some .ub, _ => some .ub
  | some .terminate, _ => some .terminate

/-- The loops over the elements of a sequence or a set, json_util.cpp:168-171, 196-199. -/
def convList (f : Nat → Out Json) : List Nat → Out (List Json)
  | [] => some (.ok [])
  | x :: l => andThen (f x) fun j => andThen (convList f l) fun js => some (.ok (j :: js))

/-- The loop over the items of a dict, 179-187. -/
def convItems (f : Nat → Out Json) : List (Py × Nat) → List (String × Json) → Out Json
  | [], m => some (.ok (.obj m))
  | (.str k, x) :: l, m => andThen (f x) fun j => convItems f l (assign m k j)
  | (.surrogates, x) :: _, _ => andThen (f x) fun _ => some (.throws "runtime_error")
  | (_, _) :: _, _ => some (.throws "type_error")

/-- `pyToJson` with room for `n` calls on the stack, 120-208. -/
def conv (m : Mem) : Nat → Nat → Out Json
  | 0, _ => none
  | n + 1, o => match m o with
    | .leaf v => some (pyToJson v)
    | .list l => andThen (convList (conv m n) l) fun js => some (.ok (.arr js))
    | .tuple l => andThen (convList (conv m n) l) fun js => some (.ok (.arr js))
    | .dict l => convItems (conv m n) l []
    | .set l => andThen (convList (conv m n) l) fun js => some (if ordered js then .ok (.arr (js.foldl (fun m j => insertJson j m) [])) else .ub)

end Scalopus.PyGraph
