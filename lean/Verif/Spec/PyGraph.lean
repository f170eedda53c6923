import Verif.Model.PyGraph

/-!
# What a Python object is
-/

namespace Scalopus.PyGraph

open PyJson

/-- Values without elements. -/
def Plain : Py → Prop
  | .list _ | .tuple _ | .dict _ | .set _ => False
  | _ => True

/-- The object is, with everything in it, the value `v`. An object that contains itself is no value. -/
inductive Unfolds (m : Mem) : Nat → Py → Prop
  | leaf (o : Nat) (v : Py) : m o = .leaf v → Plain v → Unfolds m o v
  | list (o : Nat) (l : List Nat) (vs : List Py) : m o = .list l → l.length = vs.length → (∀ (i x : Nat) (v : Py), l[i]? = some x → vs[i]? = some v → Unfolds m x v) → Unfolds m o (.list vs)
  | tuple (o : Nat) (l : List Nat) (vs : List Py) : m o = .tuple l → l.length = vs.length → (∀ (i x : Nat) (v : Py), l[i]? = some x → vs[i]? = some v → Unfolds m x v) → Unfolds m o (.tuple vs)
  | set (o : Nat) (l : List Nat) (vs : List Py) : m o = .set l → l.length = vs.length → (∀ (i x : Nat) (v : Py), l[i]? = some x → vs[i]? = some v → Unfolds m x v) → Unfolds m o (.set vs)
  | dict (o : Nat) (l : List (Py × Nat)) (vs : List (Py × Py)) : m o = .dict l → l.map Prod.fst = vs.map Prod.fst →
      (∀ (i : Nat) (x : Py × Nat) (v : Py × Py), l[i]? = some x → vs[i]? = some v → Unfolds m x.2 v.2) → Unfolds m o (.dict vs)

mutual
/-- How deep a value is nested: 1 for a value without elements, one more than its elements for others. -/
def nesting : Py → Nat
  | .list l => nestingList l + 1
  | .tuple l => nestingList l + 1
  | .set l => nestingList l + 1
  | .dict l => nestingItems l + 1
  | _ => 1

def nestingList : List Py → Nat
  | [] => 0
  | v :: l => max (nesting v) (nestingList l)

def nestingItems : List (Py × Py) → Nat
  | [] => 0
  | (_, v) :: l => max (nesting v) (nestingItems l)
end

/-- One who converts the container `o` comes to `x` after the elements `before`. -/
inductive Comes (m : Mem) : Nat → List Nat → Nat → Prop
  | list (o x : Nat) (before after : List Nat) : m o = .list (before ++ x :: after) → Comes m o before x
  | tuple (o x : Nat) (before after : List Nat) : m o = .tuple (before ++ x :: after) → Comes m o before x
  | set (o x : Nat) (before after : List Nat) : m o = .set (before ++ x :: after) → Comes m o before x
  | dict (o x : Nat) (before : List (String × Nat)) (k : String) (rest : List (Py × Nat)) : m o = .dict (before.map (fun e => (Py.str e.1, e.2)) ++ (Py.str k, x) :: rest) →
      Comes m o (before.map Prod.snd) x

end Scalopus.PyGraph
