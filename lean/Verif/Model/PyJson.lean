import Verif.Model.Json

/-!
# Conversion between JSON and Python values

Models `jsonToPy` and `pyToJson` (scalopus_python/lib/json_util.cpp:38-208). pybind11 is a thirdparty library that is not part of the sources: its casts are modelled as documented.
Python values are trees: for objects that refer to each other, and lists that contain themselves, see `Model/PyGraph`. Strings are sequences of Unicode scalar values; Python strings with surrogates, which cannot be
encoded, are `Py.surrogates`; JSON strings that are not UTF-8 are not modelled. Sets are ordered by `operator<` of nlohmann::json, a thirdparty library that is not part of the sources: it is modelled as documented. Subclasses are treated as their base. In this file the pairs of a JSON object are in the order of its `std::map`.
-/

namespace Scalopus.PyJson

/-- A Python value. A dict is a list of items in insertion order. -/
inductive Py where
  | none
  | bool (b : Bool)
  | int (n : Int)
  | float (bits : UInt64)
  | str (s : String)
  /-- A string with surrogates, which has no UTF-8 encoding. -/
  | surrogates
  | bytes (l : List UInt8)
  | list (l : List Py)
  | tuple (l : List Py)
  | dict (l : List (Py × Py))
  /-- A set, in the order in which it is walked through. (A frozenset is not a `py::set`.) -/
  | set (l : List Py)
  /-- Anything else: functions, slices, other objects. -/
  | other

mutual
/-- `jsonToPy`, json_util.cpp:38-118. The two kinds of JSON integers (66-74) both become a Python int. -/
def jsonToPy : Json → Py
  | .null => .none
  | .bool b => .bool b
  | .int n => .int n
  | .float f => .float f
  | .str s => .str s
  | .arr l => .list (jsonToPyList l)
  | .obj l => .dict (jsonToPyItems l)

/-- 88-96 -/
def jsonToPyList : List Json → List Py
  | [] => []
  | j :: l => jsonToPy j :: jsonToPyList l

/-- 99-107. The keys of a JSON object are different, so that each assignment adds an item. -/
def jsonToPyItems : List (String × Json) → List (Py × Py)
  | [] => []
  | (k, j) :: l => (.str k, jsonToPy j) :: jsonToPyItems l
end

/-- `map[key] = value` of a `std::map`, which is ordered by its keys (as byte strings, which for UTF-8 is the order of the scalar values). -/
def assign : List (String × Json) → String → Json → List (String × Json)
  | [], k, v => [(k, v)]
  | x :: m, k, v => if k < x.1 then (k, v) :: x :: m else if k = x.1 then (k, v) :: m else x :: assign m k v

/-! ## The order of JSON values -/

/-- The bits of the double nearest to a whole number (`static_cast<double>`), ties to even. -/
def doubleBits (m : Nat) : Nat :=
  if m = 0 then 0
  else
    let e := m.log2
    if e ≤ 52 then (e + 1022) * 2 ^ 52 + m * 2 ^ (52 - e)
    else
      let u := 2 ^ (e - 52)
      let q := m / u
      let r := m % u
      let q := if 2 * r < u then q else if u < 2 * r then q + 1 else q + q % 2
      (e + 1022) * 2 ^ 52 + q

/-- Doubles, except NaN, are ordered like these numbers: the bits without the sign, with the sign. -/
def doubleKey (bits : UInt64) : Option Int :=
  let m : Nat := bits.toNat % 2 ^ 63
  if 2047 * 2 ^ 52 < m then none else some (if bits.toNat < 2 ^ 63 then (m : Int) else -(m : Int))

def intKey (n : Int) : Int := if n < 0 then -(doubleBits n.natAbs : Int) else doubleBits n.natAbs

/-- How whole numbers compare. -/
def intCmp (a b : Int) : Ordering := if a < b then .lt else if b < a then .gt else .eq

/-- How strings compare. -/
def stringCmp (a b : String) : Ordering := if a < b then .lt else if b < a then .gt else .eq

/-- How doubles compare: with NaN neither is `<`. -/
def keyCmp : Option Int → Option Int → Ordering
  | some a, some b => intCmp a b
  | _, _ => .eq

/-- The order of the types. -/
def rank : Json → Nat
  | .null => 0
  | .bool _ => 1
  | .int _ => 2
  | .float _ => 2
  | .obj _ => 3
  | .arr _ => 4
  | .str _ => 5

mutual
/-- `operator<`, both ways: `.lt` if `a < b`, `.gt` if `b < a`, `.eq` if neither. Values of different types are ordered by type; an integer is compared with a double as a double. Objects do not occur: a dict
cannot be in a set. -/
def compareJson : Json → Json → Ordering
  | .bool a, .bool b => if !a && b then .lt else if !b && a then .gt else .eq
  | .int a, .int b => intCmp a b
  | .int a, .float b => keyCmp (some (intKey a)) (doubleKey b)
  | .float a, .int b => keyCmp (doubleKey a) (some (intKey b))
  | .float a, .float b => keyCmp (doubleKey a) (doubleKey b)
  | .str a, .str b => stringCmp a b
  | .arr a, .arr b => compareList a b
  | a, b => if rank a < rank b then .lt else if rank b < rank a then .gt else .eq

/-- The elements one after the other. -/
def compareList : List Json → List Json → Ordering
  | [], [] => .eq
  | [], _ :: _ => .lt
  | _ :: _, [] => .gt
  | a :: l, b :: m => (compareJson a b).then (compareList l m)
end

/-- `insert` of a `std::set`: values of which neither is `<` are the same. -/
def insertJson (x : Json) : List Json → List Json
  | [] => [x]
  | y :: l => match compareJson x y with
    | .lt => x :: y :: l
    | .gt => y :: insertJson x l
    | .eq => y :: l

/-- What a `std::set` needs: that being `<`, and being the same, are transitive. -/
def ordered (l : List Json) : Bool :=
  l.all fun a => l.all fun b => l.all fun c => (!(compareJson a b == .lt && compareJson b c == .lt) || compareJson a c == .lt) && (!(compareJson a b == .eq && compareJson b c == .eq) || compareJson a c == .eq)

mutual
/-- `pyToJson`, json_util.cpp:120-208. A set of values that are not ordered is undefined behaviour (193-201). `cast<std::int64_t>` of an int out of range throws (152); bytes (136) become an array of numbers. A string with surrogates cannot be cast to a `std::string` (131), and not be a key (186); here the value is converted before the key, which before C++17 is not specified and makes a difference only if the value is undefined behaviour. -/
def pyToJson : Py → Res Json
  | .str s => .ok (.str s)
  | .surrogates => .throws "cast_error"
  | .bytes l => .ok (.arr (l.map fun b => .int b.toNat))
  | .none => .ok .null
  | .bool b => .ok (.bool b)
  | .int n => if -(2 : Int) ^ 63 ≤ n ∧ n < 2 ^ 63 then .ok (.int n) else .throws "cast_error"
  | .float f => .ok (.float f)
  | .list l => (pyToJsonList l).bind fun js => .ok (.arr js)
  | .tuple l => (pyToJsonList l).bind fun js => .ok (.arr js)
  | .dict l => pyToJsonItems l []
  | .set l => (pyToJsonList l).bind fun js => if ordered js then .ok (.arr (js.foldl (fun m j => insertJson j m) [])) else .ub
  | .other => .ok .null

/-- 165-173 -/
def pyToJsonList : List Py → Res (List Json)
  | [] => .ok []
  | v :: l => (pyToJson v).bind fun j => (pyToJsonList l).bind fun js => .ok (j :: js)

/-- 175-189, given the object built so far. -/
def pyToJsonItems : List (Py × Py) → List (String × Json) → Res Json
  | [], m => .ok (.obj m)
  | (.str k, v) :: l, m => (pyToJson v).bind fun j => pyToJsonItems l (assign m k j)
  | (.surrogates, v) :: _, _ => (pyToJson v).bind fun _ => .throws "runtime_error"
  | (_, _) :: _, _ => .throws "type_error"
end

end Scalopus.PyJson
