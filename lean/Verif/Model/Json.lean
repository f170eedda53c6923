import Verif.Model.Base

/-!
# JSON values

The values of nlohmann::json (a thirdparty library that is not part of the sources). An object is a list of pairs with different keys;
the order of `std::map` is not modelled. Numbers are mathematical integers or the bits of doubles. Endpoints are modelled
with the decoded values, with `none` for a message that cannot be decoded; the bytes of their messages are in `Model/Bson` and `Model/BsonEndpoints` (C126 to C128).
-/

namespace Scalopus

/-- A JSON value. -/
inductive Json where
  | null
  | bool (b : Bool)
  | int (n : Int)
  | float (bits : UInt64)
  | str (s : String)
  | arr (l : List Json)
  | obj (l : List (String × Json))

namespace Json

/-- `j.at(key)`: throws `out_of_range` without the key, `type_error` if it is not an object. -/
def get (j : Json) (key : String) : Res Json :=
  match j with
  | .obj l => match l.lookup key with
    | some v => .ok v
    | none => .throws "out_of_range"
  | _ => .throws "type_error"

/-- `j[key]` of a value that is an object or null: a missing key yields null. -/
def index (j : Json) (key : String) : Res Json :=
  match j with
  | .obj l => .ok ((l.lookup key).getD .null)
  | .null => .ok .null
  | _ => .throws "type_error"

/-- `get<std::string>()` -/
def asStr : Json → Res String
  | .str s => .ok s
  | _ => .throws "type_error"

/-- `get<bool>()` -/
def asBool : Json → Res Bool
  | .bool b => .ok b
  | _ => .throws "type_error"

/-- The part of a double before its point, for the casts of scalopus_general/src/endpoint_process_info.cpp:94-95,
    scalopus_tracing/src/endpoint_trace_configurator.cpp:57 and scalopus_tracing/src/endpoint_trace_mapping.cpp:77: its value is a whole number times a power of two. `none` for infinities and NaN. -/
def truncate (bits : UInt64) : Option Int :=
  let e : Nat := bits.toNat / 2 ^ 52 % 2048
  let m : Nat := bits.toNat % 2 ^ 52
  if e = 2047 then none
  else
    let f : Nat := if e = 0 then m else m + 2 ^ 52
    let e : Nat := if e = 0 then 1 else e
    let t : Nat := if 1075 ≤ e then f * 2 ^ (e - 1075) else f / 2 ^ (1075 - e)
    some (if bits.toNat < 2 ^ 63 then (t : Int) else -(t : Int))

/-- A `static_cast` of a double to an integer type with the numbers from `lo` up to but not including `hi`: undefined if the part before the point is not
    one of them ([conv.fpint]). Same lines as `truncate`. -/
def castDouble (lo hi : Int) (bits : UInt64) : Res Int :=
  match truncate bits with
  | some t => if lo ≤ t ∧ t < hi then .ok t else .ub
  | none => .ub

/-- `get<unsigned long>()`: a `static_cast` of a number; everything else throws, booleans too since this is nlohmann's own type of unsigned numbers.
    scalopus_general/src/endpoint_process_info.cpp:94, scalopus_tracing/src/endpoint_trace_configurator.cpp:57 -/
def asULong : Json → Res Nat
  | .int n => .ok (n % 2 ^ 64).toNat
  | .float b => (castDouble 0 (2 ^ 64) b).bind fun t => .ok t.toNat
  | _ => .throws "type_error"

/-- `get<int>()`: a `static_cast` of a number or a boolean. scalopus_general/src/endpoint_process_info.cpp:95, scalopus_tracing/src/endpoint_trace_mapping.cpp:77 -/
def asInt32 : Json → Res Int
  | .int n => .ok ((n + 2 ^ 31) % 2 ^ 32 - 2 ^ 31)
  | .float b => castDouble (-2 ^ 31) (2 ^ 31) b
  | .bool b => .ok (if b then 1 else 0)
  | _ => .throws "type_error"

/-- `get<unsigned int>()`: a `static_cast` of a number or a boolean. scalopus_tracing/src/endpoint_trace_mapping.cpp:77 -/
def asUInt32 : Json → Res Nat
  | .int n => .ok (n % 2 ^ 32).toNat
  | .float b => (castDouble 0 (2 ^ 32) b).bind fun t => .ok t.toNat
  | .bool b => .ok (if b then 1 else 0)
  | _ => .throws "type_error"

/-- The elements of an array. -/
def asArr : Json → Res (List Json)
  | .arr l => .ok l
  | _ => .throws "type_error"

end Json

/-- Apply a function that may fail to each element, left to right. -/
def Res.mapM {α β : Type} (f : α → Res β) : List α → Res (List β)
  | [] => .ok []
  | x :: xs => (f x).bind fun y => (Res.mapM f xs).bind fun ys => .ok (y :: ys)

namespace Json

/-- `std::map::emplace`: the first value of a key wins. -/
def emplace {κ ν : Type} [BEq κ] (m : List (κ × ν)) (k : κ) (v : ν) : List (κ × ν) :=
  match m.lookup k with
  | some _ => m
  | none => m ++ [(k, v)]

/-- How nlohmann stores a `std::map` whose keys are not strings: an array of pairs. -/
def ofMap {κ ν : Type} (fk : κ → Json) (fv : ν → Json) (m : List (κ × ν)) : Json :=
  .arr (m.map fun x => .arr [fk x.1, fv x.2])

/-- One pair: `p.at(0).get<Key>()`, `p.at(1).get<Value>()`; further elements are ignored. -/
def toPair {κ ν : Type} (fk : Json → Res κ) (fv : Json → Res ν) (j : Json) : Res (κ × ν) :=
  j.asArr.bind fun l =>
    match l with
    | k :: v :: _ => (fk k).bind fun k => (fv v).bind fun v => .ok (k, v)
    | _ => .throws "out_of_range"

/-- How it is read back. -/
def toMap {κ ν : Type} [BEq κ] (fk : Json → Res κ) (fv : Json → Res ν) (j : Json) : Res (List (κ × ν)) :=
  j.asArr.bind fun l => (Res.mapM (toPair fk fv) l).bind fun ps => .ok (ps.foldl (fun m p => emplace m p.1 p.2) [])

end Json

end Scalopus
