import Verif.Model.Base

/-!
# BSON, the encoding of queries and answers

`nlohmann::json::to_bson` and `from_bson` are used for all queries and answers of the built-in endpoints (scalopus_general/src/endpoint_process_info.cpp:62, :71, :88, :92,
scalopus_general/src/endpoint_introspect.cpp:54, :70, scalopus_tracing/src/endpoint_trace_mapping.cpp:58, :76, scalopus_tracing/src/endpoint_trace_configurator.cpp:72, :76, :94, :98, :108, :145). The library is
not part of the sources; it is modelled after the BSON specification (bsonspec.org) and the documentation of the library in version 3.4 (thirdparty/CMakeLists.txt:6):

* the outermost value has to be an object; names of fields are written as C strings and must not contain a zero byte;
* integers take 32 bits if they fit and else 64 bits; integers that do not fit into 64 bits with a sign cannot be written;
* an array is a document with the names "0", "1", ..;
* strings are byte strings, which are not checked; their length is written as a 32-bit number;
* the reader does not look at the sizes of documents and at the names of array elements, takes every terminator of a string, lets the last of several fields with the same name win, and calls itself for every
  nested document; what is left after the document is an error.

Simplifications: `stack` is the number of nested documents that the stack of the thread has room for: one more is undefined behaviour. Binary values and the other types of BSON that the library reads are
errors here: the endpoints write none of them and cannot use them. An object is a list of fields with different names in the order in which they were first set.
-/

namespace Scalopus.Bson

abbrev Bytes := List UInt8

/-- A value of `nlohmann::json`, with strings as bytes. Part of scalopus_general/src/endpoint_process_info.cpp:62, :71 (`from_bson`, `to_bson`) -/
inductive Val where
  | null
  | bool (b : Bool)
  | int (n : Int)
  | dbl (bits : UInt64)
  | str (s : Bytes)
  | arr (l : List Val)
  | obj (l : List (Bytes × Val))
  deriving Repr

/-- The lowest `k` bytes of a number, least significant first. Part of scalopus_general/src/endpoint_process_info.cpp:71, :88 (`to_bson`) -/
def little : Nat → Nat → Bytes
  | 0, _ => []
  | k + 1, n => UInt8.ofNat (n % 256) :: little k (n / 256)

/-- The number with these bytes, least significant first. Part of scalopus_general/src/endpoint_process_info.cpp:62, :92 (`from_bson`) -/
def ofLittle : Bytes → Nat
  | [] => 0
  | x :: b => x.toNat + 256 * ofLittle b

/-- A number with a sign in `k` bytes: two's complement. Part of scalopus_general/src/endpoint_process_info.cpp:71, :88 (`to_bson`) -/
def signed (k : Nat) (n : Int) : Bytes := little k (n % 256 ^ k).toNat

/-- The number with a sign in these bytes. Part of scalopus_general/src/endpoint_process_info.cpp:62, :92 (`from_bson`) -/
def ofSigned (b : Bytes) : Int := if 2 * ofLittle b < 256 ^ b.length then ofLittle b else ofLittle b - 256 ^ b.length

/-- The decimal digits of a number: the names of the elements of an array (`std::to_string`). Part of scalopus_general/src/endpoint_process_info.cpp:71, :88 (`to_bson`) -/
def digits (n : Nat) : Bytes := (Nat.toDigits 10 n).map fun c => UInt8.ofNat c.toNat

/-- The type byte of a value. Part of scalopus_general/src/endpoint_process_info.cpp:71, :88 (`to_bson`) -/
def tag : Val → UInt8
  | .dbl _ => 0x01
  | .str _ => 0x02
  | .obj _ => 0x03
  | .arr _ => 0x04
  | .bool _ => 0x08
  | .null => 0x0A
  | .int n => if -2 ^ 31 ≤ n ∧ n < 2 ^ 31 then 0x10 else 0x12

/-- A document around the bytes of its elements: size, elements, zero. The size counts itself. Part of scalopus_general/src/endpoint_process_info.cpp:71, :88 (`to_bson`) -/
def document (elements : Bytes) : Bytes := little 4 (elements.length + 5) ++ elements ++ [0]

mutual
/-- The bytes of a value, after type and name. Part of scalopus_general/src/endpoint_process_info.cpp:71, :88 (`to_bson`) -/
def value : Val → Bytes
  | .null => []
  | .bool b => [if b then 1 else 0]
  | .int n => if -2 ^ 31 ≤ n ∧ n < 2 ^ 31 then signed 4 n else signed 8 n
  | .dbl d => little 8 d.toNat
  | .str s => little 4 (s.length + 1) ++ s ++ [0]
  | .arr l => document (elements 0 l)
  | .obj l => document (fields l)
/-- The elements of an array from an index on. Part of scalopus_general/src/endpoint_process_info.cpp:71, :88 (`to_bson`) -/
def elements : Nat → List Val → Bytes
  | _, [] => []
  | i, v :: l => tag v :: digits i ++ 0 :: value v ++ elements (i + 1) l
/-- The fields of an object. Part of scalopus_general/src/endpoint_process_info.cpp:71, :88 (`to_bson`) -/
def fields : List (Bytes × Val) → Bytes
  | [] => []
  | (k, v) :: l => tag v :: k ++ 0 :: value v ++ fields l
end

mutual
/-- What cannot be written: names with a zero byte, and integers of more than 64 bits. Part of scalopus_general/src/endpoint_process_info.cpp:71, :88 (`to_bson`) -/
def faulty : Val → Bool
  | .int n => !(decide (-2 ^ 63 ≤ n) && decide (n < 2 ^ 63))
  | .arr l => faultyElements l
  | .obj l => faultyFields l
  | _ => false
/-- The same for the elements of an array. Part of scalopus_general/src/endpoint_process_info.cpp:71, :88 (`to_bson`) -/
def faultyElements : List Val → Bool
  | [] => false
  | v :: l => faulty v || faultyElements l
/-- The same for the fields of an object. Part of scalopus_general/src/endpoint_process_info.cpp:71, :88 (`to_bson`) -/
def faultyFields : List (Bytes × Val) → Bool
  | [] => false
  | (k, v) :: l => k.contains 0 || faulty v || faultyFields l
end

/-- `json::to_bson`. Part of scalopus_general/src/endpoint_process_info.cpp:71, :88 (`to_bson`) -/
def encode : Val → Res Bytes
  | .obj l => if faultyFields l then .throws "out_of_range" else .ok (document (fields l))
  | _ => .throws "type_error"

/-- What reading yields. Part of scalopus_general/src/endpoint_process_info.cpp:62, :92 (`from_bson`) -/
inductive Read (α : Type) where
  | ok (a : α)
  /-- the library throws `parse_error` -/
  | fail
  /-- the stack is used up -/
  | ub
  deriving Repr

/-- Read `k` bytes. Part of scalopus_general/src/endpoint_process_info.cpp:62, :92 (`from_bson`) -/
def take (k : Nat) (b : Bytes) : Option (Bytes × Bytes) := if b.length < k then none else some (b.take k, b.drop k)

/-- Read to the next zero byte, which is left out. Part of scalopus_general/src/endpoint_process_info.cpp:62, :92 (`from_bson`) -/
def cstring : Bytes → Option (Bytes × Bytes)
  | [] => none
  | x :: b => if x = 0 then some ([], b) else (cstring b).map fun p => (x :: p.1, p.2)

/-- Set a field: `operator[]`, which replaces the value of a field that is there. Part of scalopus_general/src/endpoint_process_info.cpp:62, :92 (`from_bson`) -/
def put (l : List (Bytes × Val)) (k : Bytes) (v : Val) : List (Bytes × Val) :=
  match l with
  | [] => [(k, v)]
  | (k', v') :: l => if k' = k then (k', v) :: l else (k', v') :: put l k v

/-- The fields that are there after all have been set. Part of scalopus_general/src/endpoint_process_info.cpp:62, :92 (`from_bson`) -/
def putAll (l : List (Bytes × Val)) : List (Bytes × Val) := l.foldl (fun m p => put m p.1 p.2) []

/-- Read the values other than documents. `none`: the type is not one of these. Part of scalopus_general/src/endpoint_process_info.cpp:62, :92 (`from_bson`) -/
def scalar (t : UInt8) (b : Bytes) : Option (Option (Val × Bytes)) :=
  if t = 0x01 then some ((take 8 b).map fun p => (.dbl (UInt64.ofNat (ofLittle p.1)), p.2))
  else if t = 0x02 then
    some ((take 4 b).bind fun p =>
      let n := ofSigned p.1
      if n < 1 then none else (take (n.toNat - 1) p.2).bind fun q => (take 1 q.2).map fun r => (.str q.1, r.2))
  else if t = 0x08 then some ((take 1 b).map fun p => (.bool (p.1 != [0]), p.2))
  else if t = 0x0A then some (some (.null, b))
  else if t = 0x10 then some ((take 4 b).map fun p => (.int (ofSigned p.1), p.2))
  else if t = 0x12 then some ((take 8 b).map fun p => (.int (ofSigned p.1), p.2))
  else none

/-- Read the elements of a document up to its zero byte: names and values, and the rest of the input. Every element takes at least one byte, so that more `fuel` than bytes is enough. Part of scalopus_general/src/endpoint_process_info.cpp:62, :92 (`from_bson`) -/
def list (stack : Nat) : Nat → Bytes → Read (List (Bytes × Val) × Bytes)
  | 0, _ => .fail
  | _, [] => .fail
  | fuel + 1, t :: b =>
    if t = 0 then .ok ([], b)
    else match cstring b with
      | none => .fail
      | some (k, b) =>
        match scalar t b with
        | some none => .fail
        | some (some (v, b)) =>
          match list stack fuel b with
          | .ok (l, b) => .ok ((k, v) :: l, b)
          | r => r
        | none =>
          if t = 0x03 ∨ t = 0x04 then
            match stack with
            | 0 => .ub
            | stack' + 1 =>
              match take 4 b with
              | none => .fail
              | some (_, b) =>
                match list stack' fuel b with
                | .ok (inner, b) =>
                  match list (stack' + 1) fuel b with
                  | .ok (l, b) => .ok ((k, if t = 0x03 then .obj (putAll inner) else .arr (inner.map Prod.snd)) :: l, b)
                  | r => r
                | r => r
          else .fail

/-- `json::from_bson`. Part of scalopus_general/src/endpoint_process_info.cpp:62, :92 (`from_bson`) -/
def decode (stack : Nat) (b : Bytes) : Read Val :=
  match take 4 b with
  | none => .fail
  | some (_, r) =>
    match list stack (r.length + 1) r with
    | .ok (l, []) => .ok (.obj (putAll l))
    | .ok (_, _ :: _) => .fail
    | .fail => .fail
    | .ub => .ub

end Scalopus.Bson
