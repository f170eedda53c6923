import Verif.Model.JsonText

/-!
# The command `record`

Models `run_record` (scalopus_python/scalopus/__main__.py:119-158) from the moment at which the recording has been stopped: the two sources are finished and the events are printed.
Python's `json.dumps` without arguments follows the documentation of the Python library: `, ` and `: ` as separators, and all characters outside of ASCII escaped.
A number is represented by the text that is written for it, as in `Model/JsonText`.
-/

namespace Scalopus.PyRecord

open JsonText

/-- `\uXXXX` with lower-case digits. -/
def u4 (n : Nat) : Text := ['\\', 'u', hexDigit (n / 4096), hexDigit (n / 256 % 16), hexDigit (n / 16 % 16), hexDigit (n % 16)]

/-- The escaped form of a character with `ensure_ascii=True`: characters above 0xFFFF become a surrogate pair. -/
def pyEscape (c : Char) : Text :=
  if c = '"' then ['\\', '"']
  else if c = '\\' then ['\\', '\\']
  else if c = '\n' then ['\\', 'n']
  else if c = '\r' then ['\\', 'r']
  else if c = '\t' then ['\\', 't']
  else if c.toNat = 8 then ['\\', 'b']
  else if c.toNat = 12 then ['\\', 'f']
  else if 32 ≤ c.toNat ∧ c.toNat ≤ 126 then [c]
  else if c.toNat < 0x10000 then u4 c.toNat
  else u4 (0xD800 + (c.toNat - 0x10000) / 0x400) ++ u4 (0xDC00 + (c.toNat - 0x10000) % 0x400)

def pyQuote (t : Text) : Text := '"' :: t.flatMap pyEscape ++ ['"']

mutual
/-- `json.dumps(entry)` (__main__.py:154); `none`: not a Python value (a string that is not UTF-8 has no counterpart in Python, see `Finish`). -/
def dumps : J → Option Text
  | .null => some ['n', 'u', 'l', 'l']
  | .bool true => some ['t', 'r', 'u', 'e']
  | .bool false => some ['f', 'a', 'l', 's', 'e']
  | .num t => some t
  | .str none => none
  | .str (some t) => some (pyQuote t)
  | .arr l => (dumpsAll l).map fun ts => '[' :: sepBy [',', ' '] ts ++ [']']
  | .obj l => (dumpsMembers l).map fun ts => '{' :: sepBy [',', ' '] ts ++ ['}']

def dumpsAll : List J → Option (List Text)
  | [] => some []
  | j :: js => (dumps j).bind fun t => (dumpsAll js).map fun ts => t :: ts

def dumpsMembers : List (Str × J) → Option (List Text)
  | [] => some []
  | (none, _) :: _ => none
  | (some k, j) :: js => (dumps j).bind fun t => (dumpsMembers js).map fun ts => (pyQuote k ++ ':' :: ' ' :: t) :: ts
end

/-- How `finishInterval` of a source ends in Python: with events, with a RuntimeError (C++ exceptions derived from `std::runtime_error` and `std::exception` become one),
    or with another exception (for instance ValueError, IndexError). -/
inductive Finish where
  | events (l : List J)
  | runtimeError
  | otherError

mutual
/-- `jsonToPy` has a value for it: all its strings can be decoded (scalopus_python/lib/json_util.cpp:83-86, :90-109, where names of members are converted as well). -/
def convertible : J → Bool
  | .str s => s.isSome
  | .arr l => convertibleAll l
  | .obj l => convertibleMembers l
  | _ => true

def convertibleAll : List J → Bool
  | [] => true
  | j :: js => convertible j && convertibleAll js

def convertibleMembers : List (Str × J) → Bool
  | [] => true
  | (k, j) :: js => k.isSome && convertible j && convertibleMembers js
end

/-- `finishInterval()` of a source of the library that has these events, called from Python (scalopus_python/lib/scalopus_interface.cpp:209): all of them are converted. `e` is what happens for a string that is not UTF-8:
    `py::str` throws `std::runtime_error` in pybind11 before version 2.8, a RuntimeError in Python, and a UnicodeDecodeError since then. -/
def finish (e : Finish) (l : List J) : Finish := if convertibleAll l then .events l else e

/-- What is printed, and whether the command ends normally. -/
structure Output where
  text : Text
  normal : Bool

/-- __main__.py:145-158: the bracket is printed before the sources are finished; a RuntimeError is ignored. -/
def record (native general : Finish) : Output :=
  let start : Text := ['[', '\n']
  match native with
  | .runtimeError => ⟨start ++ [']'], true⟩
  | .otherError => ⟨start, false⟩
  | .events a =>
    match general with
    | .runtimeError => ⟨start ++ [']'], true⟩
    | .otherError => ⟨start, false⟩
    | .events b =>
      match dumpsAll (a ++ b) with
      | none => ⟨start, false⟩
      | some ts => ⟨start ++ sepBy [',', '\n'] ts ++ [']'], true⟩

end Scalopus.PyRecord
