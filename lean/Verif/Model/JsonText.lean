/-!
# JSON as text

What `json::dump()` of nlohmann::json writes, as far as scalopus uses it: without arguments, so without indentation, with strict handling of strings that are not UTF-8.
The library is not part of the sources; this follows its documentation. A number is represented by the text that is written for it (the conversion of integers and doubles to decimal
is not modelled), a string by its characters, or `none` if its bytes are not valid UTF-8.
-/

namespace Scalopus.JsonText

abbrev Text := List Char

/-- A `std::string`; `none`: not valid UTF-8. -/
abbrev Str := Option Text

/-- A JSON value. -/
inductive J where
  | null
  | bool (b : Bool)
  | num (t : Text)
  | str (s : Str)
  | arr (l : List J)
  | obj (l : List (Str × J))

/-- A hexadecimal digit. -/
def hexDigit (n : Nat) : Char := if n < 10 then Char.ofNat (48 + n) else Char.ofNat (87 + n)

/-- The escaped form of a character: `serializer::dump_escaped` with `ensure_ascii = false`. -/
def escape (c : Char) : Text :=
  if c = '"' then ['\\', '"']
  else if c = '\\' then ['\\', '\\']
  else if c = '\n' then ['\\', 'n']
  else if c = '\r' then ['\\', 'r']
  else if c = '\t' then ['\\', 't']
  else if c.toNat = 8 then ['\\', 'b']
  else if c.toNat = 12 then ['\\', 'f']
  else if c.toNat < 32 then ['\\', 'u', '0', '0', hexDigit (c.toNat / 16), hexDigit (c.toNat % 16)]
  else [c]

def quote (t : Text) : Text := '"' :: t.flatMap escape ++ ['"']

/-- Concatenate with a separator. -/
def sepBy (sep : Text) : List Text → Text
  | [] => []
  | [t] => t
  | t :: ts => t ++ sep ++ sepBy sep ts

mutual
/-- `dump()`; `none`: it throws `type_error` (316), because of a string that is not UTF-8. -/
def dump : J → Option Text
  | .null => some ['n', 'u', 'l', 'l']
  | .bool true => some ['t', 'r', 'u', 'e']
  | .bool false => some ['f', 'a', 'l', 's', 'e']
  | .num t => some t
  | .str none => none
  | .str (some t) => some (quote t)
  | .arr l => (dumpAll l).map fun ts => '[' :: sepBy [','] ts ++ [']']
  | .obj l => (dumpMembers l).map fun ts => '{' :: sepBy [','] ts ++ ['}']

def dumpAll : List J → Option (List Text)
  | [] => some []
  | j :: js => (dump j).bind fun t => (dumpAll js).map fun ts => t :: ts

def dumpMembers : List (Str × J) → Option (List Text)
  | [] => some []
  | (none, _) :: _ => none
  | (some k, j) :: js => (dump j).bind fun t => (dumpMembers js).map fun ts => (quote k ++ ':' :: t) :: ts
end

end Scalopus.JsonText
