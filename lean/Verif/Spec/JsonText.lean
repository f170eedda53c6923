import Verif.Model.JsonText

/-!
# Specification: reading JSON text

A reader for JSON (RFC 8259), written independently of what scalopus writes. It is given as a function, so a text has at most one meaning.
-/

namespace Scalopus.JsonText

def isWs (c : Char) : Bool := c = ' ' || c = '\n' || c = '\r' || c = '\t'

def skipWs : Text → Text
  | [] => []
  | c :: s => if isWs c then skipWs s else c :: s

def hexVal (c : Char) : Option Nat :=
  if '0' ≤ c ∧ c ≤ '9' then some (c.toNat - 48)
  else if 'a' ≤ c ∧ c ≤ 'f' then some (c.toNat - 87)
  else if 'A' ≤ c ∧ c ≤ 'F' then some (c.toNat - 55)
  else none

/-- The rest of a string after the opening quote: its characters, and what follows. -/
def readStr : Text → Option (Text × Text)
  | [] => none
  | '"' :: s => some ([], s)
  | '\\' :: 'u' :: a :: b :: c :: d :: s => do
    let n := (← hexVal a) * 4096 + (← hexVal b) * 256 + (← hexVal c) * 16 + (← hexVal d)
    if 0xD800 ≤ n ∧ n ≤ 0xDFFF then
      -- the first half of a surrogate pair; the second half has to follow
      match s with
      | '\\' :: 'u' :: e :: f :: g :: h :: s => do
        let m := (← hexVal e) * 4096 + (← hexVal f) * 256 + (← hexVal g) * 16 + (← hexVal h)
        if n ≤ 0xDBFF ∧ 0xDC00 ≤ m ∧ m ≤ 0xDFFF then
          let (t, r) ← readStr s
          some (Char.ofNat (0x10000 + (n - 0xD800) * 0x400 + (m - 0xDC00)) :: t, r)
        else none
      | _ => none
    else
      let (t, r) ← readStr s
      some (Char.ofNat n :: t, r)
  | '\\' :: c :: s => do
    let x ← (if c = '"' ∨ c = '\\' ∨ c = '/' then some c
      else if c = 'b' then some (Char.ofNat 8)
      else if c = 'f' then some (Char.ofNat 12)
      else if c = 'n' then some '\n'
      else if c = 'r' then some '\r'
      else if c = 't' then some '\t'
      else none)
    let (t, r) ← readStr s
    some (x :: t, r)
  | c :: s =>
    if c.toNat < 32 then none
    else do
      let (t, r) ← readStr s
      some (c :: t, r)

def isDigit (c : Char) : Bool := '0' ≤ c && c ≤ '9'

def numChar (c : Char) : Bool := isDigit c || c = '-' || c = '+' || c = '.' || c = 'e' || c = 'E'

def digits1 (s : Text) : Option Text :=
  match s with
  | c :: r => if isDigit c then some (r.dropWhile isDigit) else none
  | [] => none

/-- The grammar of numbers: minus sign, digits without leading zeros, fraction, exponent. -/
def numOk (t : Text) : Bool :=
  let s := match t with
    | '-' :: s => s
    | s => s
  let afterInt : Option Text := match s with
    | '0' :: r => some r
    | s => digits1 s
  let afterFrac : Option Text := afterInt.bind fun s => match s with
    | '.' :: r => digits1 r
    | s => some s
  let afterExp : Option Text := afterFrac.bind fun s => match s with
    | c :: r =>
      if c = 'e' ∨ c = 'E' then digits1 (match r with
        | '+' :: r => r
        | '-' :: r => r
        | r => r)
      else some s
    | [] => some []
  afterExp = some []

/-- A number: the longest run of characters that occur in numbers has to follow the grammar. -/
def readNum (s : Text) : Option (J × Text) :=
  let t := s.takeWhile numChar
  if numOk t then some (.num t, s.dropWhile numChar) else none

mutual
/-- One value, and what follows it. `fuel` bounds the nesting and the number of members. -/
def readValue (fuel : Nat) (s : Text) : Option (J × Text) :=
  match fuel with
  | 0 => none
  | fuel + 1 =>
    match skipWs s with
    | 'n' :: 'u' :: 'l' :: 'l' :: r => some (.null, r)
    | 't' :: 'r' :: 'u' :: 'e' :: r => some (.bool true, r)
    | 'f' :: 'a' :: 'l' :: 's' :: 'e' :: r => some (.bool false, r)
    | '"' :: r => (readStr r).map fun x => (.str (some x.1), x.2)
    | '[' :: r => match skipWs r with
      | ']' :: r => some (.arr [], r)
      | r => (readElems fuel r).map fun x => (.arr x.1, x.2)
    | '{' :: r => match skipWs r with
      | '}' :: r => some (.obj [], r)
      | r => (readMembers fuel r).map fun x => (.obj x.1, x.2)
    | r => readNum r

/-- The elements of an array after the opening bracket, at least one. -/
def readElems (fuel : Nat) (s : Text) : Option (List J × Text) :=
  match fuel with
  | 0 => none
  | fuel + 1 =>
    (readValue fuel s).bind fun x => match skipWs x.2 with
      | ',' :: r => (readElems fuel r).map fun y => (x.1 :: y.1, y.2)
      | ']' :: r => some ([x.1], r)
      | _ => none

/-- The members of an object after the opening brace, at least one. -/
def readMembers (fuel : Nat) (s : Text) : Option (List (Str × J) × Text) :=
  match fuel with
  | 0 => none
  | fuel + 1 =>
    match skipWs s with
    | '"' :: r => (readStr r).bind fun k => match skipWs k.2 with
      | ':' :: r => (readValue fuel r).bind fun x => match skipWs x.2 with
        | ',' :: r => (readMembers fuel r).map fun y => ((some k.1, x.1) :: y.1, y.2)
        | '}' :: r => some ([(some k.1, x.1)], r)
        | _ => none
      | _ => none
    | _ => none
end

/-- A whole text: one value, with nothing but white space around it. -/
def read (s : Text) : Option J :=
  match readValue (2 * s.length + 2) s with
  | some (j, r) => if skipWs r = [] then some j else none
  | none => none

/-- Values that can be written: all strings are UTF-8 and the numbers' texts are numbers. -/
inductive Clean : J → Prop
  | null : Clean .null
  | bool (b : Bool) : Clean (.bool b)
  | num (t : Text) : numOk t = true → t.all numChar = true → Clean (.num t)
  | str (t : Text) : Clean (.str (some t))
  | arr (l : List J) : (∀ j ∈ l, Clean j) → Clean (.arr l)
  | obj (l : List (Str × J)) : (∀ m ∈ l, m.1.isSome = true) → (∀ m ∈ l, Clean m.2) → Clean (.obj l)

end Scalopus.JsonText
