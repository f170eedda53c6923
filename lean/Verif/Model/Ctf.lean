import Verif.Model.Double

/-!
# Parsing the output of babeltrace

Models the constructor of `CTFEvent` (scalopus_tracing/src/lttng/ctfevent.cpp:34-177). Characters are bytes. Positions and lengths are `size_t`: arithmetic wraps at 2^64.
The functions of the standard library it uses are modelled by their documentation: `std::string::find`, `substr`, `std::stod`, `std::stoull`.
-/

namespace Scalopus.Ctf

abbrev Text := List Char

/-- `std::string::npos` -/
def npos : Nat := 2 ^ 64 - 1

/-- Sum of two `size_t`. -/
def add (a b : Nat) : Nat := (a + b) % 2 ^ 64

/-- Difference of two `size_t`. -/
def sub (a b : Nat) : Nat := (a + 2 ^ 64 - b) % 2 ^ 64

/-- Position of the first occurrence of a pattern (that is not empty) in the text; the text starts at position `i`. -/
def findIn (pat : Text) : Text → Nat → Nat
  | [], _ => npos
  | c :: r, i => if pat.isPrefixOf (c :: r) then i else findIn pat r (i + 1)

/-- `s.find(pat, pos)` -/
def find (s pat : Text) (pos : Nat) : Nat := findIn pat (s.drop pos) pos

/-- `s.substr(pos, len)` -/
def substr (s : Text) (pos len : Nat) : Res Text := if s.length < pos then .throws "out_of_range" else .ok ((s.drop pos).take len)

/-! ## Numbers -/

/-- The result of a conversion function. -/
inductive Num (α : Type) where
  /-- `std::invalid_argument` is thrown: there is no number -/
  | invalid
  /-- `std::out_of_range` is thrown -/
  | range
  | val (x : α)
  deriving DecidableEq

/-- `isspace` in the "C" locale -/
def isSpace (c : Char) : Bool := c = ' ' || c = '\t' || c = '\n' || c = '\r' || c.toNat = 11 || c.toNat = 12

def skipSpace (s : Text) : Text := s.dropWhile isSpace

/-- An optional sign: whether it is `-`, and what follows. -/
def sign : Text → Bool × Text
  | '-' :: r => (true, r)
  | '+' :: r => (false, r)
  | r => (false, r)

/-- The value of a digit. -/
def digit (base : Nat) (c : Char) : Option Nat :=
  let n := c.toNat
  let v := if 48 ≤ n ∧ n ≤ 57 then some (n - 48) else if 97 ≤ n ∧ n ≤ 102 then some (n - 87) else if 65 ≤ n ∧ n ≤ 70 then some (n - 55) else none
  match v with
  | some v => if v < base then some v else none
  | none => none

/-- The digits at the beginning, and what follows. -/
def digits (base : Nat) : Text → List Nat × Text
  | [] => ([], [])
  | c :: r => match digit base c with
    | none => ([], c :: r)
    | some d => let x := digits base r; (d :: x.1, x.2)

def number (base : Nat) (ds : List Nat) : Nat := ds.foldl (fun n d => n * base + d) 0

/-- `std::stoull(s)`: base 10; a minus sign negates the result as an unsigned number. -/
def stoull (s : Text) : Num Nat :=
  let x := sign (skipSpace s)
  let ds := (digits 10 x.2).1
  if ds = [] then .invalid
  else if 2 ^ 64 ≤ number 10 ds then .range
  else if x.1 then .val ((2 ^ 64 - number 10 ds) % 2 ^ 64) else .val (number 10 ds)

/-- The part after an `e` (or `p`): the exponent, 0 if there is none. -/
def exponent (mark : Char → Bool) : Text → Int
  | c :: r =>
    if mark c then
      let x := sign r
      let n : Int := number 10 (digits 10 x.2).1
      if x.1 then -n else n
    else 0
  | [] => 0

/-- A number with optional fraction and exponent. `none`: there are no digits. -/
def float (base : Nat) (eBase : ℚ) (mark : Char → Bool) (s : Text) : Option ℚ :=
  let i := digits base s
  let f : List Nat × Text := match i.2 with
    | '.' :: r => digits base r
    | r => ([], r)
  let rest := if i.1 = [] ∧ f.1 = [] then s else f.2
  if i.1 = [] ∧ f.1 = [] then none
  else some (number base (i.1 ++ f.1) / base ^ f.1.length * eBase ^ exponent mark rest)

/-- Whether the text begins with a (lower case) word, ignoring case. -/
def startsWith (w s : Text) : Bool := w.isPrefixOf (s.map Char.toLower)

/-- The double that a number that is not negative is converted to. Below the smallest normal number, a range error is reported. (The C library does so only if the result is not
    exact.) -/
def toDouble (q : ℚ) : Num ℚ :=
  if q = 0 then .val 0
  else if q < 2 ^ (-1022 : ℤ) then .range
  else if 2 ^ (1024 : ℤ) ≤ Double.nearest q then .range
  else .val (Double.nearest q)

/-- `std::stod(s)`; `val none` is an infinity or not a number. -/
def stod (s : Text) : Num (Option ℚ) :=
  let x := sign (skipSpace s)
  let finish (q : ℚ) : Num (Option ℚ) := match toDouble q with
    | .invalid => .invalid
    | .range => .range
    | .val d => .val (some (if x.1 then -d else d))
  if startsWith "inf".toList x.2 || startsWith "nan".toList x.2 then .val none
  else
    match (if startsWith "0x".toList x.2 then float 16 2 (fun c => c = 'p' || c = 'P') (x.2.drop 2) else none) with
    | some q => finish q
    | none => match float 10 10 (fun c => c = 'e' || c = 'E') x.2 with
      | some q => finish q
      | none => .invalid

/-! ## The event -/

/-- `IdMap` -/
abbrev IdMap := List (Text × Nat)

/-- The members of `CTFEvent`, scalopus_tracing/include_consumer/scalopus_tracing/ctfevent.h:95-104. `time`: `none` is a member that is not initialised, `some none` an
    infinity or not a number. -/
structure Event where
  line : Text := []
  time : Option (Option ℚ) := none
  host : Text := []
  domain : Text := []
  name : Text := []
  stream : IdMap := []
  context : IdMap := []
  data : IdMap := []

/-- `res[key] = value`; the order of the keys is not modelled. -/
def assign (m : IdMap) (k : Text) (v : Nat) : IdMap := (k, v) :: m.filter fun x => x.1 ≠ k

/-- One "key = value", ctfevent.cpp:157-168. `keyFirst`: the left side of the assignment in line 164 is evaluated first, which the language allows before C++17: then
    the key exists, with 0, also if there is no number. -/
def keyValue (keyFirst : Bool) (m : IdMap) (kv : Text) : Res IdMap :=
  let p := find kv " = ".toList 0
  (substr kv 0 p).bind fun key => (substr kv (add p 3) npos).bind fun value =>
    match stoull value with
    | .val n => .ok (assign m key n)
    | .invalid => .ok (if keyFirst then (if (m.lookup key).isSome then m else assign m key 0) else m)
    | .range => .throws "out_of_range"

/-- Position of ", " in the rest of the text. -/
def delimiter : Text → Option Nat
  | [] => none
  | c :: r => if [',', ' '].isPrefixOf (c :: r) then some 0 else (delimiter r).map (· + 1)

/-- `processContext`, ctfevent.cpp:128-171: the loop, from `start` on; `rest` is the text from there. -/
def processContext (keyFirst : Bool) (m : IdMap) (rest : Text) : Res IdMap :=
  match delimiter rest with
  | none => if rest.length ≤ 4 then .ok m else keyValue keyFirst m rest
  | some i =>
    if i ≤ 4 then .ok m
    else if rest.length ≤ i then .ub -- not reached: the delimiter is in the text
    else (keyValue keyFirst m (rest.take i)).bind fun m => processContext keyFirst m (rest.drop (i + 2))
termination_by rest.length
decreasing_by simp only [List.length_drop]; omega

/-- `CTFEvent::CTFEvent(line)`, ctfevent.cpp:34-177 -/
def parse (keyFirst : Bool) (line : Text) : Res Event :=
  let e : Event := { line := line }
  if line = [] then .ok e
  else
    -- the timestamp, 50-65
    let start := find line ['['] 0
    let stop := find line [']'] 0
    if start = npos ∨ stop = npos then .ok e
    else (substr line (add start 1) (sub stop 1)).bind fun ts =>
    match stod ts with
    | .invalid => .ok e
    | .range => .throws "out_of_range"
    | .val t =>
    let e := { e with time := some t }
    -- the host, 67-75
    let start := find line [' '] stop
    let stop := find line [' '] (add start 1)
    if start = npos ∨ stop = npos then .ok e
    else (substr line (add start 1) (sub (sub stop start) 1)).bind fun host =>
    let e := { e with host := host }
    -- the tracepoint, 77-95
    let start := find line [' '] stop
    let stop := find line [' '] (add start 1)
    if start = npos ∨ stop = npos then .ok e
    else (substr line (add start 1) (sub (sub (sub stop start) 1) 1)).bind fun point =>
    let split := find point [':'] 0
    if split = npos then .ok e
    else (substr point 0 split).bind fun domain => (substr point (add split 1) (sub point.length split)).bind fun name =>
    let e := { e with domain := domain, name := name }
    -- the three contexts, 97-125
    let start := find line ['{'] stop
    let stop := find line ['}'] (add start 1)
    if start = npos ∨ stop = npos then .ok e
    else (substr line (add start 2) (sub (sub (sub stop start) 1) 2)).bind fun text1 =>
    let start := find line ['{'] stop
    let stop := find line ['}'] (add start 1)
    if start = npos ∨ stop = npos then .ok e
    else (substr line (add start 2) (sub (sub (sub stop start) 1) 2)).bind fun text2 =>
    let start := find line ['{'] stop
    let stop := find line ['}'] (add start 1)
    if start = npos ∨ stop = npos then .ok e
    else (substr line (add start 2) (sub (sub (sub stop start) 1) 2)).bind fun text3 =>
    -- 174-176
    (processContext keyFirst [] text1).bind fun stream =>
    (processContext keyFirst [] text2).bind fun context =>
    (processContext keyFirst [] text3).bind fun data =>
    .ok { e with stream := stream, context := context, data := data }

end Scalopus.Ctf
