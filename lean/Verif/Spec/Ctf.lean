import Verif.Model.Ctf

/-!
# Lines as babeltrace prints them

The text format of babeltrace 1 (with `--clock-seconds --no-delta`), for example
`[1544361620.739021131] eagle scalopus_scope_id:exit: { cpu_id = 2 }, { vpid = 14897, pthread_id = 139688084124608 }, { id = 4144779573 }`.
-/

namespace Scalopus.Ctf.Spec

/-- The character of a decimal digit. -/
def digitChar (n : Nat) : Char := Char.ofNat (48 + n)

/-- The decimal digits of a number. -/
def decimal (n : Nat) : List Nat := if n < 10 then [n] else decimal (n / 10) ++ [n % 10]

/-- The last `k` decimal digits, with zeros in front. -/
def padded : Nat → Nat → List Nat
  | 0, _ => []
  | k + 1, n => padded k (n / 10) ++ [n % 10]

def dec (n : Nat) : Text := (decimal n).map digitChar

/-- The value of a field: an integer, or something else, as printed (for example a string in quotes). -/
inductive Value where
  | int (z : Int)
  | other (t : Text)

def Value.text : Value → Text
  | .int z => if z < 0 then '-' :: dec z.natAbs else dec z.natAbs
  | .other t => t

structure Field where
  key : Text
  value : Value

def Field.text (f : Field) : Text := f.key ++ [' ', '=', ' '] ++ f.value.text

/-- Fields separated by ", ". -/
def body : List Field → Text
  | [] => []
  | [f] => f.text
  | f :: g :: fs => f.text ++ [',', ' '] ++ body (g :: fs)

/-- A context in braces. -/
def braces (fs : List Field) : Text :=
  match fs with
  | [] => ['{', ' ', '}']
  | fs => ['{', ' '] ++ body fs ++ [' ', '}']

structure Line where
  secs : Nat
  nanos : Nat
  host : Text
  domain : Text
  name : Text
  stream : List Field
  context : List Field
  data : List Field
  /-- whether the line ends with a newline -/
  newline : Bool

/-- The time as printed: seconds and nine digits. -/
def Line.timeText (l : Line) : Text := dec l.secs ++ ['.'] ++ (padded 9 l.nanos).map digitChar

/-- The printed line. -/
def Line.text (l : Line) : Text :=
  ['['] ++ l.timeText ++ [']', ' '] ++ l.host ++ [' '] ++ l.domain ++ [':'] ++ l.name ++ [':', ' '] ++
    braces l.stream ++ [',', ' '] ++ braces l.context ++ [',', ' '] ++ braces l.data ++ (if l.newline then ['\n'] else [])

/-- Field names are not empty and have no spaces, commas or closing braces (they are identifiers). Integers have 64 bits. Other values do not begin like a number and contain
    neither a closing brace nor ", ". -/
def Field.Valid (f : Field) : Prop :=
  f.key ≠ [] ∧ ' ' ∉ f.key ∧ ',' ∉ f.key ∧ '}' ∉ f.key ∧
  match f.value with
  | .int z => -2 ^ 63 ≤ z ∧ z < 2 ^ 64
  | .other t => '}' ∉ t ∧ ¬ [',', ' '] <:+: t ∧ ∃ c r, t = c :: r ∧ isSpace c = false ∧ digit 10 c = none ∧ c ≠ '-' ∧ c ≠ '+'

structure Line.Valid (l : Line) : Prop where
  secs : l.secs < 2 ^ 64
  nanos : l.nanos < 10 ^ 9
  host : ' ' ∉ l.host
  domain : ' ' ∉ l.domain ∧ ':' ∉ l.domain
  name : ' ' ∉ l.name
  fields : ∀ f ∈ l.stream ++ l.context ++ l.data, f.Valid
  keys : (l.stream.map Field.key).Nodup ∧ (l.context.map Field.key).Nodup ∧ (l.data.map Field.key).Nodup
  /-- a line fits in memory -/
  length : l.text.length < 2 ^ 63

/-- The map holds exactly the integer fields, as unsigned 64 bit numbers. If the program was compiled so that the key is evaluated first (see `Ctf.keyValue`), fields that are
    not integers appear with the value 0. -/
def Holds (keyFirst : Bool) (m : IdMap) (fs : List Field) : Prop :=
  ∀ k n, m.lookup k = some n ↔ ∃ f ∈ fs, f.key = k ∧ match f.value with
    | .int z => (n : Int) = z % 2 ^ 64
    | .other _ => keyFirst = true ∧ n = 0

end Scalopus.Ctf.Spec
