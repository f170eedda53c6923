import Verif.Model.Bson

/-!
# Numbers in queries and answers, in words

What a double is worth (IEEE 754), what a message says about the id of a thread, and which requests for the switches of a server are complete.
-/

namespace Scalopus.QueryNumbers

open Bson (Val Bytes)

/-- The bytes of a text. -/
def text (s : String) : Bytes := s.toUTF8.data.toList

/-- Neither infinite nor NaN. -/
def Finite (d : UInt64) : Prop := d.toNat / 2 ^ 52 % 2048 ≠ 2047

/-- The sign of a double. -/
def Negative (d : UInt64) : Prop := 2 ^ 63 ≤ d.toNat

/-- The whole number that a double is a multiple of a power of two of: with a leading one unless it is subnormal. -/
def significand (d : UInt64) : Nat := if d.toNat / 2 ^ 52 % 2048 = 0 then d.toNat % 2 ^ 52 else d.toNat % 2 ^ 52 + 2 ^ 52

/-- The exponent: the size of a finite double is `significand d * 2 ^ exponent d / 2 ^ 1075`. -/
def exponent (d : UInt64) : Nat := if d.toNat / 2 ^ 52 % 2048 = 0 then 1 else d.toNat / 2 ^ 52 % 2048

/-- `t` is what the double has before its point, with its sign. -/
def Before (d : UInt64) (t : Int) : Prop :=
  Finite d ∧ t.natAbs * 2 ^ 1075 ≤ significand d * 2 ^ exponent d ∧ significand d * 2 ^ exponent d < (t.natAbs + 1) * 2 ^ 1075 ∧
  (t < 0 → Negative d) ∧ (0 < t → ¬ Negative d)

/-- The value `v` of a message names the thread `k`: an integer that is `k`, but for a multiple of 2^64, or a double with `k` before its point. -/
def Names (v : Val) (k : Nat) : Prop :=
  k < 2 ^ 64 ∧ ((∃ n q : Int, v = .int n ∧ n = k + q * 2 ^ 64) ∨ ∃ d, v = .dbl d ∧ Before d k)

/-- An entry for one thread: a list whose first two elements name a thread and give its switch. -/
def Entry (v : Val) : Prop := ∃ a b rest k, v = .arr (a :: .bool b :: rest) ∧ Names a k

/-- The part of a request that says how to set the switches. -/
def Switching (v : Val) : Prop :=
  ∃ l p sp ts, v = .obj l ∧ l.lookup (text "p") = some (.bool p) ∧ l.lookup (text "sp") = some (.bool sp) ∧ l.lookup (text "t") = some (.arr ts) ∧ ∀ x ∈ ts, Entry x

/-- A complete request: it has a command, and with the command "set" it says how to set the switches. -/
def Complete (v : Val) : Prop :=
  ∃ l c, v = .obj l ∧ l.lookup (text "cmd") = some (.str c) ∧ (c = text "set" → ∃ st, l.lookup (text "state") = some st ∧ Switching st)

/-- Nothing in the value is a double. -/
inductive Whole : Val → Prop where
  | null : Whole .null
  | bool (b : Bool) : Whole (.bool b)
  | int (n : Int) : Whole (.int n)
  | str (s : Bytes) : Whole (.str s)
  | arr (l : List Val) : (∀ v ∈ l, Whole v) → Whole (.arr l)
  | obj (l : List (Bytes × Val)) : (∀ p ∈ l, Whole p.2) → Whole (.obj l)

/-- A request to set switches, with any values as ids of threads. -/
def setMessage (p sp : Bool) (t : List (Val × Bool)) : Val :=
  .obj [(text "cmd", .str (text "set")), (text "state", .obj [(text "p", .bool p), (text "sp", .bool sp), (text "t", .arr (t.map fun x => .arr [x.1, .bool x.2]))])]

/-- An answer to a query for process information, with any values as ids. -/
def infoMessage (pid : Val) (name : Bytes) (threads : List (Val × Bytes)) : Val :=
  .obj [(text "pid", pid), (text "name", .str name), (text "threads", .arr (threads.map fun x => .arr [x.1, .str x.2]))]

/-- The value `v` of a message gives the process id `t`: an integer that is `t`, but for a multiple of 2^32, a double with `t` before its point, or a boolean. -/
def Process (v : Val) (t : Int) : Prop :=
  -2 ^ 31 ≤ t ∧ t < 2 ^ 31 ∧ ((∃ n q : Int, v = .int n ∧ n = t + q * 2 ^ 32) ∨ (∃ d, v = .dbl d ∧ Before d t) ∨ ∃ b, v = .bool b ∧ t = if b then 1 else 0)

/-- The value `v` of a message gives the id `k` of a tracepoint, likewise. -/
def Tracepoint (v : Val) (k : Nat) : Prop :=
  k < 2 ^ 32 ∧ ((∃ n q : Int, v = .int n ∧ n = k + q * 2 ^ 32) ∨ (∃ d, v = .dbl d ∧ Before d k) ∨ ∃ b, v = .bool b ∧ k = if b then 1 else 0)

/-- A value of a message is a text. -/
def Text (v : Val) (s : Bytes) : Prop := v = .str s

/-- A value of a message is a boolean. -/
def Switch (v : Val) (b : Bool) : Prop := v = .bool b

/-- `v` is a table: a list of lists, of each of which the first element says a key and the second one a value. The table `m` has each of the keys once, with the value of the first of the lists that say it. -/
def Says {κ ν : Type} [BEq κ] (key : Val → κ → Prop) (value : Val → ν → Prop) (v : Val) (m : List (κ × ν)) : Prop :=
  ∃ ts, v = .arr ts ∧ (∀ x ∈ ts, ∃ a b rest k w, x = .arr (a :: b :: rest) ∧ key a k ∧ value b w) ∧ (m.map Prod.fst).Nodup ∧
    ∀ k w, m.lookup k = some w ↔ ∃ before a b rest after, ts = before ++ .arr (a :: b :: rest) :: after ∧ key a k ∧ value b w ∧ ∀ x ∈ before, ∀ a' r, x = .arr (a' :: r) → ¬ key a' k

end Scalopus.QueryNumbers
