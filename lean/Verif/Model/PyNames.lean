import Verif.Model.Base

/-!
# Names in Python

A name (of a process, a thread or a tracepoint) is a `std::string` in C++, any bytes, and text in Python. pybind11 converts at each call (scalopus_python/lib/scalopus_general.cpp:52-59, :66-67, :72, lib/scalopus_tracing.cpp:69, :114-116):
text becomes its UTF-8 encoding, a `bytes` object becomes its bytes, and a `std::string` that is given to Python is decoded strictly (`PyUnicode_DecodeUTF8` without an error handler), for a map all of its strings.

Between processes the bytes of a name are not changed (C128). The maps are `std::unordered_map`s; here lists of pairs with different keys. A text of Python is a list of code points, of which the surrogates have no UTF-8 encoding.
-/

namespace Scalopus.PyNames

abbrev Bytes := List UInt8

/-- The UTF-8 encoding of a code point. Part of scalopus_python/lib/scalopus_general.cpp:66 (the conversion of a `str`) -/
def encode1 (c : Nat) : Bytes :=
  if c < 0x80 then [UInt8.ofNat c]
  else if c < 0x800 then [UInt8.ofNat (0xC0 + c / 64), UInt8.ofNat (0x80 + c % 64)]
  else if c < 0x10000 then [UInt8.ofNat (0xE0 + c / 4096), UInt8.ofNat (0x80 + c / 64 % 64), UInt8.ofNat (0x80 + c % 64)]
  else [UInt8.ofNat (0xF0 + c / 262144), UInt8.ofNat (0x80 + c / 4096 % 64), UInt8.ofNat (0x80 + c / 64 % 64), UInt8.ofNat (0x80 + c % 64)]

/-- Code points that are no surrogates. -/
def scalar (c : Nat) : Bool := c < 0xD800 || (0xE000 ≤ c && c < 0x110000)

/-- `str` to `std::string`; `none`: there is a surrogate in it, and the conversion fails. Part of scalopus_python/lib/scalopus_general.cpp:66 -/
def encode (t : List Nat) : Option Bytes := if t.all scalar then some (t.flatMap encode1) else none

/-- A byte that continues a character. -/
def cont (x : UInt8) : Bool := 0x80 ≤ x.toNat && x.toNat < 0xC0

/-- The first character of bytes, as a strict decoder reads it: neither longer encodings than needed, nor surrogates, nor numbers above 0x10FFFF. Part of scalopus_python/lib/scalopus_general.cpp:52 (the conversion of a `std::string`) -/
def decode1 : Bytes → Option (Nat × Bytes)
  | [] => none
  | x :: l =>
    if x.toNat < 0x80 then some (x.toNat, l)
    else if x.toNat < 0xC2 then none
    else match l with
    | [] => none
    | y :: l =>
      if !cont y then none
      else if x.toNat < 0xE0 then some ((x.toNat - 0xC0) * 64 + (y.toNat - 0x80), l)
      else if (x.toNat = 0xE0 && y.toNat < 0xA0) || (x.toNat = 0xED && 0xA0 ≤ y.toNat) || (x.toNat = 0xF0 && y.toNat < 0x90) || (x.toNat = 0xF4 && 0x90 ≤ y.toNat) || 0xF5 ≤ x.toNat then none
      else match l with
      | [] => none
      | z :: l =>
        if !cont z then none
        else if x.toNat < 0xF0 then some ((x.toNat - 0xE0) * 4096 + (y.toNat - 0x80) * 64 + (z.toNat - 0x80), l)
        else match l with
        | [] => none
        | w :: l =>
          if !cont w then none
          else some ((x.toNat - 0xF0) * 262144 + (y.toNat - 0x80) * 4096 + (z.toNat - 0x80) * 64 + (w.toNat - 0x80), l)

theorem decode1_lt {b l : Bytes} {c : Nat} (h : decode1 b = some (c, l)) : l.length < b.length := by
  unfold decode1 at h
  repeat' split at h
  all_goals first
    | (simp only [Option.some.injEq, Prod.mk.injEq] at h; obtain ⟨_, rfl⟩ := h; simp only [List.length_cons]; omega)
    | cases h

/-- `std::string` to `str`; `none`: `UnicodeDecodeError`. Part of scalopus_python/lib/scalopus_general.cpp:52 -/
def decode (b : Bytes) : Option (List Nat) :=
  match b with
  | [] => some []
  | x :: l =>
    match h : decode1 (x :: l) with
    | none => none
    | some (c, r) => (decode r).map (c :: ·)
  termination_by b.length
  decreasing_by exact decode1_lt h

/-- What Python passes as a name. -/
inductive Arg where
  | str (t : List Nat)
  | bytes (b : Bytes)
  | other
  deriving Repr, DecidableEq

/-- The `const std::string&` of a call from Python; `none`: a `TypeError`. scalopus_python/lib/scalopus_general.cpp:66, :72, lib/scalopus_tracing.cpp:114 -/
def toStd : Arg → Option Bytes
  | .str t => encode t
  | .bytes b => some b
  | .other => none

/-- Whose name. -/
inductive Key where
  | process
  | thread (id : Nat)
  | trace (id : Nat)
  deriving Repr, DecidableEq

/-- The names of a process: endpoint_process_info.h:51, thread_name_tracker.h, static_string_tracker.h. -/
structure Names where
  process : Bytes := []
  threads : List (Nat × Bytes) := []
  traces : List (Nat × Bytes) := []
  deriving Repr, DecidableEq

/-- `mapping_[key] = value`, scalopus_general/include/scalopus_general/map_tracker.h:53-57 -/
def put (k : Nat) (v : Bytes) (l : List (Nat × Bytes)) : List (Nat × Bytes) := l.filter (·.1 != k) ++ [(k, v)]

/-- endpoint_process_info.cpp:55-58, thread_name_tracker.cpp:41-52, scalopus_tracing.cpp:114-116 -/
def give (n : Names) (k : Key) (b : Bytes) : Names :=
  match k with
  | .process => { n with process := b }
  | .thread id => { n with threads := put id b n.threads }
  | .trace id => { n with traces := put id b n.traces }

/-- The program gives a name, in Python or in C++. -/
inductive Op where
  | py (k : Key) (a : Arg)
  | cpp (k : Key) (b : Bytes)
  deriving Repr, DecidableEq

/-- A call that fails changes nothing (scalopus_general.cpp:66, :72, scalopus_tracing.cpp:114-116). -/
def step (n : Names) : Op → Names
  | .py k a => match toStd a with
    | some b => give n k b
    | none => n
  | .cpp k b => give n k b

def run (n : Names) (ops : List Op) : Names := ops.foldl step n

/-- A map given to Python: all of its strings are converted. scalopus_general.cpp:54, :58 -/
def toDict : List (Nat × Bytes) → Option (List (Nat × List Nat))
  | [] => some []
  | (k, b) :: l =>
    match decode b, toDict l with
    | some t, some r => some ((k, t) :: r)
    | _, _ => none

structure Info where
  name : List Nat
  threads : List (Nat × List Nat)
  deriving Repr, DecidableEq

/-- `processInfo().name`, scalopus_general.cpp:52 -/
def readName (n : Names) : Res (List Nat) :=
  match decode n.process with
  | some t => .ok t
  | none => .throws "UnicodeDecodeError"

/-- `processInfo().to_dict()`, scalopus_general.cpp:55-61 -/
def readInfo (n : Names) : Res Info :=
  match decode n.process, toDict n.threads with
  | some t, some r => .ok { name := t, threads := r }
  | _, _ => .throws "UnicodeDecodeError"

/-- `mapping()`, the names of the one process, scalopus_tracing.cpp:69 -/
def readTraces (n : Names) : Res (List (Nat × List Nat)) :=
  match toDict n.traces with
  | some r => .ok r
  | none => .throws "UnicodeDecodeError"

/-- `run_discover` reads all processes before it prints any (scalopus_python/scalopus/__main__.py:93-103). -/
def discover : List (Nat × Names) → Res (List (Nat × Info))
  | [] => .ok []
  | (pid, n) :: l => (readInfo n).bind fun i => (discover l).bind fun r => .ok ((pid, i) :: r)

end Scalopus.PyNames
