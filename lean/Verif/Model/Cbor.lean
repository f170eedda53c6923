import Verif.Model.Base

/-!
# CBOR and the batches of trace events

The CBOR library (thirdparty/cbor) is not part of the sources. Its encoding is modelled after RFC 7049, with the shortest heads and definite lengths; its
readers accept heads of every width. On top of it this file models, function by function, how scalopus writes and reads its messages:
scalopus_tracing/src/native/tracepoint_collector_native.h:61-104, scalopus_tracing/src/native/endpoint_native_trace_sender.cpp:63-73, scalopus_tracing/src/native/native_tracepoint.cpp:135-137
and the reading part of scalopus_tracing/src/native/native_trace_source.cpp:102-107, :155-156.

Assumptions on the library (RFC 7049 and its documentation): unsigned numbers are major type 0, signed ones 0 or 1, a `std::string` is major type 3, a
`std::vector<uint8_t>` is major type 2, a `std::vector` of something else is an array, a `std::map` is a map in the order of the keys, a null `unique_ptr` is null;
a `cbor_object` holds one encoded item; readers throw `cbor::error` for a wrong type, a number out of range or missing bytes.
-/

namespace Scalopus.Cbor

abbrev Bytes := List UInt8

/-- The last `k` bytes of a number, most significant first. -/
def bigEndian : Nat → Nat → Bytes
  | 0, _ => []
  | k + 1, n => UInt8.ofNat (n / 256 ^ k) :: bigEndian k n

/-- The number with these bytes, most significant first. -/
def ofBigEndian (b : Bytes) : Nat := b.foldl (fun n x => n * 256 + x.toNat) 0

/-- The head of an item: major type and argument (RFC 7049, section 2.1). -/
def head (major n : Nat) : Bytes :=
  if n < 24 then [UInt8.ofNat (major * 32 + n)]
  else if n < 2 ^ 8 then UInt8.ofNat (major * 32 + 24) :: bigEndian 1 n
  else if n < 2 ^ 16 then UInt8.ofNat (major * 32 + 25) :: bigEndian 2 n
  else if n < 2 ^ 32 then UInt8.ofNat (major * 32 + 26) :: bigEndian 4 n
  else UInt8.ofNat (major * 32 + 27) :: bigEndian 8 n

/-- Take `k` bytes. -/
def take (k : Nat) (b : Bytes) : Option (Bytes × Bytes) := if b.length < k then none else some (b.take k, b.drop k)

/-- Read a head: major type, argument, rest. Indefinite lengths and reserved widths are errors. -/
def readHead : Bytes → Option (Nat × Nat × Bytes)
  | [] => none
  | x :: r =>
    let major := x.toNat / 32
    let info := x.toNat % 32
    let wide (k : Nat) : Option (Nat × Nat × Bytes) := (take k r).map fun p => (major, ofBigEndian p.1, p.2)
    if info < 24 then some (major, info, r)
    else if info = 24 then wide 1
    else if info = 25 then wide 2
    else if info = 26 then wide 4
    else if info = 27 then wide 8
    else none

/-- Read a head with a given major type: the argument and the rest. -/
def expect (major : Nat) (b : Bytes) : Option (Nat × Bytes) :=
  match readHead b with
  | some (m, n, r) => if m = major then some (n, r) else none
  | none => none

/-- Pass over `k` items (what reading a `cbor_object` does). Every round takes at least one byte, so that the length of the input is enough `fuel`. -/
def skip : Nat → Nat → Bytes → Option Bytes
  | _, 0, b => some b
  | 0, _ + 1, _ => none
  | fuel + 1, k + 1, b =>
    match readHead b with
    | none => none
    | some (major, n, r) =>
      if major = 2 ∨ major = 3 then (take n r).bind fun p => skip fuel k p.2
      else if major = 4 then skip fuel (k + n) r
      else if major = 5 then skip fuel (k + 2 * n) r
      else if major = 6 then skip fuel (k + 1) r
      else skip fuel k r

/-- Read one item without interpreting it: its bytes and the rest. -/
def readRaw (b : Bytes) : Option (Bytes × Bytes) := (skip b.length 1 b).map fun r => (b.take (b.length - r.length), r)

/-- Read `n` times. -/
def times {α : Type} (f : Bytes → Option (α × Bytes)) : Nat → Bytes → Option (List α × Bytes)
  | 0, b => some ([], b)
  | n + 1, b => (f b).bind fun p => (times f n p.2).bind fun q => some (p.1 :: q.1, q.2)

/-- Read a number below `lim`. -/
def readUInt (lim : Nat) (b : Bytes) : Option (Nat × Bytes) :=
  (expect 0 b).bind fun p => if p.1 < lim then some p else none

/-- Read a `std::int64_t`. -/
def readInt64 (b : Bytes) : Option (Int × Bytes) :=
  match readHead b with
  | some (0, n, r) => if n < 2 ^ 63 then some ((n : Int), r) else none
  | some (1, n, r) => if n < 2 ^ 63 then some (-1 - (n : Int), r) else none
  | _ => none

/-- Read a byte or text string of this major type. -/
def readBytes (major : Nat) (b : Bytes) : Option (Bytes × Bytes) := (expect major b).bind fun p => take p.1 p.2

/-! ## Events -/

/-- `StaticTraceEvent`, tracepoint_collector_native.h:53-59. The widths of the members are the bounds in `Event.Valid`. -/
structure Event where
  time : Nat
  id : Nat
  type : Nat
  data : Option Bytes := none
  deriving Repr, DecidableEq

/-- The values fit the members: `uint64_t`, `uint32_t`, `uint8_t`, tracepoint_collector_native.h:47-51; a vector is shorter than 2^64. -/
def Event.Valid (e : Event) : Prop := e.time < 2 ^ 64 ∧ e.id < 2 ^ 32 ∧ e.type < 2 ^ 8 ∧ ∀ d, e.data = some d → d.length < 2 ^ 64

/-- `to_cbor(StaticTraceEvent)`, tracepoint_collector_native.h:61-79 -/
def Event.encode (e : Event) : Bytes :=
  match e.data with
  | none => head 4 3 ++ head 0 e.time ++ head 0 e.id ++ head 0 e.type
  | some d => head 4 4 ++ head 0 e.time ++ head 0 e.id ++ head 0 e.type ++ (head 2 d.length ++ d)

/-- `from_cbor(std::unique_ptr<Data>)`: null, or the bytes. -/
def readData (b : Bytes) : Option (Option Bytes × Bytes) :=
  match readHead b with
  | some (7, 22, r) => some (none, r)
  | _ => (readBytes 2 b).map fun p => (some p.1, p.2)

/-- `from_cbor(StaticTraceEvent)`, tracepoint_collector_native.h:81-104: three members are read whatever the length is, the fourth if the length is at least four;
    further elements are left in the input. -/
def readEvent (b : Bytes) : Option (Event × Bytes) :=
  (expect 4 b).bind fun p0 =>
  (readUInt (2 ^ 64) p0.2).bind fun p1 =>
  (readUInt (2 ^ 32) p1.2).bind fun p2 =>
  (readUInt (2 ^ 8) p2.2).bind fun p3 =>
  if p0.1 ≥ 4 then (readData p3.2).bind fun p4 => some ({ time := p1.1, id := p2.1, type := p3.1, data := p4.1 }, p4.2)
  else some ({ time := p1.1, id := p2.1, type := p3.1, data := none }, p3.2)

/-- The events of one thread. -/
def readEvents (b : Bytes) : Option (List Event × Bytes) := (expect 4 b).bind fun p => times readEvent p.1 p.2

/-- `ThreadedEvents`, tracepoint_collector_native.h:113: the map in the order of its keys. -/
abbrev Threads := List (Nat × List Event)

/-- Insertion into a `std::map` in the order of its keys; an existing entry stays. -/
def insertKey (m : Threads) (k : Nat) (v : List Event) : Threads :=
  match m with
  | [] => [(k, v)]
  | x :: r => if k < x.1 then (k, v) :: x :: r else if k = x.1 then x :: r else x :: insertKey r k v

def encodeThread (x : Nat × List Event) : Bytes := head 0 x.1 ++ (head 4 x.2.length ++ (x.2.map Event.encode).flatten)

def encodeThreads (m : Threads) : Bytes := head 5 m.length ++ (m.map encodeThread).flatten

def readThread (b : Bytes) : Option ((Nat × List Event) × Bytes) :=
  (readUInt (2 ^ 64) b).bind fun p => (readEvents p.2).bind fun q => some ((p.1, q.1), q.2)

def readThreads (b : Bytes) : Option (Threads × Bytes) :=
  (expect 5 b).bind fun p => (times readThread p.1 p.2).bind fun q => some (q.1.foldl (fun m x => insertKey m x.1 x.2) [], q.2)

/-- The bytes of the keys of the message, endpoint_native_trace_sender.cpp:66-67. -/
def keyEvents : Bytes := [101, 118, 101, 110, 116, 115]
def keyPid : Bytes := [112, 105, 100]

/-- `process_events`, endpoint_native_trace_sender.cpp:63-73: a map with the keys in the order of `std::map<std::string, …>`. -/
def encodeBatch (pid : Nat) (m : Threads) : Bytes :=
  head 5 2 ++ (head 3 keyEvents.length ++ keyEvents ++ encodeThreads m) ++ (head 3 keyPid.length ++ keyPid ++ head 0 pid)

/-- One entry of `std::map<std::string, cbor::cbor_object>`. -/
def readEntry (b : Bytes) : Option ((Bytes × Bytes) × Bytes) :=
  (readBytes 3 b).bind fun p => (readRaw p.2).bind fun q => some ((p.1, q.1), q.2)

/-- Why reading a batch ends: `cbor::error` or `std::out_of_range`; both are caught in native_trace_source.cpp:170-177. -/
inductive Bad where
  | cbor
  | outOfRange
  deriving Repr, DecidableEq

def orBad {α : Type} : Option α → Except Bad α
  | some a => .ok a
  | none => .error .cbor

/-- `parsed.at(key)`. -/
def at? (l : List (Bytes × Bytes)) (key : Bytes) : Except Bad Bytes :=
  match l.lookup key with
  | some v => .ok v
  | none => .error .outOfRange

/-- Reading a batch, native_trace_source.cpp:102-107: `static_cast<int>` of the process id, and the events of the threads. -/
def decodeBatch (b : Bytes) : Except Bad (Int × Threads) := do
  let head ← orBad (expect 5 b)
  let parsed ← orBad (times readEntry head.1 head.2)
  let pidBytes ← at? parsed.1 keyPid
  let pid ← orBad (readUInt (2 ^ 64) pidBytes)
  let evBytes ← at? parsed.1 keyEvents
  let ev ← orBad (readThreads evBytes)
  return ((pid.1 + 2 ^ 31) % 2 ^ 32 - 2 ^ 31, ev.1)

/-- The payload of a counter event, native_tracepoint.cpp:137: a serialized `std::int64_t`. -/
def encodeCounter (v : Int) : Bytes := if 0 ≤ v then head 0 v.toNat else head 1 (-1 - v).toNat

/-- Reading it, native_trace_source.cpp:155-156. -/
def decodeCounter (b : Bytes) : Except Bad Int := (orBad (readInt64 b)).map (·.1)

end Scalopus.Cbor
