import Verif.Model.Base

/-!
# Wire protocol of the unix transport (scalopus_transport/src/protocol.{h,cpp})

Bytes are `UInt8`, a `std::string` and a `Data` (types.h:39) are lists of bytes. Integers are written in host byte order;
the model fixes little endian (x86-64, AArch64) with `sizeof(size_t) = 8`.
-/

namespace Scalopus.Protocol

abbrev Bytes := List UInt8

/-- `protocol::Msg`, protocol.h:46-51 (`request_id` is a `size_t`). -/
structure Msg where
  requestId : Nat := 0
  endpoint : Bytes := []
  data : Bytes := []
  deriving Repr, DecidableEq

/-- The `k` bytes of an unsigned integer in memory, least significant first. The value is reduced modulo `256^k`, as by
    the `static_cast`s in protocol.cpp:161-162. -/
def leBytes : (k : Nat) → Nat → Bytes
  | 0, _ => []
  | k + 1, x => UInt8.ofNat x :: leBytes k (x / 256)

/-- Value of an unsigned integer in memory (`*reinterpret_cast<...>(tmp.data())`, protocol.cpp:107, :117, :139). -/
def leVal : Bytes → Nat
  | [] => 0
  | b :: bs => b.toNat + 256 * leVal bs

/-- The five buffers that `send` hands to `::send`, protocol.cpp:155-198: the length of the name is cast to 16 bits and
    only that many bytes of the name are sent; the length of the data is cast to 32 bits but all bytes are sent. -/
def sendParts (m : Msg) : List Bytes :=
  [ leBytes 8 m.requestId,
    leBytes 2 m.endpoint.length,
    m.endpoint.take (m.endpoint.length % 2 ^ 16),
    leBytes 4 m.data.length,
    m.data ]

/-- All bytes of a message that is sent successfully, protocol.cpp:155-198. -/
def encode (m : Msg) : Bytes := (sendParts m).flatten

/-- `send`, protocol.cpp:155-198. `accepted` says for each `::send` call in turn how many bytes the kernel took before the
    connection broke (`none` = everything). Result: the return value and the bytes that reached the stream. -/
def sendLoop : List Bytes → List (Option Nat) → Bool × Bytes
  | [], _ => (true, [])
  | p :: ps, [] => let (b, bs) := sendLoop ps []; (b, p ++ bs)
  | p :: ps, none :: os => let (b, bs) := sendLoop ps os; (b, p ++ bs)
  | p :: ps, some k :: os =>
    if k < p.length then (false, p.take k) else let (b, bs) := sendLoop ps os; (b, p ++ bs)

/-- `send`, protocol.cpp:155-198, with the check for file descriptor 0 (157-160). -/
def send (fd : Nat) (m : Msg) (accepted : List (Option Nat)) : Bool × Bytes :=
  if fd = 0 then (false, []) else sendLoop (sendParts m) accepted

/-- The kernel's side of a stream socket: the bytes that arrive before the peer closes, and for each future `read` call
    how many bytes are available at that moment (`none` = the call fails with -1; an empty list = everything asked for
    is available from now on). -/
structure Env where
  bytes : Bytes
  avail : List (Option Nat) := []
  deriving Repr, DecidableEq

/-- `::read(fd, buf, want)` on a blocking stream socket (POSIX): at least one byte and at most `want` of the bytes that
    are available, zero bytes if the peer has closed and nothing is left (or if `want` is 0), -1 (`none`) on error. -/
def read (e : Env) (want : Nat) : Option Bytes × Env :=
  match e.avail with
  | [] => (some (e.bytes.take want), { e with bytes := e.bytes.drop want })
  | none :: as => (none, { e with avail := as })
  | some n :: as =>
    let k := min (max n 1) want
    (some (e.bytes.take k), { bytes := e.bytes.drop k, avail := as })

theorem read_le {e e' : Env} {want : Nat} {c : Bytes} (h : read e want = (some c, e')) : c.length ≤ want := by
  unfold read at h
  split at h <;> simp at h
  · rw [← h.1]; simp; omega
  · rw [← h.1]; simp; omega

/-- `chunk_size`, protocol.cpp:47. -/
def chunkSize : Nat := 4096

/-- The loop of `readData`, protocol.cpp:52-88. `left` is `length - received`, `acc` is `incoming` so far. Returns the
    return value of `readData`, the contents of `incoming` and the rest of the stream. -/
def readLoop (e : Env) (left : Nat) (acc : Bytes) : Bool × Bytes × Env :=
  match _h : read e (min left chunkSize) with
  | (none, e') => (false, acc, e')                              -- line 55-58
  | (some c, e') =>
    if c.length = left then (true, acc ++ c, e')                -- line 66-69
    else if _hc : c.length = chunkSize then                     -- line 71-75
      readLoop e' (left - c.length) (acc ++ c)
    else if c.length = 0 then (false, acc ++ c, e')             -- line 82-86
    else (true, acc ++ c, e')                                   -- line 87: a short read ends the loop with success
termination_by left
decreasing_by
  have := read_le _h
  simp [chunkSize] at *
  omega

/-- `readData`, protocol.cpp:44-90. -/
def readData (e : Env) (length : Nat) : Bool × Bytes × Env := readLoop e length []

/-- `receive`, protocol.cpp:92-153: the return value, `incoming` as it is left (also on failure) and the rest of the
    stream. Interpreting or copying a buffer that is shorter than the field (after a short read) reads past the end of
    the buffer: `ub`. -/
def receive (e : Env) : Res (Bool × Msg × Env) :=
  match readData e 8 with                                                           -- 105-113
  | (false, _, e) => .ok (false, {}, e)
  | (true, tmp, e) =>
  if tmp.length < 8 then .ub else
  let m : Msg := { requestId := leVal tmp }
  match readData e 2 with                                                           -- 115-124
  | (false, _, e) => .ok (false, m, e)
  | (true, tmp, e) =>
  if tmp.length < 2 then .ub else
  let nameLength := leVal tmp
  match readData e nameLength with                                                  -- 126-135
  | (false, _, e) => .ok (false, m, e)
  | (true, tmp, e) =>
  if tmp.length < nameLength then .ub else
  let m := { m with endpoint := tmp.take nameLength }
  match readData e 4 with                                                           -- 137-145
  | (false, _, e) => .ok (false, m, e)
  | (true, tmp, e) =>
  if tmp.length < 4 then .ub else
  let dataLength := leVal tmp
  match readData e dataLength with                                                  -- 147-152
  | (ok, data, e) => .ok (ok, { m with data := data }, e)

/-- Receiving `n` messages one after the other. -/
def receiveMany (e : Env) : Nat → Res (List Msg × Env)
  | 0 => .ok ([], e)
  | n + 1 =>
    match receive e with
    | .ok (true, m, e) =>
      match receiveMany e n with
      | .ok (ms, e) => .ok (m :: ms, e)
      | r => r
    | .ok (false, _, e) => .ok ([], e)
    | .throws w => .throws w
    | .ub => .ub
    | .terminate => .terminate

end Scalopus.Protocol
