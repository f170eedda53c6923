import Verif.Model.Protocol

/-!
# One direction of a connection, call by call

`Model/Protocol` reads a message from bytes that are already there, and `Model/Unix` exchanges whole messages. Here the calls of `::send` and `::read` of all threads interleave: any number of threads send messages over
the same descriptor (requests, answers, broadcasts: scalopus_transport/src/transport_unix.cpp:149-151, :296-297, :329-330, :361-362), each in five calls under `write_lock_`, while the worker at the other end reads with one
call after the other.

Assumptions about the system (stream sockets of Linux): the bytes of a call of `::send` are appended to the stream in pieces of `limit` bytes, the last one being shorter; a call of `::read` waits until there are bytes
and returns as many of them as it asked for, or all there are. Connections that break are the subject of C10 and C94, calls that are interrupted of C112 and C113.
-/

namespace Scalopus.UnixStream

open Protocol

/-- The pieces in which the system appends the bytes of one call, protocol.cpp:165-196. -/
def split (limit : Nat) (p : Bytes) : List Bytes :=
  if _h : p.length ≤ max limit 1 then [p] else p.take (max limit 1) :: split limit (p.drop (max limit 1))
termination_by p.length
decreasing_by simp; omega

/-- The part of a message that is being read, protocol.cpp:94-100. -/
inductive Field where
  | id | nameLength | name | dataLength | data
  deriving Repr, DecidableEq

/-- Where the worker is in `receive`, protocol.cpp:92-153. -/
structure Reader where
  field : Field := .id
  /-- `length` of the call of `readData`, protocol.cpp:44 -/
  need : Nat := 8
  /-- `incoming` of the call of `readData`, protocol.cpp:49, :62-63; its size is `received` -/
  acc : Bytes := []
  /-- the message so far, protocol.cpp:107, :128-129 -/
  msg : Msg := {}
  deriving Repr, DecidableEq

/-- What follows when a field has been read. -/
inductive Next where
  /-- a buffer is read past its end -/
  | ub
  /-- the next field -/
  | more (r : Reader)
  /-- `receive` returns -/
  | got (m : Msg)
  deriving Repr, DecidableEq

/-- After `readData` has returned true, protocol.cpp:105-150. -/
def next (r : Reader) : Next :=
  match r.field with
  | .id => if r.acc.length < 8 then .ub else .more { field := .nameLength, need := 2, msg := { requestId := leVal r.acc } }
  | .nameLength => if r.acc.length < 2 then .ub else .more { field := .name, need := leVal r.acc, msg := r.msg }
  | .name => if r.acc.length < r.need then .ub else .more { field := .dataLength, need := 4, msg := { r.msg with endpoint := r.acc.take r.need } }
  | .dataLength => if r.acc.length < 4 then .ub else .more { field := .data, need := leVal r.acc, msg := r.msg }
  | .data => .got { r.msg with data := r.acc }

structure State where
  /-- the bytes that have been sent and not read -/
  stream : Bytes := []
  /-- the thread that holds `write_lock_`, and the pieces that its calls of `::send` have yet to append -/
  lock : Option (Nat × List Bytes) := none
  reader : Reader := {}
  /-- the messages that `receive` has returned -/
  got : List Msg := []
  ub : Bool := false
  /-- ghost: the messages in the order in which their sending began -/
  log : List Msg := []
  deriving Repr, DecidableEq

inductive Act where
  /-- thread `t` gets `write_lock_` and begins to send a message, transport_unix.cpp:150-151, :296-297, :329-330, :361-362 -/
  | lock (t : Nat) (m : Msg)
  /-- the next piece is appended, protocol.cpp:165-196 -/
  | put
  /-- the thread has sent all and releases the lock, transport_unix.cpp:156, :298, :331, :363 -/
  | unlock
  /-- the worker at the other end calls `::read`, protocol.cpp:54 -/
  | read
  deriving Repr, DecidableEq

/-- `readData` has returned true, protocol.cpp:105-150. -/
def finish (s : State) (r : Reader) : State :=
  match next r with
  | .ub => { s with reader := r, ub := true }
  | .more r => { s with reader := r }
  | .got m => { s with reader := {}, got := s.got ++ [m] }

/-- The worker got `c` from `::read`, protocol.cpp:54-89. -/
def gotChunk (s : State) (c : Bytes) : State :=
  let r := { s.reader with acc := s.reader.acc ++ c }
  if r.acc.length ≠ r.need ∧ c.length = chunkSize then { s with reader := r }
  else finish s r

/-- One step; `none`: the thread waits. -/
def step (limit : Nat) (s : State) : Act → Option State
  | .lock t m =>
    match s.lock with
    | some _ => none
    | none => some { s with lock := some (t, (sendParts m).flatMap (split limit)), log := s.log ++ [m] }
  | .put =>
    match s.lock with
    | some (t, p :: ps) => some { s with stream := s.stream ++ p, lock := some (t, ps) }
    | _ => none
  | .unlock =>
    match s.lock with
    | some (_, []) => some { s with lock := none }
    | _ => none
  | .read =>
    if s.ub then none else
    let want := min (s.reader.need - s.reader.acc.length) chunkSize
    if want ≠ 0 ∧ s.stream = [] then none
    else some (gotChunk { s with stream := s.stream.drop want } (s.stream.take want))

/-- A schedule. -/
def run (limit : Nat) (s : State) : List Act → Option State
  | [] => some s
  | a :: as => (step limit s a).bind fun s => run limit s as

end Scalopus.UnixStream
