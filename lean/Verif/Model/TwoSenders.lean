import Verif.Model.RingBuffer

/-!
# Several trace senders in one process

Every `EndpointNativeTraceSender` starts a thread that collects the events of all threads of the process (scalopus_tracing/src/native/endpoint_native_trace_sender.cpp:47-58, 75-113). A process that is
exposed over two transports, for which it adds the endpoint to each of them, has two such threads, and each of them takes events out of the same ring buffers, which are made for one consumer
(scalopus_tracing/src/spsc_ringbuffer.h:99-103). Here: one ring buffer, its thread, and any number of senders.

Simplifications:
- Memory is sequentially consistent, each access of a sender to the buffer is one step, and `push` is one step. Two senders that move the same event out of its slot at the same time are a data race, which is
  undefined behaviour; the model goes on with what the accesses do one after the other. Every behaviour in the model is one that the program may have.
- The other ring buffers are left out, and so are those of threads that ended: such a buffer is taken by one sender only (`retrieveAndClearOrphanedBuffers`, tracepoint_collector_native.cpp:105-111).
-/

namespace Scalopus.TwoSenders

/-- `StaticTraceEvent`, scalopus_tracing/src/native/tracepoint_collector_native.h:53-59, with its default values. -/
structure Event where
  time : Nat := 0
  id : Nat := 0
  kind : Nat := 0
  data : Option (List Nat) := none
  deriving Repr, DecidableEq

/-- Where a sender is in lines 96-101 of endpoint_native_trace_sender.cpp, for this buffer. -/
inductive Pc where
  /-- not at this buffer -/
  | idle
  /-- in `size`: the write index is loaded (spsc_ringbuffer.h:72) -/
  | sizeW (w : Nat)
  /-- `size` has returned (endpoint_native_trace_sender.cpp:98) -/
  | sized (m : Nat)
  /-- in `pop_into`: the write index is loaded (spsc_ringbuffer.h:130) -/
  | intoW (m w : Nat)
  /-- in the loop of `pop_into` (133-137): the read index, `readable_count`, how many are done and the output -/
  | loop (r c i : Nat) (got : List Event)
  deriving Repr, DecidableEq

/-- The buffer (spsc_ringbuffer.h:151-155) and the senders. `out` is what the senders have sent, and who did (endpoint_native_trace_sender.cpp:103-109); `acc`, a ghost, is what was pushed. -/
structure St where
  n : Nat
  slots : List Event
  wi : Nat := 0
  ri : Nat := 0
  pcs : List Pc
  out : List (Nat × List Event) := []
  acc : List Event := []
  deriving Repr, DecidableEq

/-- A buffer of size `n` (spsc_ringbuffer.h:53-59, tracepoint_collector_native.cpp:86-87) and `k` senders. -/
def init (n k : Nat) : St := { n, slots := List.replicate n {}, pcs := List.replicate k .idle }

inductive Act where
  /-- a tracepoint (native_tracepoint.cpp:62-138) -/
  | push (e : Event)
  /-- the next access of a sender -/
  | go (j : Nat)
  deriving Repr, DecidableEq

/-- `std::move(container_[i])` (spsc_ringbuffer.h:136) for a `StaticTraceEvent`: the numbers are copied, the `unique_ptr` is left empty. -/
def moved (e : Event) : Event := { e with data := none }

/-- The element at a place; the places used are below the size. -/
def atSlot (s : St) (i : Nat) : Event := s.slots[i]?.getD {}

/-- One step. -/
def step (s : St) : Act → Option St
  -- spsc_ringbuffer.h:82-97
  | .push e =>
    let next := (s.wi + 1) % s.n
    if next = s.ri then some s
    else some { s with slots := s.slots.set s.wi e, wi := next, acc := s.acc ++ [e] }
  | .go j =>
    match s.pcs[j]? with
    -- spsc_ringbuffer.h:72
    | some .idle => some { s with pcs := s.pcs.set j (.sizeW s.wi) }
    -- 73-75
    | some (.sizeW w) => some { s with pcs := s.pcs.set j (.sized (RingBuffer.available s.n w s.ri)) }
    -- 129
    | some (.sized m) => some { s with pcs := s.pcs.set j (.intoW m s.wi) }
    -- 130-132
    | some (.intoW m w) => some { s with pcs := s.pcs.set j (.loop s.ri (min (RingBuffer.available s.n w s.ri) m) 0 []) }
    | some (.loop r c i got) =>
      if i < c then
        -- 136
        let k := (r + i) % s.n
        some { s with slots := s.slots.set k (moved (atSlot s k)), pcs := s.pcs.set j (.loop r c (i + 1) (got ++ [atSlot s k])) }
      else
        -- 138-140, then endpoint_native_trace_sender.cpp:103-109
        some { s with ri := (r + c) % s.n, pcs := s.pcs.set j .idle, out := if c = 0 then s.out else s.out ++ [(j, got)] }
    | none => none

def run (s : St) : List Act → Option St
  | [] => some s
  | a :: as => (step s a).bind (run · as)

end Scalopus.TwoSenders
