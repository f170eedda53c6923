import Verif.Model.Base

/-!
# Sequential model of `SPSCRingBuffer` (scalopus_tracing/src/spsc_ringbuffer.h)
-/

namespace Scalopus.RingBuffer

/-- The members of `SPSCRingBuffer`, spsc_ringbuffer.h:151-155.
    A slot is `none` when it holds a default constructed or moved-from value: reading such a slot is reported as `ub`
    (it is not undefined behaviour in C++ but yields a value nobody pushed, which the theorems must exclude).
    Simplification: `size_t` indices are `Nat`; `read_index + readable_count` in `pop_into` is below `2 * max_size_`, so
    no wrap-around of `size_t` occurs for containers that fit in memory. -/
structure Ring (α : Type u) where
  slots : List (Option α)
  write : Nat
  read : Nat
  maxSize : Nat
  deriving Repr

/-- Constructor, spsc_ringbuffer.h:53-59. The container has `n` default constructed elements
    (tracepoint_collector_native.cpp:86-87 passes `EventContainer{ ringbuffer_size_ }`). -/
def mk (α : Type u) (n : Nat) : Res (Ring α) :=
  if n = 0 then .throws "std::runtime_error"
  else .ok { slots := List.replicate n none, write := 0, read := 0, maxSize := n }

/-- `available`, spsc_ringbuffer.h:61-68. -/
def available (maxSize write read : Nat) : Nat :=
  if write ≥ read then write - read else write + maxSize - read

/-- `size`, spsc_ringbuffer.h:70-76. -/
def size (b : Ring α) : Nat := available b.maxSize b.write b.read

/-- `empty`, spsc_ringbuffer.h:146-149. -/
def empty (b : Ring α) : Bool := b.write == b.read

/-- `push`, spsc_ringbuffer.h:82-97. -/
def push (b : Ring α) (v : α) : Res (Ring α × Bool) :=
  let next := (b.write + 1) % b.maxSize
  if next = b.read then .ok (b, false)
  else if b.write < b.slots.length then
    .ok ({ b with slots := b.slots.set b.write (some v), write := next }, true)
  else .ub

/-- Moving one value out of the container (`std::move(container_[i])`, spsc_ringbuffer.h:114 and :136): the slot is left
    in the moved-from state. -/
def take (slots : List (Option α)) (i : Nat) : Res (α × List (Option α)) :=
  match slots[i]? with
  | some (some v) => .ok (v, slots.set i none)
  | _ => .ub

/-- `pop`, spsc_ringbuffer.h:104-119. -/
def pop (b : Ring α) : Res (Ring α × Option α) :=
  if b.write = b.read then .ok (b, none)
  else
    match take b.slots b.read with
    | .ok (v, slots) => .ok ({ b with slots := slots, read := (b.read + 1) % b.maxSize }, some v)
    | _ => .ub

/-- The copy loop of `pop_into`, spsc_ringbuffer.h:134-137: `count` slots from `index` on, modulo the size. -/
def takeMany (maxSize : Nat) : (slots : List (Option α)) → (index count : Nat) → Res (List α × List (Option α))
  | slots, _, 0 => .ok ([], slots)
  | slots, index, count + 1 =>
    match take slots (index % maxSize) with
    | .ok (v, slots) =>
      match takeMany maxSize slots (index + 1) count with
      | .ok (vs, slots) => .ok (v :: vs, slots)
      | _ => .ub
    | _ => .ub

/-- `pop_into`, spsc_ringbuffer.h:127-141. The output iterator is the returned list. -/
def popInto (b : Ring α) (maxCount : Nat) : Res (Ring α × List α) :=
  let count := min (available b.maxSize b.write b.read) maxCount
  match takeMany b.maxSize b.slots b.read count with
  | .ok (vs, slots) => .ok ({ b with slots := slots, read := (b.read + count) % b.maxSize }, vs)
  | _ => .ub

end Scalopus.RingBuffer
