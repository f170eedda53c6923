import Verif.Model.Base

/-!
# Concurrent model of `SPSCRingBuffer` under C++11 release/acquire

One producer thread calls `push`, one consumer thread calls `pop`, `pop_into` and `size`
(scalopus_tracing/src/spsc_ringbuffer.h:61-141). Every memory access is one step, and steps of the two threads
interleave freely.

Memory model:
* Each atomic index has a modification order, here the list of all messages ever stored to it. An index has a single
  writer, which always reads its own last store. The other thread may read any message that is not older than the last
  one it read (read-read coherence); which one is a free choice of the step (`k`).
* A store with `memory_order_release` carries the clock of the storing thread. A load with `memory_order_acquire` of
  that message makes everything the storing thread did up to that clock happen before what follows in the loading
  thread (`pKnows`, `cKnows`). A relaxed load would not. Clocks count the steps of a thread.
* Slots are not atomic. Each slot remembers the clock of the last access by each thread. An access that is not ordered
  by happens-before after the other thread's last access to that slot is a data race and sets `race`, for good.
* `race` also covers access out of bounds; reading a slot that holds no pushed value sets `garbage`.
-/

namespace Scalopus.RingConc

/-- One message in the modification order of an atomic index: the stored value and the clock of the storing thread.
    `count` is a ghost (never read by the modelled program): how many elements had been pushed or popped in total. -/
structure Msg where
  value : Nat
  clock : Nat
  count : Nat
  deriving Repr, DecidableEq

/-- A slot of `container_` (spsc_ringbuffer.h:154) with the clocks of the last accesses (0 = never). -/
structure Slot (α : Type u) where
  content : Option α
  lastP : Nat
  lastC : Nat
  deriving Repr, DecidableEq

/-- Program counter of the producer inside `push` (spsc_ringbuffer.h:82-97). -/
inductive PPc (α : Type u) where
  /-- not inside `push` -/
  | idle
  /-- `write_index` is loaded (line 84) -/
  | gotWrite (v : α) (w : Nat)
  /-- the full check passed (line 87) -/
  | checked (v : α) (w : Nat)
  /-- the value is in the container (line 92) -/
  | stored (v : α) (w : Nat)
  deriving Repr, DecidableEq

/-- Program counter of the consumer inside `pop` (104-119), `pop_into` (127-141) or `size` (70-76). -/
inductive CPc (α : Type u) where
  | idle
  /-- `pop`: `write_index` is loaded (106) -/
  | popW (w : Nat)
  /-- `pop`: not empty (109) -/
  | popGo (r : Nat)
  /-- `pop`: the value has been moved out (114) -/
  | popGot (r : Nat) (v : α)
  /-- `pop_into`: `write_index` is loaded (129) -/
  | intoW (max w : Nat)
  /-- `pop_into`: in the loop (133-136); `r` is `read_index`, `left` iterations remain, `got` is the output so far -/
  | intoLoop (r count left : Nat) (got : List α)
  /-- `size`: `write_index` is loaded (72) -/
  | sizeW (w : Nat)
  deriving Repr, DecidableEq

/-- What a finished call returned; the log of each thread is a list of these. -/
inductive Ret (α : Type u) where
  | pushed (v : α)
  | refused (v : α)
  | popped (v : α)
  | popEmpty
  | poppedMany (vs : List α)
  | size (n : Nat)
  deriving Repr, DecidableEq

/-- The whole state. -/
structure St (α : Type u) where
  n : Nat
  slots : List (Slot α)
  /-- modification order of `write_index_`, oldest first -/
  histW : List Msg
  /-- modification order of `read_index_`, oldest first -/
  histR : List Msg
  pPc : PPc α
  cPc : CPc α
  pClock : Nat
  cClock : Nat
  /-- consumer clock known to happen before the producer's current point -/
  pKnows : Nat
  /-- producer clock known to happen before the consumer's current point -/
  cKnows : Nat
  /-- index in `histR` of the message the producer read last -/
  pSeen : Nat
  /-- index in `histW` of the message the consumer read last -/
  cSeen : Nat
  pLog : List (Ret α)
  cLog : List (Ret α)
  race : Bool
  garbage : Bool
  deriving Repr, DecidableEq

/-- The constructor, spsc_ringbuffer.h:53-59 (size not zero; C01 covers size zero). Construction happens before both
    threads start. -/
def init (α : Type u) (n : Nat) : St α :=
  { n, slots := List.replicate n ⟨none, 0, 0⟩, histW := [⟨0, 0, 0⟩], histR := [⟨0, 0, 0⟩],
    pPc := .idle, cPc := .idle, pClock := 0, cClock := 0, pKnows := 0, cKnows := 0, pSeen := 0, cSeen := 0,
    pLog := [], cLog := [], race := false, garbage := false }

/-- `available`, spsc_ringbuffer.h:61-68. -/
def available (maxSize write read : Nat) : Nat :=
  if write ≥ read then write - read else write + maxSize - read

/-- One memory access of one thread. The argument `k` picks the message that an acquire load reads. -/
inductive Act (α : Type u) where
  | pBegin (v : α)
  | pLoadR (k : Nat)
  | pWriteSlot
  | pStoreW
  | cBeginPop (k : Nat)
  | cBeginInto (max k : Nat)
  | cBeginSize (k : Nat)
  | cLoadR
  | cTake
  | cStoreR
  deriving Repr

/-- An atomic index always has at least the message of its initialisation. -/
def lastMsg (h : List Msg) : Msg := h.getLast?.getD ⟨0, 0, 0⟩

/-- Non-atomic write of slot `i` by the producer. -/
def pAccess (s : St α) (i : Nat) (v : α) : St α :=
  match s.slots[i]? with
  | none => { s with race := true }
  | some sl =>
    { s with slots := s.slots.set i ⟨some v, s.pClock, sl.lastC⟩, race := s.race || decide (s.pKnows < sl.lastC) }

/-- Non-atomic move out of slot `i` by the consumer; the new state and the value. -/
def cAccess (s : St α) (i : Nat) : St α × Option α :=
  match s.slots[i]? with
  | none => ({ s with race := true }, none)
  | some sl =>
    ({ s with slots := s.slots.set i ⟨none, sl.lastP, s.cClock⟩, race := s.race || decide (s.cKnows < sl.lastP),
              garbage := s.garbage || sl.content.isNone }, sl.content)

/-- Acquire load of `write_index_` by the consumer, reading message `k` (spsc_ringbuffer.h:72, :106, :130). -/
def cAcquireW (s : St α) (k : Nat) : Option (St α × Nat) :=
  if s.cSeen ≤ k then
    match s.histW[k]? with
    | some m => some ({ s with cSeen := k, cKnows := max s.cKnows m.clock }, m.value)
    | none => none
  else none

/-- One step. `none` means that the action is not possible in this state (wrong program counter, or a load of a message
    that coherence forbids). -/
def step (s : St α) : Act α → Option (St α)
  | .pBegin v => -- line 84, relaxed load of the own index
    match s.pPc with
    | .idle => some { s with pPc := .gotWrite v (lastMsg s.histW).value, pClock := s.pClock + 1 }
    | _ => none
  | .pLoadR k => -- lines 85-90, acquire load of the read index and the full check
    match s.pPc with
    | .gotWrite v w =>
      if s.pSeen ≤ k then
        match s.histR[k]? with
        | some m =>
          let s := { s with pSeen := k, pKnows := max s.pKnows m.clock, pClock := s.pClock + 1 }
          if (w + 1) % s.n = m.value then some { s with pPc := .idle, pLog := s.pLog ++ [.refused v] }
          else some { s with pPc := .checked v w }
        | none => none
      else none
    | _ => none
  | .pWriteSlot => -- line 92
    match s.pPc with
    | .checked v w =>
      let s := { s with pClock := s.pClock + 1 }
      some { pAccess s w v with pPc := .stored v w }
    | _ => none
  | .pStoreW => -- line 94, release store
    match s.pPc with
    | .stored v w =>
      let s := { s with pClock := s.pClock + 1 }
      some { s with
        histW := s.histW ++ [⟨(w + 1) % s.n, s.pClock, (lastMsg s.histW).count + 1⟩]
        pPc := .idle, pLog := s.pLog ++ [.pushed v] }
    | _ => none
  | .cBeginPop k => -- line 106
    match s.cPc with
    | .idle =>
      match cAcquireW s k with
      | some (s, w) => some { s with cPc := .popW w, cClock := s.cClock + 1 }
      | none => none
    | _ => none
  | .cBeginInto mx k => -- line 129
    match s.cPc with
    | .idle =>
      match cAcquireW s k with
      | some (s, w) => some { s with cPc := .intoW mx w, cClock := s.cClock + 1 }
      | none => none
    | _ => none
  | .cBeginSize k => -- line 72
    match s.cPc with
    | .idle =>
      match cAcquireW s k with
      | some (s, w) => some { s with cPc := .sizeW w, cClock := s.cClock + 1 }
      | none => none
    | _ => none
  | .cLoadR => -- lines 107-112, 130-133, 73-75: relaxed load of the own index
    let s' := { s with cClock := s.cClock + 1 }
    let r := (lastMsg s.histR).value
    match s.cPc with
    | .popW w =>
      if w = r then some { s' with cPc := .idle, cLog := s'.cLog ++ [.popEmpty] }
      else some { s' with cPc := .popGo r }
    | .intoW mx w =>
      let count := min (available s.n w r) mx
      some { s' with cPc := .intoLoop r count count [] }
    | .sizeW w => some { s' with cPc := .idle, cLog := s'.cLog ++ [.size (available s.n w r)] }
    | _ => none
  | .cTake => -- lines 114, 136
    let s' := { s with cClock := s.cClock + 1 }
    match s.cPc with
    | .popGo r =>
      match cAccess s' r with
      | (s', some v) => some { s' with cPc := .popGot r v }
      | (s', none) => some { s' with cPc := .idle }
    | .intoLoop r count (left + 1) got =>
      match cAccess s' ((r + (count - (left + 1))) % s.n) with
      | (s', some v) => some { s' with cPc := .intoLoop r count left (got ++ [v]) }
      | (s', none) => some { s' with cPc := .idle }
    | _ => none
  | .cStoreR => -- lines 116-118, 138-140, release store
    let s' := { s with cClock := s.cClock + 1 }
    match s.cPc with
    | .popGot r v =>
      some { s' with
        histR := s.histR ++ [⟨(r + 1) % s.n, s'.cClock, (lastMsg s.histR).count + 1⟩]
        cPc := .idle, cLog := s.cLog ++ [.popped v] }
    | .intoLoop r count 0 got =>
      some { s' with
        histR := s.histR ++ [⟨(r + count) % s.n, s'.cClock, (lastMsg s.histR).count + count⟩]
        cPc := .idle, cLog := s.cLog ++ [.poppedMany got] }
    | _ => none

/-- A schedule: a sequence of steps of the two threads. -/
def run (s : St α) : List (Act α) → Option (St α)
  | [] => some s
  | a :: as => (step s a).bind fun s => run s as

end Scalopus.RingConc
