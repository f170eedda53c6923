import Verif.Model.Base

/-!
# Per-thread buffers, thread exit and the native trace sender

Models `TracePointCollectorNative` (scalopus_tracing/src/native/tracepoint_collector_native.cpp:53-111), the `push` of the
tracepoints (scalopus_tracing/src/native/native_tracepoint.cpp:62-138) and the worker of `EndpointNativeTraceSender`
(scalopus_tracing/src/native/endpoint_native_trace_sender.cpp:75-113) as a transition system: the threads, and the one sender
thread, interleave; each critical section and each ring buffer call is one step.

Simplifications:
- A ring buffer is a queue of at most `size - 1` elements (C01). The producer may see an outdated read index, so a push may be
  refused because of up to `lag` elements that are already gone; the consumer may see an outdated write index, so it may collect
  only the first elements of the queue (C02). A buffer taken from the list of orphans is emptied: its thread has made its last push
  before it locked the mutex that the sender locked later, so the sender sees all of them.
- There is one sender in the process; a second one would be a second consumer of the ring buffers.
- `pthread_self` is unique among the threads that exist; the identifier of a thread that ended may be used again.
- Exit of a thread ends with the clean-up callback. A tracepoint of that thread after it (in the destructor of a `thread_local`
  object that was made before the first tracepoint) uses `thread_local` variables that are destroyed: undefined behaviour.
-/

namespace Scalopus.Collector

/-- An event in a buffer. `thread` (the number of the emitting thread) and `stamp` (the number of rounds the sender had finished
    when it was emitted) are ghosts; `val` is the `StaticTraceEvent`. -/
structure Ev (α : Type) where
  thread : Nat
  stamp : Nat
  val : α
  deriving Repr, DecidableEq

/-- A ring buffer: its size parameter, its content, how many elements were popped from it (ghost). -/
structure Buf (α : Type) where
  size : Nat
  queue : List (Ev α) := []
  popped : Nat := 0
  deriving Repr, DecidableEq

/-- Where a thread is: it may reach tracepoints; its clean-up has put the buffer into the orphans
    (tracepoint_collector_native.cpp:66-76); its clean-up has finished (77). -/
inductive Phase where
  | running
  | retiring
  | ended
  deriving Repr, DecidableEq

/-- A thread that reached a tracepoint: its `pthread_self` and its buffer (the `thread_local` pointers in
    native_tracepoint.cpp:66, :82, :98, :127; all of them hold the same buffer). -/
structure Thread where
  tid : Nat
  buf : Nat
  phase : Phase := .running
  deriving Repr, DecidableEq

/-- An element of `tid_buffers` in `work`; `orphan` is a ghost that tells where it came from. -/
structure Entry where
  tid : Nat
  buf : Nat
  orphan : Bool
  deriving Repr, DecidableEq

/-- Where the sender is in `work`. -/
inductive Sender where
  /-- before line 83 -/
  | idle
  /-- after line 83 -/
  | tookOrphans (todo : List Entry)
  /-- in the loop of lines 91-102 -/
  | collecting (todo : List Entry)
  deriving Repr, DecidableEq

/-- A round that collected something: whether the sender had a transport to broadcast it (endpoint_native_trace_sender.cpp:105-108),
    and the map that was or would have been sent. -/
structure Batch (α : Type) where
  sent : Bool
  events : List (Nat × List (Ev α))
  deriving Repr, DecidableEq

/-- The state of the process. -/
structure State (α : Type) where
  /-- `ringbuffer_size_` (tracepoint_collector_native.h:176) -/
  ringSize : Nat := 10000
  bufs : List (Buf α) := []
  threads : List Thread := []
  /-- `active_tid_buffers_` -/
  active : List (Nat × Nat) := []
  /-- `orphaned_tid_buffers_` -/
  orphans : List (Nat × Nat) := []
  sender : Sender := .idle
  /-- `events`, and the counter `collected` -/
  events : List (Nat × List (Ev α)) := []
  collected : Nat := 0
  /-- `transport_` is set -/
  transport : Bool := false
  batches : List (Batch α) := []
  /-- finished rounds (ghost) -/
  rounds : Nat := 0
  /-- all emitted events and whether they were accepted (ghost) -/
  log : List (Ev α × Bool) := []
  deriving Repr, DecidableEq

/-- `events[tid]` followed by appending, endpoint_native_trace_sender.cpp:99-101. -/
def addTo {β : Type} : List (Nat × List β) → Nat → List β → List (Nat × List β)
  | [], t, l => [(t, l)]
  | (t', l') :: r, t, l => if t' = t then (t', l' ++ l) :: r else (t', l') :: addTo r t l

/-- Steps. -/
inductive Act (α : Type) where
  /-- `setRingbufferSize`, tracepoint_collector_native.cpp:95-98 -/
  | setRingbufferSize (n : Nat)
  /-- a new thread with this `pthread_self` reaches its first tracepoint: `getBuffer`, tracepoint_collector_native.cpp:53-93 -/
  | start (tid : Nat)
  /-- thread number `t` pushes an event, native_tracepoint.cpp:74 and alike; it sees a read index that is `lag` behind -/
  | emit (t : Nat) (val : α) (lag : Nat)
  /-- clean-up of thread `t`, tracepoint_collector_native.cpp:63-74 -/
  | retire (t : Nat)
  /-- clean-up of thread `t`, tracepoint_collector_native.cpp:75 -/
  | erase (t : Nat)
  /-- endpoint_native_trace_sender.cpp:83 -/
  | takeOrphans
  /-- endpoint_native_trace_sender.cpp:85-88 -/
  | snapshot
  /-- one iteration of endpoint_native_trace_sender.cpp:91-102, with a view of the buffer in which only the first `k` elements are
      there (`none`: all) -/
  | collect (k : Option Nat)
  /-- endpoint_native_trace_sender.cpp:103-109 -/
  | finish
  /-- the endpoint is added to a transport -/
  | setTransport
  deriving Repr, DecidableEq

variable {α : Type}

/-- One step. A step that is not possible in a state changes nothing. -/
def step (s : State α) : Act α → Res (State α)
  | .setRingbufferSize n => .ok { s with ringSize := n }
  | .start tid =>
    if s.threads.any (fun th => th.tid = tid ∧ th.phase ≠ .ended) then .ok s
    else match s.active.lookup tid with
      | some b => .ok { s with threads := s.threads ++ [{ tid := tid, buf := b }] }
      | none =>
        if s.ringSize = 0 then .throws "SPSCRingBuffer"
        else .ok { s with
          bufs := s.bufs ++ [{ size := s.ringSize }]
          active := s.active ++ [(tid, s.bufs.length)]
          threads := s.threads ++ [{ tid := tid, buf := s.bufs.length }] }
  | .emit t v lag =>
    match s.threads[t]? with
    | none => .ok s
    | some th =>
      match th.phase with
      | .ended => .ub
      | .retiring => .ok s
      | .running =>
        match s.bufs[th.buf]? with
        | none => .ub
        | some b =>
          if b.popped < lag then .ok s
          else
            let e : Ev α := { thread := t, stamp := s.rounds, val := v }
            if b.queue.length + lag + 1 < b.size then
              .ok { s with bufs := s.bufs.set th.buf { b with queue := b.queue ++ [e] }, log := s.log ++ [(e, true)] }
            else .ok { s with log := s.log ++ [(e, false)] }
  | .retire t =>
    match s.threads[t]? with
    | none => .ok s
    | some th =>
      match th.phase with
      | .running =>
        let s := { s with threads := s.threads.set t { th with phase := .retiring } }
        match s.active.lookup th.tid with
        | some b => .ok { s with orphans := s.orphans ++ [(th.tid, b)] }
        | none => .ok s
      | _ => .ok s
  | .erase t =>
    match s.threads[t]? with
    | none => .ok s
    | some th =>
      match th.phase with
      | .retiring =>
        .ok { s with threads := s.threads.set t { th with phase := .ended }, active := s.active.filter (fun x => x.1 ≠ th.tid) }
      | _ => .ok s
  | .takeOrphans =>
    match s.sender with
    | .idle => .ok { s with sender := .tookOrphans (s.orphans.map fun x => ⟨x.1, x.2, true⟩), orphans := [] }
    | _ => .ok s
  | .snapshot =>
    match s.sender with
    | .tookOrphans todo => .ok { s with sender := .collecting (todo ++ s.active.map fun x => ⟨x.1, x.2, false⟩) }
    | _ => .ok s
  | .collect k =>
    match s.sender with
    | .collecting (e :: rest) =>
      match s.bufs[e.buf]? with
      | none => .ub
      | some b =>
        let n := if e.orphan then b.queue.length else min (k.getD b.queue.length) b.queue.length
        .ok { s with
          sender := .collecting rest
          bufs := s.bufs.set e.buf { b with queue := b.queue.drop n, popped := b.popped + n }
          events := addTo s.events e.tid (b.queue.take n)
          collected := s.collected + n }
    | _ => .ok s
  | .finish =>
    match s.sender with
    | .collecting [] =>
      .ok { s with
        sender := .idle, events := [], collected := 0, rounds := s.rounds + 1
        batches := if s.collected = 0 then s.batches else s.batches ++ [{ sent := s.transport, events := s.events }] }
    | _ => .ok s
  | .setTransport => .ok { s with transport := true }

/-- A history. -/
def run (s : State α) : List (Act α) → Res (State α)
  | [] => .ok s
  | a :: as => (step s a).bind fun s => run s as

end Scalopus.Collector
