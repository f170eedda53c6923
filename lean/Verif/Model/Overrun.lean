import Verif.Model.Sections

/-!
# A traced thread that is faster than the collection of its events

Models the buffer of one thread (scalopus_tracing/src/spsc_ringbuffer.h:82-97, made with 10000 elements: src/native/tracepoint_collector_native.h:176,
tracepoint_collector_native.cpp:86-88), the tracepoints, which ignore the result of `push` (src/native/native_tracepoint.cpp:73-75), and the loop that takes the events out
(src/native/endpoint_native_trace_sender.cpp:90-102).

Simplifications: the ring buffer is a queue of at most `size - 1` elements (C01, C02); the thread may not yet know of the last `lag` elements that were taken out.
-/

namespace Scalopus.Overrun

open Sections (Moment)

/-- What happens: the thread reaches a tracepoint, or the sender takes one element out. -/
inductive Act where
  | emit (m : Moment) (lag : Nat)
  | take
  deriving Repr, DecidableEq

structure State where
  queue : List Moment := []
  /-- taken out by the sender, in this order -/
  taken : List Moment := []
  deriving Repr, DecidableEq

/-- One step: `push` stores the event unless the buffer is full, spsc_ringbuffer.h:82-97, and the tracepoint does not look at its result, native_tracepoint.cpp:73-75;
    `pop_into` takes out the oldest, endpoint_native_trace_sender.cpp:98-101. -/
def step (size : Nat) (s : State) : Act → Option State
  | .emit m lag =>
    if s.taken.length < lag then none
    else if s.queue.length + lag + 1 < size then some { s with queue := s.queue ++ [m] }
    else some s
  | .take => match s.queue with
    | [] => none
    | m :: q => some { queue := q, taken := s.taken ++ [m] }

def run (size : Nat) (s : State) : List Act → Option State
  | [] => some s
  | a :: as => (step size s a).bind fun s' => run size s' as

end Scalopus.Overrun
