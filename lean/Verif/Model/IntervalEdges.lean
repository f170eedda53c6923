import Verif.Model.Base

/-!
# The edges of a recording

Puts together how long an event takes to its recording: it waits in the buffer of its thread (native_tracepoint.cpp:62-138) until the sender of its process collects it, about every 10 ms
(scalopus_tracing/src/native/endpoint_native_trace_sender.cpp:75-113), is then in a broadcast on its way to the consumer, and is kept or thrown away by what the source does when the broadcast arrives
(native_trace_provider.cpp:64-91, native_trace_source.cpp:46-58, 68-89, 209-213).

Simplifications: all processes are connected and no buffer is full (C18, C20); a round of a sender takes everything that its process has recorded; the calls on the source and the arrival of a broadcast are
one step each (C34 for their interleavings); one source.
-/

namespace Scalopus.IntervalEdges

/-- An event: of which process, and what. -/
structure Event where
  proc : Nat
  thread : Nat
  enter : Bool
  id : Nat
  time : Nat
  deriving Repr, DecidableEq

structure State where
  /-- what is in the buffers of threads, in the order of time -/
  waiting : List Event := []
  /-- broadcasts that have been sent and have not arrived, with their processes -/
  flight : List (Nat × List Event) := []
  /-- `in_interval_` and `recorded_data_` of the source -/
  recording : Bool := false
  store : List Event := []
  /-- what the last `finishInterval` returned -/
  shown : List Event := []
  deriving Repr, DecidableEq

inductive Act where
  /-- an event happens -/
  | emit (e : Event)
  /-- a round of the sender of a process -/
  | collect (p : Nat)
  /-- the next broadcast of a process arrives -/
  | arrive (p : Nat)
  | start
  | stop
  | finish
  deriving Repr, DecidableEq

/-- The next broadcast of a process: connections keep the order. -/
def next (p : Nat) : List (Nat × List Event) → Option (List Event × List (Nat × List Event))
  | [] => none
  | b :: l => if b.1 = p then some (b.2, l) else (next p l).map fun x => (x.1, b :: x.2)

def step (s : State) : Act → State
  -- native_tracepoint.cpp:74 and alike
  | .emit e => { s with waiting := s.waiting ++ [e] }
  -- endpoint_native_trace_sender.cpp:83-109: nothing is sent if nothing was collected
  | .collect p =>
    let mine := s.waiting.filter fun e => e.proc = p
    if mine = [] then s else { s with waiting := s.waiting.filter fun e => e.proc ≠ p, flight := s.flight ++ [(p, mine)] }
  -- native_trace_provider.cpp:64-91, native_trace_source.cpp:209-213
  | .arrive p =>
    match next p s.flight with
    | none => s
    | some (b, rest) => { s with flight := rest, store := if s.recording then s.store ++ b else s.store }
  -- native_trace_source.cpp:46-54
  | .start => { s with recording := true, store := [] }
  -- native_trace_source.cpp:56-59
  | .stop => { s with recording := false }
  -- native_trace_source.cpp:70-89
  | .finish => { s with recording := false, store := [], shown := s.store }

def run (s : State) (as : List Act) : State := as.foldl step s

end Scalopus.IntervalEdges
