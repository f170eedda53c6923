/-!
# Recordings that are ended more than once

Models the sources of one viewer's session (`NativeTraceSource`, scalopus_tracing/src/native/native_trace_source.cpp:46-59, 70-89, 209-213, and `LttngSource`, scalopus_tracing/src/lttng/lttng_source.cpp:45-69), and what the thread of the session
does with them for the messages that begin and end a recording (scalopus_catapult/src/trace_session.cpp:109-143), one call of a source at a time, while events arrive from the threads of the transports and of the parser.

An event is a number; its conversion to an entry, names and chunks are the subject of other properties (C31, C37, C68). An LTTng source is a callback of the parser while it records (that disabling it takes effect at once unless a
line is being passed on is C53); an event reaches a native source in one step (that it may be added a moment after the source has stopped is C34).
-/

namespace Scalopus.RepeatedEnds

/-- Where events come from. -/
inductive Kind where
  | native
  | lttng
  deriving Repr, DecidableEq

/-- A source. -/
structure Source where
  kind : Kind
  /-- `in_interval_`, native_trace_source.h:75; or `callback_ != nullptr`, lttng_source.h:71 -/
  recording : Bool := false
  /-- `recorded_data_`, native_trace_source.h:78; or `events_`, lttng_source.h:69 -/
  data : List Nat := []
  deriving Repr, DecidableEq

/-- `startInterval`, native_trace_source.cpp:46-54, lttng_source.cpp:45-50: both forget what they had. -/
def Source.start (s : Source) : Source := { s with recording := true, data := [] }

/-- `stopInterval`, native_trace_source.cpp:56-59, lttng_source.cpp:52-59 -/
def Source.stop (s : Source) : Source := { s with recording := false }

/-- `finishInterval`: the native source swaps what it has with an empty vector, native_trace_source.cpp:70-89; the LTTng source converts what it has, lttng_source.cpp:65-69, and keeps it: `convertEvents` (71-177) does not change `events_`. -/
def Source.finish (s : Source) : Source × List Nat :=
  match s.kind with
  | .native => ({ s with recording := false, data := [] }, s.data)
  | .lttng => ({ s with recording := false }, s.data)

/-- An event arrives: `incoming` passes it to the sources that record, native_trace_provider.cpp:64-91; the parser to the callbacks, lttng_source.cpp:49. -/
def Source.arrive (s : Source) (k : Kind) (e : Nat) : Source := if s.kind = k ∧ s.recording then { s with data := s.data ++ [e] } else s

/-- What the thread of the session has yet to do for a message. -/
inductive Task where
  /-- trace_session.cpp:113-116 -/
  | start (i : Nat)
  /-- trace_session.cpp:124-127 -/
  | stop (i : Nat)
  /-- trace_session.cpp:133-137 -/
  | finish (i : Nat)
  /-- `chunkedTransmit(events)`, trace_session.cpp:138 -/
  | send
  deriving Repr, DecidableEq

/-- The session. -/
structure State where
  /-- `sources_`, trace_session.h:84 -/
  sources : List Source
  todo : List Task := []
  /-- `events`, trace_session.cpp:132, with the number of the source -/
  out : List (Nat × Nat) := []
  /-- what the viewer got, for every end, with the number of the source -/
  shown : List (List (Nat × Nat)) := []
  deriving Repr, DecidableEq

/-- What is done for a message of the viewer: `Tracing.start` (`true`) or `Tracing.end`. -/
def tasks (n : Nat) (begins : Bool) : List Task :=
  if begins then (List.range n).map .start else (List.range n).map .stop ++ ((List.range n).map .finish ++ [.send])

inductive Act where
  /-- the thread of the session takes the next message, trace_session.cpp:77-80; other messages do nothing with the sources -/
  | message (begins : Bool)
  /-- it goes on with it -/
  | work
  /-- an event arrives -/
  | arrive (k : Kind) (e : Nat)
  deriving Repr, DecidableEq

/-- Change source `i`. -/
def State.modify (s : State) (i : Nat) (f : Source → Source) : State := { s with sources := s.sources.modify i f }

/-- One step; `none`: not possible now. -/
def step (s : State) : Act → Option State
  | .message b => if s.todo = [] then some { s with todo := tasks s.sources.length b } else none
  | .work =>
    match s.todo with
    | [] => none
    | .start i :: l => some { (s.modify i Source.start) with todo := l }
    | .stop i :: l => some { (s.modify i Source.stop) with todo := l }
    | .finish i :: l =>
      match s.sources[i]? with
      | none => some { s with todo := l }
      | some x => some { (s.modify i fun x => x.finish.1) with todo := l, out := s.out ++ x.finish.2.map fun e => (i, e) }
    | .send :: l => some { s with todo := l, out := [], shown := s.shown ++ [s.out] }
  | .arrive k e => some { s with sources := s.sources.map fun x => x.arrive k e }

/-- A history. -/
def run (s : State) : List Act → Option State
  | [] => some s
  | a :: as => (step s a).bind fun s => run s as

/-- A session with these sources. -/
def init (kinds : List Kind) : State := { sources := kinds.map fun k => { kind := k } }

end Scalopus.RepeatedEnds
