import Verif.Model.Ctf

/-!
# Recording sessions of LTTng events

Models `BabeltraceParser::process` from the point where it has read a line (scalopus_tracing/src/lttng/babeltrace_parser.cpp:85-119), `setCallback` (145-152), `BabeltraceTool::
addCallback` (babeltrace_tool.cpp:104-117), `EventCallback` (include_consumer/scalopus_tracing/babeltrace_parser.h:53-63) and `LttngSource::startInterval`, `stopInterval`,
`finishInterval` and the destructor (lttng_source.cpp:40-69). One thread runs the parser; each source is used by one other thread at a time, and different sources by different
threads. Each access to shared data is a step, except those made with the mutex by one operation (`setCallback`). The steps are sequentially consistent: what else the compiler
may do with the data races is not modelled, `Race` in the specification says where they are. The reading of lines is in `Model/LttngStream`, halting in `Model/LttngTool`.
-/

namespace Scalopus.LttngSessions

open Ctf (Event Text)

/-- An `EventCallback`, babeltrace_parser.h:53-63. `callback` says whether the function is set; it always pushes to the events of `source` (lttng_source.cpp:49). -/
structure Session where
  source : Nat
  active : Bool := true
  callback : Bool := true
  /-- Not in the code: how many lines the parser had passed when the session was added. -/
  since : Nat
  /-- Not in the code: what the function was called with. -/
  received : List Event := []

/-- Where the parser is. All but the first two hold `mutex_`. -/
inductive Parser where
  /-- Between lines. -/
  | wait
  /-- Has read a line, about to lock (babeltrace_parser.cpp:96). -/
  | line (l : Text)
  /-- About to test `active` of the next session, or to leave the loop (94-96). -/
  | scan (e : Event) (todo : List Nat)
  /-- About to test the function (105). -/
  | test (e : Event) (c : Nat) (todo : List Nat)
  /-- About to call the function (107). -/
  | call (e : Event) (c : Nat) (todo : List Nat)
  /-- In the function, about to push to the events of the source (lttng_source.cpp:49). -/
  | run (e : Event) (c : Nat) (todo : List Nat)

/-- Whether the parser holds `mutex_`. -/
def Parser.locked : Parser → Bool
  | .wait => false
  | .line _ => false
  | _ => true

/-- What follows after `stopInterval()`. `stop` stands for `stopInterval` and `finishInterval`, which then reads the events. -/
inductive After where
  | stop | start | destroy
  deriving DecidableEq

/-- Where the thread that uses the source is. -/
inductive User where
  | idle
  /-- About to write `active` (babeltrace_parser.h:60, lttng_source.cpp:56). -/
  | disable (a : After)
  /-- About to write the function (babeltrace_parser.h:61) and to reset `callback_` (lttng_source.cpp:57). -/
  | null (a : After)
  /-- About to clear the events (lttng_source.cpp:48). -/
  | clear
  /-- About to add a session, under the mutex (babeltrace_parser.cpp:147-151). -/
  | insert
  deriving DecidableEq

/-- An `LttngSource`. -/
structure Source where
  alive : Bool := true
  events : List Event := []
  current : Option Nat := none
  user : User := .idle

/-- Whether the process still runs. -/
inductive Fate where
  | running | terminated | ub
  deriving DecidableEq

structure State where
  parser : Parser := .wait
  /-- All sessions ever made. -/
  sessions : List Session := []
  /-- `sessions_recording_`, in the order of the set, which is that of the addresses. -/
  recording : List Nat := []
  sources : List Source := []
  fate : Fate := .running
  /-- Not in the code: the lines the parser has passed or is passing to the sessions. -/
  passed : List Text := []

inductive Act where
  /-- The parser reads a line. -/
  | read (l : Text)
  /-- The parser goes on. -/
  | parser
  /-- A source is made. -/
  | make
  /-- A method of a source is called: `stopInterval`, `startInterval` or the destructor. -/
  | begin (src : Nat) (a : After)
  /-- The thread of a source goes on; an added session comes at position `pos` of the set. -/
  | user (src : Nat) (pos : Nat)

/-- After `stopInterval`, lttng_source.cpp:42-43, 48, 59. -/
def next (x : Source) : After → Source
  | .stop => { x with user := .idle }
  | .start => { x with user := .clear }
  | .destroy => { x with user := .idle, alive := false }

/-- A step of the parser; `keyFirst` is the parameter of `Ctf.parse`. -/
def parserStep (keyFirst : Bool) (s : State) : Option State :=
  match s.parser with
  | .wait => none
  | .line l =>
    -- 90-93
    if s.recording = [] then some { s with parser := .wait, passed := s.passed ++ [l] }
    else match Ctf.parse keyFirst l with
      | .ok e => some { s with parser := .scan e s.recording, passed := s.passed ++ [l] }
      | .ub => some { s with fate := .ub }
      -- an exception leaves the function of the thread
      | _ => some { s with fate := .terminated }
  | .scan _ [] => some { s with parser := .wait }
  | .scan e (c :: todo) =>
    match s.sessions[c]? with
    | none => none
    | some x =>
      -- 96-103
      if x.active = false then some { s with parser := .scan e todo, recording := s.recording.filter (· ≠ c) }
      else some { s with parser := .test e c todo }
  | .test e c todo =>
    match s.sessions[c]? with
    | none => none
    | some x => if x.callback then some { s with parser := .call e c todo } else some { s with parser := .scan e todo }
  | .call e c todo =>
    match s.sessions[c]? with
    | none => none
    -- an empty std::function throws bad_function_call
    | some x => if x.callback then some { s with parser := .run e c todo } else some { s with fate := .terminated }
  | .run e c todo =>
    match s.sessions[c]? with
    | none => none
    | some x =>
      match s.sources[x.source]? with
      | none => none
      | some y =>
        if y.alive then
          some { s with parser := .scan e todo, sessions := s.sessions.set c { x with received := x.received ++ [e] },
                        sources := s.sources.set x.source { y with events := y.events ++ [e] } }
        else some { s with fate := .ub }

/-- A step of the thread that uses source `src`. -/
def userStep (s : State) (src pos : Nat) : Option State :=
  match s.sources[src]? with
  | none => none
  | some y =>
    match y.user with
    | .idle => none
    | .disable a =>
      match y.current with
      | none => none
      | some c =>
        match s.sessions[c]? with
        | none => none
        | some x => some { s with sessions := s.sessions.set c { x with active := false }, sources := s.sources.set src { y with user := .null a } }
    | .null a =>
      match y.current with
      | none => none
      | some c =>
        match s.sessions[c]? with
        | none => none
        | some x => some { s with sessions := s.sessions.set c { x with callback := false }, sources := s.sources.set src (next { y with current := none } a) }
    | .clear => some { s with sources := s.sources.set src { y with events := [], user := .insert } }
    | .insert =>
      if s.parser.locked then none
      else some { s with
        sessions := s.sessions ++ [{ source := src, since := s.passed.length }]
        recording := s.recording.insertIdx (min pos s.recording.length) s.sessions.length
        sources := s.sources.set src { y with current := some s.sessions.length, user := .idle } }

/-- One step. Nothing happens in a process that has ended. -/
def step (keyFirst : Bool) (s : State) (a : Act) : Option State :=
  if s.fate ≠ .running then none
  else match a with
    | .read l => match s.parser with
      | .wait => some { s with parser := .line l }
      | _ => none
    | .parser => parserStep keyFirst s
    | .make => some { s with sources := s.sources ++ [{}] }
    | .begin src a =>
      match s.sources[src]? with
      | none => none
      | some y =>
        if y.alive ∧ y.user = .idle then
          some { s with sources := s.sources.set src (if y.current.isSome then { y with user := .disable a } else next y a) }
        else none
    | .user src pos => userStep s src pos

/-- The states reached by executions all of whose steps satisfy `P`. -/
inductive ReachableBy (keyFirst : Bool) (P : State → Act → Prop) : State → Prop
  | init : ReachableBy keyFirst P {}
  | step {s s' : State} {a : Act} : ReachableBy keyFirst P s → P s a → step keyFirst s a = some s' → ReachableBy keyFirst P s'

/-- The reachable states. -/
abbrev Reachable (keyFirst : Bool) : State → Prop := ReachableBy keyFirst fun _ _ => True

end Scalopus.LttngSessions
