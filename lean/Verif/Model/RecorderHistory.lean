import Verif.Model.Recorder

/-!
# What a recorder writes over its life

Models `CatapultRecorder` (scalopus_catapult/src/catapult_recorder.cpp:36-153) with the sources of native, LTTng and general providers and with the files that it writes.

Simplifications. The calls are made one after the other, and data arrives between them (the calls of a source lock its data, C34). What a native or LTTng source makes of the data is here the data (sorting and naming are the subject of C31,
C32, C35 and C68), what a general source gives is arbitrary (C57). `work()` of these sources does nothing (native_trace_source.cpp:60-62, lttng_source.cpp:61-63, trace_event_source.cpp:47-49). A file can be opened or not; if it can, all is written.
-/

namespace Scalopus.RecorderHistory

open JsonText

/-- The kinds of providers, and of the sources that they make. -/
inductive Kind where
  | native
  | lttng
  | general
  deriving DecidableEq

/-- A source: the number of the provider that made it, and for a native source `in_interval_` and `recorded_data_`, native_trace_source.h:75-78; for an LTTng source whether it has a `callback_`, and `events_`, lttng_source.h:69-71 -/
structure Src where
  prov : Nat
  kind : Kind
  recording : Bool := false
  data : List J := []

structure State where
  providers : List Kind := []
  sources : List Src := []
  /-- `running_`; the thread is joinable exactly then (C41) -/
  running : Bool := false
  dump : List Char := []
  /-- the files, by their paths -/
  files : List Char → Option Text := fun _ => none
  destroyed : Bool := false

/-- `startInterval` of a source, native_trace_source.cpp:45-53, lttng_source.cpp:45-50, trace_event_source.cpp:34-36 -/
def startSrc (x : Src) : Src := if x.kind = .general then x else { x with recording := true, data := [] }

/-- `stopInterval` of a source, native_trace_source.cpp:55-58, lttng_source.cpp:52-59, trace_event_source.cpp:38-40 -/
def stopSrc (x : Src) : Src := if x.kind = .general then x else { x with recording := false }

/-- What `finishInterval` of a source gives, native_trace_source.cpp:71-146, lttng_source.cpp:65-177, general_source.cpp:40-74: `info` is what the general provider knows at that time. -/
def gives (info : Nat → List J) (x : Src) : List J := if x.kind = .general then info x.prov else x.data

/-- What is left in a source afterwards: a native source has swapped out the data, native_trace_source.cpp:84-89; an LTTng source keeps it, lttng_source.cpp:65-69, 71-177. -/
def finishSrc (x : Src) : Src :=
  match x.kind with
  | .native => { x with recording := false, data := [] }
  | .lttng => { x with recording := false }
  | .general => x

/-- Data arrives at provider `i`, which gives it to its sources that record, native_trace_provider.cpp:64-92; lttng_source.cpp:49. -/
def arriveSrc (i : Nat) (j : J) (x : Src) : Src := if x.kind ≠ .general ∧ x.prov = i ∧ x.recording then { x with data := x.data ++ [j] } else x

inductive Act where
  | addProvider (kind : Kind)
  | start
  | stop
  | startInterval
  | stopInterval
  | arrive (i : Nat) (j : J)
  | setupDumpFile (path : List Char)
  | collect (info : Nat → List J)
  /-- `opens`: the file can be opened -/
  | write (path : List Char) (opens : Bool) (info : Nat → List J)
  | destroy (opens : Bool) (info : Nat → List J)

/-- `collectEvents`, catapult_recorder.cpp:106-137 -/
def collect (s : State) (info : Nat → List J) : State × Res Text :=
  ({ s with sources := s.sources.map finishSrc }, (Recorder.collectEvents (s.sources.map fun x => .ok (gives info x))).2)

/-- `writeToFile`, catapult_recorder.cpp:139-144: the state, and whether it throws. A file that cannot be opened is not noticed. -/
def write (s : State) (path : List Char) (opens : Bool) (info : Nat → List J) : State × Res Unit :=
  match collect s info with
  | (s', .ok t) => ({ s' with files := if opens then fun p => if p = path then some t else s.files p else s.files }, .ok ())
  | (s', .throws w) => (s', .throws w)
  | (s', .ub) => (s', .ub)
  | (s', .terminate) => (s', .terminate)

/-- A call, or data that arrives: the state, and whether the call returns. -/
def step (s : State) : Act → State × Res Unit
  /- catapult_recorder.cpp:78-81 -/
  | .addProvider b => ({ s with providers := s.providers ++ [b] }, .ok ())
  /- catapult_recorder.cpp:83-99 -/
  | .start =>
    if s.running then (s, .ok ())
    else ({ s with sources := s.providers.mapIdx fun i b => { prov := i, kind := b }, running := true }, .ok ())
  /- catapult_recorder.cpp:54-58: joining a thread that is not joinable throws -/
  | .stop => if s.running then ({ s with running := false }, .ok ()) else (s, .throws "system_error")
  /- catapult_recorder.cpp:60-67 -/
  | .startInterval => ({ s with sources := s.sources.map startSrc }, .ok ())
  /- catapult_recorder.cpp:69-76 -/
  | .stopInterval => ({ s with sources := s.sources.map stopSrc }, .ok ())
  | .arrive i j => ({ s with sources := s.sources.map (arriveSrc i j) }, .ok ())
  /- catapult_recorder.cpp:101-104 -/
  | .setupDumpFile path => ({ s with dump := path }, .ok ())
  | .collect info =>
    match collect s info with
    | (s', .ok _) => (s', .ok ())
    | (s', .throws w) => (s', .throws w)
    | (s', .ub) => (s', .ub)
    | (s', .terminate) => (s', .terminate)
  | .write path opens info => write s path opens info
  /- catapult_recorder.cpp:146-153; a destructor must not throw -/
  | .destroy opens info =>
    if s.running then
      let s' : State := { s with running := false, destroyed := true }
      if s.dump = [] then (s', .ok ())
      else match write s' s.dump opens info with
        | (s'', .ok ()) => (s'', .ok ())
        | (s'', _) => (s'', .terminate)
    else (s, .terminate)

/-- A history, in which exceptions are caught by the program. `none`: the program was ended, or uses a recorder that is destroyed. -/
def run (s : State) : List Act → Option State
  | [] => some s
  | a :: l =>
    if s.destroyed then none
    else match step s a with
      | (s', .ok ()) => run s' l
      | (s', .throws _) => run s' l
      | _ => none

end Scalopus.RecorderHistory
