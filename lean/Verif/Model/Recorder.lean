import Verif.Model.Session

/-!
# The recorder that writes to a file

Models `CatapultRecorder` (scalopus_catapult/src/catapult_recorder.cpp:36-153).
-/

namespace Scalopus.Recorder

open JsonText
open Session (Eff finishAll)

/-- The text made in `collectEvents`, catapult_recorder.cpp:122-136; `none`: `dump()` throws. -/
def formatFile (events : List J) : Option Text :=
  (dumpAll events).map fun ts => "[\n".toList ++ sepBy ",\n".toList ts ++ "\n]\n".toList

/-- `collectEvents`, catapult_recorder.cpp:106-137: what is done with the sources, and the text. `results` are what `finishInterval()` of each source gives. -/
def collectEvents (results : List (Res (List J))) : List Eff × Res Text :=
  let stops := (List.range results.length).map Eff.stopSource
  match finishAll 0 results with
  | (es, .ok events) => (stops ++ es, match formatFile events with
    | some t => .ok t
    | none => .throws "type_error")
  | (es, .throws w) => (stops ++ es, .throws w)
  | (es, .ub) => (stops ++ es, .ub)
  | (es, .terminate) => (stops ++ es, .terminate)

/-- The recorder: the number of providers and sources, `running_`, and whether `worker_` is joinable. -/
structure State where
  providers : Nat := 0
  sources : Nat := 0
  running : Bool := false
  joinable : Bool := false
  /-- `dump_file_path_` is not empty -/
  dump : Bool := false
  destroyed : Bool := false
  deriving DecidableEq

/-- Calls by the user. -/
inductive Op where
  | addProvider
  | start
  | stop
  | setupDumpFile
  /-- destruction, with what `finishInterval()` of the sources gives -/
  | destroy (results : List (Res (List J)))

/-- `stop`, catapult_recorder.cpp:54-58: joining a thread that is not joinable throws. -/
def stop (s : State) : Res State :=
  if s.joinable then .ok { s with running := false, joinable := false } else .throws "system_error"

/-- One call. -/
def step (s : State) : Op → Res State
  /- catapult_recorder.cpp:78-81 -/
  | .addProvider => .ok { s with providers := s.providers + 1 }
  /- catapult_recorder.cpp:83-99; assigning to a joinable thread calls std::terminate -/
  | .start =>
    if s.running then .ok s
    else if s.joinable then .terminate
    else .ok { s with sources := s.providers, running := true, joinable := true }
  | .stop => stop s
  /- catapult_recorder.cpp:101-104 -/
  | .setupDumpFile => .ok { s with dump := true }
  /- catapult_recorder.cpp:146-153; a destructor must not throw -/
  | .destroy results =>
    match stop s with
    | .ok s' =>
      if s'.dump then match (collectEvents results).2 with
        | .ok _ => .ok { s' with destroyed := true }
        | .ub => .ub
        | _ => .terminate
      else .ok { s' with destroyed := true }
    | _ => .terminate

/-- A sequence of calls. -/
def run (s : State) : List Op → Res State
  | [] => .ok s
  | o :: os => (step s o).bind fun s' => run s' os

end Scalopus.Recorder
