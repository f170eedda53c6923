import Verif.Model.Base

/-!
# The native sources of viewers that come and go

Models what `NativeTraceProvider` (scalopus_tracing/src/native/native_trace_provider.cpp:44-50, 64-91) keeps for the sessions of viewers
(scalopus_catapult/src/trace_session.cpp:36-144, catapult_backend.cpp:92-177). A viewer gets one native source when it connects; viewer and source share a
number. The session's thread handles the viewer's messages one at a time; when the viewer's connection closes the session is destroyed, and with it the messages it has not handled.

Simplifications: handling one message and handing one arriving batch to all sources are one step each (their interleaving is the subject of `Model/Recording.lean`); a batch is a
number; all messages other than a start or an end of tracing are one message; mappings are taken to arrive (where they do not, see `Model/NativeSource.lean`).
-/

namespace Scalopus.Departed

/-- The messages of a viewer, trace_session.cpp:94-144. -/
inductive Msg where
  | start
  | finish
  | other
  deriving DecidableEq

/-- A source, native_trace_source.h:75-78. -/
structure Src where
  /-- `in_interval_` -/
  on : Bool := false
  /-- `recorded_data_` -/
  data : List Nat := []

structure State where
  /-- `sources_` of the provider holds the sources 0, …, count - 1. native_trace_provider.h:87. No line removes one. -/
  count : Nat := 0
  src : Nat → Src := fun _ => {}
  /-- The sessions that exist and the messages each has not handled yet (`incoming_msg_`). -/
  conn : Nat → Option (List Msg) := fun _ => none

inductive Act where
  /-- A viewer connects: `makeSession` and `makeSource`. -/
  | connect
  /-- Viewer `v` sends a message. -/
  | send (v : Nat) (m : Msg)
  /-- The thread of the session of viewer `v` handles a message. -/
  | work (v : Nat)
  /-- The connection of viewer `v` closes. -/
  | leave (v : Nat)
  /-- A traced program sends a batch. -/
  | arrive (d : Nat)
  deriving DecidableEq

def set {α : Type} (f : Nat → α) (v : Nat) (x : α) : Nat → α := fun w => if w = v then x else f w

/-- `processMessage` for one native source, trace_session.cpp:109-143 with native_trace_source.cpp:46-59, 70-89: a start empties the source and lets it record, an end stops it and takes its data. -/
def Msg.handle : Msg → Src → Src
  | .start, _ => { on := true, data := [] }
  | .finish, _ => { on := false, data := [] }
  | .other, x => x

/-- One step. `arrive`: native_trace_provider.cpp:64-91 and native_trace_source.cpp:209-213. `leave`: catapult_backend.cpp:116-142 and trace_session.cpp:41-45 – the session is
    destroyed, which stops no source, and the provider still holds the source. -/
def step (s : State) : Act → Option State
  | .connect => some { s with count := s.count + 1, conn := set s.conn s.count (some []) }
  | .send v m => (s.conn v).map fun q => { s with conn := set s.conn v (some (q ++ [m])) }
  | .work v => match s.conn v with
    | some (m :: q) => some { s with src := set s.src v (m.handle (s.src v)), conn := set s.conn v (some q) }
    | _ => none
  | .leave v => (s.conn v).map fun _ => { s with conn := set s.conn v none }
  | .arrive d => some { s with src := fun v => if v < s.count ∧ (s.src v).on = true then { s.src v with data := (s.src v).data ++ [d] } else s.src v }

def run (s : State) : List Act → Option State
  | [] => some s
  | a :: as => (step s a).bind fun t => run t as

end Scalopus.Departed
