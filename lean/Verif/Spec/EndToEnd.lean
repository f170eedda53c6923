import Verif.Model.EndToEnd
import Verif.Spec.Collector
import Verif.Spec.Recording

/-!
# Specification: what a viewer should be shown, and which events it has to be shown
-/

namespace Scalopus.EndToEnd

open TraceState (Point)
open Collector (Ev listed)
open NativeSource (Entry)

/-- Every state of every history that begins with these processes. -/
def Reachable (pids : List Nat) (s : State) : Prop := Steps (init pids) s

def idOf : Point → Nat
  | .entry id => id
  | .exit id => id
  | .mark id _ => id
  | .count id _ => id

/-- Phase and scope in the trace event format of the viewer: begin, end, instant (global, process, thread), counter. -/
def phaseOf : Point → String × Option String
  | .entry _ => ("B", none)
  | .exit _ => ("E", none)
  | .mark _ .global => ("i", some "g")
  | .mark _ .process => ("i", some "p")
  | .mark _ .thread => ("i", some "t")
  | .count _ _ => ("C", none)

/-- The name that is shown: that of a counter is what stands before the first slash. -/
def shownAs : Point → String → String
  | .count _ _, n => String.ofList (n.toList.takeWhile (· ≠ '/'))
  | _, n => n

/-- The series of a counter: what stands after the first slash. -/
def seriesIn (n : String) : String :=
  if '/' ∈ n.toList then String.ofList ((n.toList.dropWhile (· ≠ '/')).drop 1) else "count"

/-- The entry shows this event of a thread with this identifier of this process. -/
structure Shows (p : Proc) (tid : Nat) (e : Emission) (x : Entry) : Prop where
  phase : (x.ph, x.s) = phaseOf e.point
  process : x.pid = p.pid
  thread : x.tid = tid
  time : x.ts = Double.ts e.time
  name : ∀ n, (idOf e.point, n) ∈ p.names → x.name = shownAs e.point n
  value : ∀ id v n, e.point = .count id v → (id, n) ∈ p.names → (x.args.getD []).lookup (seriesIn n) = some v

/-- The event was emitted in process number `p` by a thread with this identifier, and not dropped because of a full buffer. -/
def Emitted (s : State) (p tid : Nat) (e : Ev Emission) : Prop :=
  ∃ x th, s.procs[p]? = some x ∧ (e, true) ∈ x.coll.log ∧ x.coll.threads[e.thread]? = some th ∧ th.tid = tid

/-- A call of `incoming` with a batch that has this event has completed. -/
def Handed (s : State) (p : Nat) (e : Ev Emission) : Prop :=
  ∃ x k b n tid, s.procs[p]? = some x ∧ x.coll.batches[k]? = some b ∧ listed b tid e ∧ s.arrivals[n]? = some (p, k) ∧ .completed n ∈ s.rec'.log

/-- Source `i` is recording when this is the log. -/
def IsRecording (i : Nat) (l : List (Recording.Obs Bytes)) : Prop := ∃ a b, l = a ++ .started i :: b ∧ Recording.Undisturbed i b

/-- The event has to be in what `finishInterval()` of source `i` returns in state `s`, after the log `l`: in an earlier state the source was recording and the
    event was not yet emitted; then, before the next start, stop or finish of this source, it was emitted and handed over; and this is the first finish after that. -/
def Captured (pids : List Nat) (s : State) (i : Nat) (l : List (Recording.Obs Bytes)) (p : Nat) (e : Ev Emission) : Prop :=
  ∃ s0 s1 c l4, Reachable pids s0 ∧ Steps s0 s1 ∧ Steps s1 s ∧ IsRecording i s0.rec'.log ∧ (∀ tid, ¬ Emitted s0 p tid e) ∧
    s1.rec'.log = s0.rec'.log ++ c ∧ Recording.Undisturbed i c ∧ Handed s1 p e ∧
    l = s1.rec'.log ++ l4 ∧ .starting i ∉ l4 ∧ ∀ ds, .returned i ds ∉ c ++ l4

/-- The event was not handed over before the interval: the call of `incoming` that brought it had not completed when source `i` was started last. -/
def NotBefore (s : State) (i : Nat) (l : List (Recording.Obs Bytes)) (p : Nat) (e : Ev Emission) : Prop :=
  ∃ x k b n tid l1 l2, s.procs[p]? = some x ∧ x.coll.batches[k]? = some b ∧ listed b tid e ∧ s.arrivals[n]? = some (p, k) ∧
    l = l1 ++ .starting i :: l2 ∧ .starting i ∉ l2 ∧ .completed n ∉ l1

/-- The consumer is connected to process number `p`, and the sender of the process has a transport. -/
def Connected (s : State) (p : Nat) : Prop := ∃ x, s.procs[p]? = some x ∧ consumer ∈ x.server.conns ∧ x.coll.transport = true

/-- Nothing of process number `p` is on its way: the ring buffers are empty, the sender is not in a round, no message is queued or on the wire, and no call of `incoming`
    is in progress. -/
def Drained (s : State) (p : Nat) : Prop :=
  (∃ x, s.procs[p]? = some x ∧ (∀ b ∈ x.coll.bufs, b.queue = []) ∧ x.coll.events = [] ∧ x.server.queue = [] ∧ x.wire = []) ∧
    ∀ n d, .called n d ∈ s.rec'.log → .completed n ∈ s.rec'.log

/-- The messages fit into the length field of the protocol. -/
def SmallBatches (s : State) : Prop := ∀ x ∈ s.procs, ∀ b ∈ x.coll.batches, (payload x.pid b).length < 2 ^ 32

end Scalopus.EndToEnd
