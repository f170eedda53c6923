import Verif.Model.Collector

/-!
# What can be observed of the collector

Projections of a state used to state C18, C19, C20 and C60.
-/

namespace Scalopus.Collector

variable {α : Type}

/-- Events of thread number `t` in a list. -/
def ofThread (t : Nat) (l : List (Ev α)) : List (Ev α) := l.filter (fun e => e.thread = t)

/-- Accepted events of thread `t`, in order of emission. -/
def accepted (t : Nat) (s : State α) : List (Ev α) := ofThread t ((s.log.filter (·.2)).map (·.1))

/-- What a map of collected events holds under a thread identifier. -/
def under (m : List (Nat × List (Ev α))) (tid : Nat) : List (Ev α) := (m.lookup tid).getD []

/-- What has been collected of thread `t`, in order: finished rounds first, then the current one. -/
def collectedOf (t tid : Nat) (s : State α) : List (Ev α) :=
  ofThread t (s.batches.flatMap fun b => under b.events tid) ++ ofThread t (under s.events tid)

/-- What the buffer of a thread holds. -/
def buffered (s : State α) (i : Nat) : List (Ev α) := (s.bufs[i]?.map (·.queue)).getD []

/-- Every event in a round that was broadcast or would have been, with the thread identifier it is listed under. -/
def listed (b : Batch α) (tid : Nat) (e : Ev α) : Prop := ∃ x ∈ b.events, x.1 = tid ∧ e ∈ x.2

/-- In these histories, the sender sees everything that is in a buffer when it looks. -/
def SeesAll (as : List (Act α)) : Prop := ∀ k, Act.collect (some k) ∉ as

end Scalopus.Collector
