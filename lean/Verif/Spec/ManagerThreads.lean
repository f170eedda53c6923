import Verif.Model.ManagerThreads

/-!
# Races and rules of use for the endpoint manager
-/

namespace Scalopus.ManagerThreads

/-- Two different threads are about to access the same member, and one of them writes: a data race (C++ standard, [intro.races]). -/
def RaceOn (s : State) (v : Var) : Prop := ∃ t u w, t ≠ u ∧ s.accesses t v true ∧ s.accesses u v w

/-- The manager is used as one expects: one thread, the owner, sets the logger and starts and stops the polling; every thread may do the rest. -/
def Owner (t : Nat) : Call → Prop
  | .manage _ | .endpoints | .addFactory => True
  | .setLogger | .start | .stop => t = 0

/-- The functions of the user do not use the manager. -/
def Quiet (_ : Nat) (_ : Call) : Prop := False

/-- Thread `t` will never finish the call it is in. -/
def Hangs (s : State) (t : Nat) : Prop :=
  ∀ s', Relation s s' → s'.ops t ≠ []
where
  Relation (s s' : State) : Prop := ∃ as : List Act, as.foldlM step s = some s'

end Scalopus.ManagerThreads
