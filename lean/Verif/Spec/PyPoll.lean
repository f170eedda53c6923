import Verif.Model.PyPoll

/-!
# When a call of the manager hangs

Stated with the runs of the model only.
-/

namespace Scalopus.PyPoll

/-- The state can be reached by a program that has, or has not, registered Python callbacks with a manager that does not poll yet. -/
def Reachable (callbacks : Bool) (s : State) : Prop := ∃ l, run { callbacks := callbacks } l = some s

/-- The thread is inside a call of the manager that has not returned. -/
def InCall : Pc → Prop
  | .idle => False
  | .running => False
  | _ => True

/-- The call of thread `t` never returns, whatever the threads do from now on. -/
def Hangs (s : State) (t : Nat) : Prop := ∀ l s', run s l = some s' → InCall (s'.py t)

/-- No thread ever runs Python code again. -/
def InterpreterDead (s : State) : Prop := ∀ l s', run s l = some s' → ∀ t, s'.py t ≠ .running ∧ s'.py t ≠ .callback

end Scalopus.PyPoll
