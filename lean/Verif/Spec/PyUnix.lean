import Verif.Model.PyUnix

/-!
# Specification of calls on a unix transport from Python
-/

namespace Scalopus.PyUnix

/-- Executions of programs in which all (`python`) or none of the endpoints are written in Python. -/
def Reachable (python client : Bool) (s : State) : Prop := ∃ l, run { python := python, client := client } l = some s

/-- The thread is in a call on the transport. -/
def InCall (p : Pc) : Prop := p ≠ .idle ∧ p ≠ .running

/-- The call that thread `t` is in never returns, whatever is done from now on. -/
def Hangs (s : State) (t : Nat) : Prop := ∀ l s', run s l = some s' → InCall (s'.py t)

/-- No Python code runs again in any thread, whatever is done from now on. -/
def InterpreterDead (s : State) : Prop := ∀ l s', run s l = some s' → (∀ u, s'.py u ≠ .running ∧ s'.py u ≠ .naming) ∧ ∀ h, s'.worker ≠ .method h

/-- The thread holds the interpreter lock. -/
def HasGil (p : Pc) : Prop := p ≠ .idle ∧ p ≠ .paused

end Scalopus.PyUnix
