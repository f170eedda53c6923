import Verif.Model.PyLoopback

/-!
# When a call on the transport hangs
-/

namespace Scalopus.PyLoopback

/-- The state can be reached by a program whose endpoints are, or are not, written in Python. -/
def Reachable (python : Bool) (s : State) : Prop := ∃ l, run { python := python } l = some s

/-- The thread is inside `request()` or the destructor. -/
def InCall (p : Pc) : Prop := p = .requesting ∨ p = .joining

/-- The call of thread `t` never returns, whatever the threads do from now on. -/
def Hangs (s : State) (t : Nat) : Prop := ∀ l s', run s l = some s' → InCall (s'.py t)

/-- No thread ever runs Python code again. -/
def InterpreterDead (s : State) : Prop := ∀ l s', run s l = some s' → ∀ t, s'.py t ≠ .running

end Scalopus.PyLoopback
