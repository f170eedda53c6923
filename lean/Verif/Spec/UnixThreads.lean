import Verif.Model.UnixThreads

/-!
# Races and rules of use for the unix transport
-/

namespace Scalopus.UnixThreads

/-- Two different threads are about to access the same member, and one of them writes: a data race (C++ standard, [intro.races]). -/
def RaceOn (s : State) (v : Var) : Prop := ∃ t u w, t ≠ u ∧ s.accesses t v true ∧ s.accesses u v w

/-- The transport is used as one expects: only its owner sets the logger and destroys it, the latter when no other thread is using it. -/
def Proper (s : State) (t : Nat) : Call → Prop
  | .setLogger => t = 0
  | .destroy => t = 0 ∧ ∀ u, u ≠ 1 → s.ops u = []
  | _ => True

/-- Endpoints may use the transport as any thread may. -/
def AnyUse (_ : Op) : Call → Prop
  | .setLogger | .destroy => False
  | _ => True

/-- Calls that never wait for the mutexes of requests and endpoints. -/
def Light : Call → Prop
  | .broadcast | .isConnected => True
  | _ => False

/-- Endpoints may use the transport as they like in `handle`, but in `unsolicited` only for light calls. -/
def Careful : Op → Call → Prop
  | .unsolicited, c => Light c
  | _, c => AnyUse .handle c

/-- Endpoints do not use the transport. -/
def Quiet (_ : Op) (_ : Call) : Prop := False

/-- Thread `t` will never finish the call it is in. -/
def Hangs (s : State) (t : Nat) : Prop :=
  ∀ s', Leads s s' → s'.ops t ≠ []
where
  Leads (s s' : State) : Prop := ∃ as : List Act, as.foldlM step s = some s'

end Scalopus.UnixThreads
