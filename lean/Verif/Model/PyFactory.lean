import Verif.Model.Manager

/-!
# Endpoint factories written in Python

Models the function that `addEndpointFactory` of the Python bindings registers with a manager: scalopus_python/lib/scalopus_interface.cpp:213-229, and the thread of the manager that calls it
(endpoint_manager_poll.cpp:140-147). The manager itself is `Manager`.

Simplification: `getName` of the endpoint that is returned gives a name (transport.cpp:59-64 calls it). The interpreter lock is left out (for that see `PyPoll`).
-/

namespace Scalopus.PyFactory

/-- What a function written in Python does when it is called with a transport. -/
inductive Made where
  /-- it raises -/
  | raises
  /-- it returns `None` -/
  | none
  /-- it returns something else that is not an endpoint -/
  | other
  /-- it returns an endpoint -/
  | endpoint (e : Nat)
  deriving DecidableEq

/-- The lambda of scalopus_interface.cpp:214-228. `fun(transport)` throws if the function raises (216); `None` becomes the null pointer (217-221); `cast` throws if it is no endpoint (222). -/
def call : Made → Res (Option Nat)
  | .raises => .throws "error_already_set"
  | .none => .ok Option.none
  | .other => .throws "cast_error"
  | .endpoint e => .ok (some e)

/-- A call of `manage` while the factories behave like this: `make f t` is what factory `f` does with transport `t`. -/
structure Round where
  connected : Nat → Bool
  found : List Manager.Dest
  make : Nat → Nat → Made

def Round.poll (r : Round) : Manager.Poll := { connected := r.connected, found := r.found, call := fun f t => call (r.make f t) }

/-- `manager.manage()` called by the program: exceptions arrive in the program. -/
def manage (r : Round) (s : Manager.State) : Manager.State × Res Unit := Manager.manage r.poll s

/-- The same by the thread of the manager, endpoint_manager_poll.cpp:140-147: nothing catches an exception there. -/
def managePolling (r : Round) (s : Manager.State) : Manager.State × Res Unit :=
  match manage r s with
  | (s', .throws _) => (s', .terminate)
  | x => x

end Scalopus.PyFactory
