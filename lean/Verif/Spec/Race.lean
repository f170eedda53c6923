import Verif.Model.SessionThreads

/-!
# What a data race is

Two accesses conflict if they are to the same data and one of them writes. There is a data race in a state if the threads are about to make conflicting accesses that are not
both made with the lock of the data held (C++ standard, [intro.races]).
-/

namespace Scalopus.SessionThreads

def Conflict (a b : Access) : Prop := a.var = b.var ∧ (a.write ∨ b.write) ∧ ¬ (a.locked ∧ b.locked)

def Race (s : State) : Prop := ∃ a ∈ serverAccess s, ∃ b ∈ workerAccess s, Conflict a b

end Scalopus.SessionThreads
