import Verif.Model.Ownership

/-! What is said about owning references, for C138. -/

namespace Scalopus.Ownership

/-- `z` is `o`, or owns something that reaches `o`. -/
inductive Reaches (s : State) : Nat → Nat → Prop where
  | self (z : Nat) : Reaches s z z
  | next {z w o : Nat} (h : Reaches s z w) (ho : o ∈ (s.obj w).refs) : Reaches s z o

/-- The actions by which things are given up, without the program doing anything: a thread of an object gives up a reference, a destructor ends, the server closes a connection. -/
def isCleanup : Act → Bool
  | .drop u _ => !u.isProgram
  | .destroy _ _ => true
  | .disconnect _ _ => true
  | _ => false

/-- Nothing more is given up by itself. -/
def Quiet (s : State) : Prop := ∀ a, isCleanup a = true → step s a = none

def weight : Status → Nat
  | .alive => 2
  | .dying => 1
  | .gone => 0

def State.sum (s : State) (f : Obj → Nat) : Nat := ((List.range s.next).map fun x => f (s.obj x)).sum

/-- What is left to give up. -/
def State.left (s : State) : Nat := s.held.length + s.sum fun o => weight o.status + o.refs.length

/-- No thread of the program holds a reference. -/
def Released (s : State) : Prop := ∀ k ∈ s.held, k.1.isProgram = false

end Scalopus.Ownership
