import Verif.Model.PyTracing

/-!
# What the users of the decorators rely on
-/

namespace Scalopus.PyTracing.Spec

open PyTracing

/-- The steps of one thread that make up complete calls, one after the other and nested. -/
inductive Calls (t : Nat) : List Act → Prop
  | nil : Calls t []
  | suppressed (f : Nat) (body rest : List Act) : Calls t body → Calls t rest → Calls t ([.enter t f, .store t] ++ body ++ [.load t, .restore t] ++ rest)
  | traced (id : Nat) (body rest : List Act) : Calls t body → Calls t rest → Calls t (.trace t id :: body ++ .untrace t :: rest)
  | set (b : Bool) (rest : List Act) : Calls t rest → Calls t (.set t b :: rest)

/-- `l` runs one call of the suppressed function `f` by thread `t`, while other threads do anything. -/
def OneCall (t f : Nat) (l : List Act) : Prop :=
  ∃ body, Calls t body ∧ l.filter (fun a => decide (a.thread = t)) = [.enter t f, .store t] ++ body ++ [.load t, .restore t]

/-- `f` is being called by some thread. -/
def Active (s : State) (f : Nat) : Prop := ∃ t b, Frame.suppressed f b ∈ (s.thr t).stack

/-- No function is called while it is already being called. -/
def Exclusive (s : State) : List Act → Prop
  | [] => True
  | a :: l => (∀ t f, a = .enter t f → ¬ Active s f) ∧ ∀ s', step s a = some s' → Exclusive s' l

/-- A tree of calls of suppressed functions. -/
inductive Tree where
  | call (f : Nat) (kids : List Tree)

mutual
/-- The steps that thread `t` takes for the calls. -/
def Tree.acts (t : Nat) : Tree → List Act
  | .call f kids => [.enter t f, .store t] ++ actsL t kids ++ [.load t, .restore t]

def actsL (t : Nat) : List Tree → List Act
  | [] => []
  | k :: l => k.acts t ++ actsL t l
end

mutual
/-- `g` is called somewhere in the tree. -/
def Tree.Calls (g : Nat) : Tree → Prop
  | .call f kids => g = f ∨ callsL g kids

def callsL (g : Nat) : List Tree → Prop
  | [] => False
  | k :: l => k.Calls g ∨ callsL g l
end

/-- Well nested events: every entry has its exit. -/
inductive Nested : List Event → Prop
  | nil : Nested []
  | scope (id : Nat) (l r : List Event) : Nested l → Nested r → Nested (.entry id :: l ++ .exit id :: r)

end Scalopus.PyTracing.Spec
