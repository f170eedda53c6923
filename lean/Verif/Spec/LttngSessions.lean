import Verif.Model.LttngSessions

/-!
# Recording sessions of LTTng events: what is about to be accessed, and quiet executions
-/

namespace Scalopus.LttngSessions

/-- The data that the parser and the sources share. -/
inductive Var where
  /-- `active` and `callback` of a session -/
  | session (c : Nat)
  /-- `events_` of a source -/
  | events (src : Nat)
  deriving DecidableEq

/-- A step is about to access `var`, writing it or not, with `mutex_` held or not. -/
structure Access where
  var : Var
  write : Bool
  locked : Bool

/-- The next access of the parser. It always holds the mutex. -/
def parserAccess (s : State) : List Access :=
  match s.parser with
  | .scan _ (c :: _) => [⟨.session c, false, true⟩]
  | .test _ c _ => [⟨.session c, false, true⟩]
  | .call _ c _ => [⟨.session c, false, true⟩]
  | .run _ c _ => match s.sessions[c]? with
    | some x => [⟨.events x.source, true, true⟩]
    | none => []
  | _ => []

/-- The next access of the thread of a source. It never holds the mutex. -/
def userAccess (s : State) (src : Nat) : List Access :=
  match s.sources[src]? with
  | none => []
  | some y =>
    match y.user, y.current with
    | .disable _, some c => [⟨.session c, true, false⟩]
    | .null _, some c => [⟨.session c, true, false⟩]
    | .clear, _ => [⟨.events src, true, false⟩]
    | _, _ => []

/-- There is a data race: the parser and another thread are about to make conflicting accesses, not both with the mutex held (C++ standard, [intro.races]). -/
def Race (s : State) : Prop :=
  s.fate = .running ∧ ∃ src, ∃ a ∈ parserAccess s, ∃ b ∈ userAccess s src, a.var = b.var ∧ (a.write = true ∨ b.write = true) ∧ ¬ (a.locked = true ∧ b.locked = true)

/-- A quiet step: no thread takes a step in a method of a source while the parser passes an event on. -/
def Quiet (s : State) (a : Act) : Prop :=
  match a with
  | .user _ _ => s.parser.locked = false
  | .begin _ _ => s.parser.locked = false
  | _ => True

end Scalopus.LttngSessions
