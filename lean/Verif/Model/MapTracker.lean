import Verif.Model.Base

/-!
# Thread-safe map

Models `MapTracker` (scalopus_general/include/scalopus_general/map_tracker.h:41-109), used by any number of threads. The map itself is not thread safe:
`mapping_[key] = value` first makes an entry with a default value and then assigns it, and a copy of the map is made entry by entry, each a step
of its own. The `std::shared_timed_mutex` has a unique holder or any number of shared holders.

Simplification: the entries of an `std::unordered_map` are a list in some order; lookups, erasing and clearing are single steps.
-/

namespace Scalopus.MapTracker

/-- Calls. -/
inductive Op (K V : Type) where
  | insert (key : K) (value : V)
  | getMap
  | getValue (key : K)
  | exists (key : K)
  | erase (key : K)
  | clear
  deriving Repr, DecidableEq

/-- Results. `value none` is the exception `std::out_of_range` of `at()`. -/
inductive Resp (K V : Type) where
  | done
  | map (entries : List (K × V))
  | value (v : Option V)
  | bool (b : Bool)
  deriving Repr, DecidableEq

/-- Calls that take a `std::unique_lock`: map_tracker.h:55, :93, :102. The others take a `std::shared_lock`: :65, :75, :84. -/
def Op.writes {K V : Type} : Op K V → Bool
  | .insert _ _ | .erase _ | .clear => true
  | .getMap | .getValue _ | .exists _ => false

/-- Where a thread is. -/
inductive Pc (K V : Type) where
  | idle
  /-- waits for the lock -/
  | called (op : Op K V)
  /-- holds the shared lock; has copied `acc`, the first `i` entries -/
  | shared (op : Op K V) (i : Nat) (acc : List (K × V))
  /-- holds the unique lock; `half`: the entry was made, not yet assigned -/
  | unique (op : Op K V) (half : Bool)
  /-- has finished and holds the lock -/
  | release (op : Op K V) (r : Resp K V)
  deriving Repr, DecidableEq

/-- The object and the threads that use it. `hist` (ghost): the calls in the order in which they give up the lock, with their results. -/
structure State (K V : Type) where
  mapping : List (K × V) := []
  writer : Option Nat := none
  readers : List Nat := []
  pc : Nat → Pc K V := fun _ => .idle
  hist : List (Nat × Op K V × Resp K V) := []

/-- A thread makes a call, or takes the next step in its call. -/
inductive Act (K V : Type) where
  | call (t : Nat) (op : Op K V)
  | go (t : Nat)
  deriving Repr, DecidableEq

variable {K V : Type} [DecidableEq K] [Inhabited V]

def State.at (s : State K V) (t : Nat) (p : Pc K V) : State K V := { s with pc := fun t' => if t' = t then p else s.pc t' }

/-- Assign to the entry of a key. -/
def assign (m : List (K × V)) (key : K) (value : V) : List (K × V) := m.map fun e => if e.1 = key then (e.1, value) else e

def step (s : State K V) : Act K V → State K V
  | .call t op =>
    match s.pc t with
    | .idle => s.at t (.called op)
    | _ => s
  | .go t =>
    match s.pc t with
    | .idle => s
    | .called op =>
      if op.writes then
        if s.writer = none ∧ s.readers = [] then { s.at t (.unique op false) with writer := some t } else s
      else
        if s.writer = none then { s.at t (.shared op 0 []) with readers := t :: s.readers } else s
    | .shared op i acc =>
      match op with
      -- return mapping_; map_tracker.h:66
      | .getMap =>
        match s.mapping[i]? with
        | some e => s.at t (.shared op (i + 1) (acc ++ [e]))
        | none => s.at t (.release op (.map acc))
      -- return mapping_.at(k); :76
      | .getValue k => s.at t (.release op (.value (s.mapping.lookup k)))
      -- return mapping_.find(k) != mapping_.end(); :85
      | .exists k => s.at t (.release op (.bool (s.mapping.lookup k).isSome))
      | _ => s
    | .unique op half =>
      match op with
      -- mapping_[key] = value; :56
      | .insert k v =>
        if half then { s.at t (.release op .done) with mapping := assign s.mapping k v }
        else if (s.mapping.lookup k).isSome then s.at t (.unique op true)
        else { s.at t (.unique op true) with mapping := s.mapping ++ [(k, default)] }
      -- mapping_.erase(key); :94
      | .erase k => { s.at t (.release op .done) with mapping := s.mapping.filter fun e => e.1 ≠ k }
      -- mapping_.clear(); :103
      | .clear => { s.at t (.release op .done) with mapping := [] }
      | _ => s
    | .release op r =>
      let s1 : State K V := { s.at t .idle with hist := s.hist ++ [(t, op, r)] }
      if op.writes then { s1 with writer := none } else { s1 with readers := s1.readers.erase t }

def run (s : State K V) (acts : List (Act K V)) : State K V := acts.foldl step s

end Scalopus.MapTracker
