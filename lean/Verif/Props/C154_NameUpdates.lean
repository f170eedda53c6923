import Verif.Model.NameUpdates

/-!
# C154: viewers that end their recordings at the same time

All statements quantify over every number of viewers and processes, every history of names and connections, and every interleaving.
-/

namespace Scalopus.C154

open NameUpdates
open Endpoints (TraceMap)
open ScopeNames (getScopeName)

def Reachable (g : Bool) (s : State) : Prop := ∃ as, run g {} as = some s

/-- Session `i` ends its recording, from state `s0`, with `mid` happening until it has the names `m`. -/
structure Finish (g : Bool) (s0 : State) (i : Nat) (mid : List Act) (m : TraceMap) : Prop where
  one : Act.finish i ∉ mid
  runs : ∃ s', run g s0 (.finish i :: mid ++ [.look i]) = some s' ∧ s'.sess i = .shown m

/-- A state while this happens. -/
def During (g : Bool) (s0 : State) (i : Nat) (mid : List Act) (s : State) : Prop := ∃ a b, mid = a ++ b ∧ run g s0 (.finish i :: a) = some s

/-- Process `p` is connected meanwhile and answers whoever asks; for the provider of names of processes and threads, no question of any viewer fails with an exception, either. -/
structure Answers (g : Bool) (s0 : State) (i : Nat) (mid : List Act) (p : Int) : Prop where
  connected : ∀ s, During g s0 i mid s → p ∈ s.procs
  answers : ∀ j, Act.ask j p false ∉ mid
  noFail : g = true → ∀ j, Act.fail j ∉ mid

/-- The full claim, for a provider: the names with which a recording is shown are, for every process that answers, those which it had at some time since the end of the recording was asked for. -/
def Fresh (g : Bool) : Prop := ∀ s0, Reachable g s0 → ∀ i mid m, Finish g s0 i mid m → ∀ p, Answers g s0 i mid p → ∃ s, During g s0 i mid s ∧ m.lookup p = some (s.names p)

/-! ### Invariants -/

theorem run_append (g : Bool) (as bs : List Act) : ∀ s, run g s (as ++ bs) = (run g s as).bind fun s' => run g s' bs := by
  induction as with
  | nil => intro s; rfl
  | cons a as ih =>
    intro s
    simp only [List.cons_append, run]
    cases step g s a with
    | none => rfl
    | some s' => simp [ih]

/-- The mutex is with who asks. -/
structure LockInv (g : Bool) (s : State) : Prop where
  held : g = true → ∀ j acc todo, s.sess j = .asking acc todo → s.holder = some j ∧ s.mapping = acc
  asks : ∀ j, s.holder = some j → g = true ∧ ∃ acc todo, s.sess j = .asking acc todo

theorem lock_step {g : Bool} {s s' : State} (h : LockInv g s) (a : Act) (hs : step g s a = some s') : LockInv g s' := by
  obtain ⟨h1, h2⟩ := h
  cases a with
  | connect l => cases hs; exact ⟨h1, h2⟩
  | change p l => cases hs; exact ⟨h1, h2⟩
  | finish i =>
    have key : (∀ acc todo, s.sess i ≠ .asking acc todo) → LockInv g (s.set i .called) := by
      intro hi
      refine ⟨fun hg j acc todo hj => ?_, fun j hj => ?_⟩
      · by_cases e : j = i
        · simp [State.set, e] at hj
        · simp only [State.set, e, if_false] at hj; exact h1 hg j acc todo hj
      · obtain ⟨hg, acc, todo, k⟩ := h2 j hj
        refine ⟨hg, acc, todo, ?_⟩
        have e : j ≠ i := fun e => hi acc todo (e ▸ k)
        simpa [State.set, e] using k
    simp only [step] at hs
    split at hs
    · next e => cases hs; exact key (fun _ _ k => by rw [e] at k; cases k)
    · next e => cases hs; exact key (fun _ _ k => by rw [e] at k; cases k)
    · cases hs
  | start i =>
    simp only [step] at hs
    split at hs
    case h_2 => cases hs
    case h_1 e =>
      cases g with
      | true =>
        simp only [if_true] at hs
        split at hs
        case isFalse => cases hs
        case isTrue hn =>
          cases hs
          refine ⟨fun hg j acc todo hj => ?_, fun j hj => ?_⟩
          · by_cases e' : j = i
            · simp [State.set, e'] at hj; simp [e', hj.1]
            · simp only [State.set, e', if_false] at hj
              have := (h1 rfl j acc todo hj).1
              rw [hn] at this; cases this
          · simp only [Option.some.injEq] at hj
            subst hj
            exact ⟨rfl, [], s.procs, by simp [State.set]⟩
      | false =>
        cases hs
        refine ⟨(fun hg => by cases hg), (fun j hj => by cases (h2 j hj).1)⟩
  | ask i p ans =>
    simp only [step] at hs
    split at hs
    case h_2 => cases hs
    case h_1 acc q todo e =>
      split at hs
      case isFalse => cases hs
      case isTrue =>
        cases hs
        cases g with
        | true =>
          have hh := (h1 rfl i _ _ e).1
          refine ⟨fun _ j acc' todo' hj => ?_, fun j hj => ?_⟩
          · by_cases e' : j = i
            · simp only [State.set, e', if_true, Phase.asking.injEq] at hj ⊢
              exact ⟨hh, hj.1⟩
            · simp only [State.set, e', if_true, if_false] at hj
              have := (h1 rfl j _ _ hj).1
              rw [hh] at this
              exact absurd (Option.some.inj this).symm e'
          · simp only [if_true, State.set] at hj
            rw [hh] at hj
            cases hj
            refine ⟨rfl, (if ans then acc ++ [(p, s.names p)] else acc), todo, by simp [State.set]⟩
        | false => exact ⟨(fun hg => by cases hg), (fun j hj => by cases (h2 j hj).1)⟩
  | fail i =>
    simp only [step] at hs
    split at hs
    case h_2 => cases hs
    case h_1 acc todo e =>
      cases hs
      cases g with
      | true =>
        have hh := (h1 rfl i _ _ e).1
        refine ⟨fun _ j acc' todo' hj => ?_, fun j hj => by cases hj⟩
        by_cases e' : j = i
        · simp [State.set, e'] at hj
        · simp only [State.set, e', if_true, if_false] at hj
          have := (h1 rfl j _ _ hj).1
          rw [hh] at this
          exact absurd (Option.some.inj this).symm e'
      | false => exact ⟨(fun hg => by cases hg), (fun j hj => by cases (h2 j hj).1)⟩
  | store i =>
    simp only [step] at hs
    split at hs
    case h_2 => cases hs
    case h_1 acc e =>
      cases hs
      cases g with
      | true =>
        have hh := (h1 rfl i _ _ e).1
        refine ⟨fun _ j acc' todo' hj => ?_, fun j hj => by cases hj⟩
        by_cases e' : j = i
        · simp [State.set, e'] at hj
        · simp only [State.set, e', if_true, if_false] at hj
          have := (h1 rfl j _ _ hj).1
          rw [hh] at this
          exact absurd (Option.some.inj this).symm e'
      | false => exact ⟨(fun hg => by cases hg), (fun j hj => by cases (h2 j hj).1)⟩
  | look i =>
    simp only [step] at hs
    split at hs
    case h_2 => cases hs
    case h_1 e =>
      split at hs
      case isFalse => cases hs
      case isTrue hn =>
        cases hs
        refine ⟨fun hg j acc todo hj => ?_, fun j hj => ?_⟩
        · by_cases e' : j = i
          · simp [State.set, e'] at hj
          · simp only [State.set, e', if_false] at hj; exact h1 hg j acc todo hj
        · simp only [State.set] at hj; rw [hn] at hj; cases hj

theorem lock_run {g : Bool} {as : List Act} {s s' : State} (h : LockInv g s) (hr : run g s as = some s') : LockInv g s' := by
  induction as generalizing s with
  | nil => cases hr; exact h
  | cons a as ih =>
    simp only [run, Option.bind_eq_some_iff] at hr
    obtain ⟨s1, k1, k2⟩ := hr
    exact ih (lock_step h a k1) k2

theorem locks {g : Bool} {s : State} (h : Reachable g s) : LockInv g s := by
  obtain ⟨as, h⟩ := h
  exact lock_run ⟨(fun _ j acc todo hj => by cases hj), (fun j hj => by cases hj)⟩ h

/-- Answers of process `p` which are as they should be. -/
def Right (p : Int) (V : List (Nat × String) → Prop) (m : TraceMap) : Prop := ∀ e ∈ m, e.1 = p → V e.2

/-- Who asks has asked `p`, or will. -/
def AsksRight (p : Int) (V : List (Nat × String) → Prop) (s : State) : Prop :=
  ∀ j acc todo, s.sess j = .asking acc todo → ((∃ l, (p, l) ∈ acc) ∨ p ∈ todo) ∧ Right p V acc

inductive Going (g : Bool) (i : Nat) (p : Int) (V : List (Nat × String) → Prop) (s : State) : Prop
  | called : s.sess i = .called → (g = false → AsksRight p V s) → Going g i p V s
  | asking (acc : TraceMap) (todo : List Int) : s.sess i = .asking acc todo → AsksRight p V s → Going g i p V s
  | stored : s.sess i = .stored → AsksRight p V s → (s.holder = none → (∃ l, (p, l) ∈ s.mapping) ∧ Right p V s.mapping) → Going g i p V s
  | done : (s.sess i = .idle ∨ ∃ m, s.sess i = .shown m) → Going g i p V s

/-- What happens to the names of `p` while a session is finished. -/
structure Fine (g : Bool) (i : Nat) (p : Int) (a : Act) : Prop where
  finish : a ≠ .finish i
  answers : ∀ j, a ≠ .ask j p false
  noFail : g = true → ∀ j, a ≠ .fail j

theorem set_other {s : State} {i j : Nat} {f : Phase} (h : j ≠ i) : (s.set i f).sess j = s.sess j := by simp [State.set, h]
theorem set_self {s : State} {i : Nat} {f : Phase} : (s.set i f).sess i = f := by simp [State.set]

theorem asks_set {p : Int} {V : List (Nat × String) → Prop} {s s' : State} (h : AsksRight p V s) (i : Nat) (f : Phase) (e : ∀ j, s'.sess j = (s.set i f).sess j)
    (hf : ∀ acc todo, f = .asking acc todo → ((∃ l, (p, l) ∈ acc) ∨ p ∈ todo) ∧ Right p V acc) : AsksRight p V s' := by
  intro j acc todo hj
  rw [e] at hj
  by_cases e' : j = i
  · subst e'; rw [set_self] at hj; exact hf acc todo hj
  · rw [set_other e'] at hj; exact h j acc todo hj

theorem asks_step {g : Bool} {i : Nat} {p : Int} {V : List (Nat × String) → Prop} {s s' : State} {a : Act} (h : AsksRight p V s) (hf : Fine g i p a) (hv : V (s.names p)) (hp : p ∈ s.procs)
    (hs : step g s a = some s') : AsksRight p V s' := by
  cases a with
  | connect l => cases hs; exact h
  | change q l => cases hs; exact h
  | finish j =>
    simp only [step] at hs
    split at hs <;> cases hs <;> exact asks_set h j .called (fun _ => rfl) (fun _ _ k => by cases k)
  | start j =>
    have fin : ∀ acc todo, Phase.asking [] s.procs = .asking acc todo → ((∃ l, (p, l) ∈ acc) ∨ p ∈ todo) ∧ Right p V acc := by
      intro acc todo k
      cases k
      exact ⟨.inr hp, fun e he => by cases he⟩
    simp only [step] at hs
    split at hs
    case h_2 => cases hs
    case h_1 e =>
      split at hs
      · split at hs <;> cases hs
        exact asks_set h j _ (fun _ => rfl) fin
      · cases hs; exact asks_set h j _ (fun _ => rfl) fin
  | ask j q ans =>
    simp only [step] at hs
    split at hs
    case h_2 => cases hs
    case h_1 acc q' todo e =>
      split at hs
      case isFalse => cases hs
      case isTrue hq =>
        subst hq
        have fin : ∀ acc' todo', Phase.asking (if ans then acc ++ [(q', s.names q')] else acc) todo = .asking acc' todo' → ((∃ l, (p, l) ∈ acc') ∨ p ∈ todo') ∧ Right p V acc' := by
          intro acc' todo' k
          cases k
          obtain ⟨h1, h2⟩ := h j _ _ e
          by_cases hqp : q' = p
          · subst hqp
            cases ans with
            | false => exact absurd rfl (hf.answers j)
            | true =>
              refine ⟨.inl ⟨s.names q', by simp⟩, fun e he ep => ?_⟩
              simp only [if_true, List.mem_append, List.mem_singleton] at he
              rcases he with he | rfl
              · exact h2 e he ep
              · exact hv
          · refine ⟨?_, fun e he ep => ?_⟩
            · rcases h1 with ⟨l, hl⟩ | hl
              · exact .inl ⟨l, by cases ans <;> simp [hl]⟩
              · exact .inr ((List.mem_cons.1 hl).resolve_left (fun k => hqp k.symm))
            · cases ans with
              | false => exact h2 e he ep
              | true =>
                simp only [if_true, List.mem_append, List.mem_singleton] at he
                rcases he with he | rfl
                · exact h2 e he ep
                · exact absurd ep hqp
        cases hs
        cases g <;> exact asks_set h j _ (fun _ => rfl) fin
  | fail j =>
    simp only [step] at hs
    split at hs
    case h_2 => cases hs
    case h_1 e =>
      cases hs
      cases g <;> exact asks_set h j .idle (fun _ => rfl) (fun _ _ k => by cases k)
  | store j =>
    simp only [step] at hs
    split at hs
    case h_2 => cases hs
    case h_1 e =>
      cases hs
      cases g <;> exact asks_set h j .stored (fun _ => rfl) (fun _ _ k => by cases k)
  | look j =>
    simp only [step] at hs
    split at hs
    case h_2 => cases hs
    case h_1 e =>
      split at hs <;> cases hs
      exact asks_set h j (.shown s.mapping) (fun _ => rfl) (fun _ _ k => by cases k)

/-- What is stored after a step: as before, or what a session has asked, or somebody has the mutex. -/
theorem stored_step {g : Bool} {s s' : State} {a : Act} (hl : LockInv g s) (hs : step g s a = some s') (hf : g = true → ∀ j, a ≠ .fail j) (hn : s'.holder = none) :
    (s'.mapping = s.mapping ∧ s.holder = none ∧ ∀ i, a ≠ .store i) ∨ ∃ j acc, a = .store j ∧ s.sess j = .asking acc [] ∧ s'.mapping = acc := by
  cases a with
  | connect l => cases hs; exact .inl ⟨rfl, hn, by simp⟩
  | change q l => cases hs; exact .inl ⟨rfl, hn, by simp⟩
  | finish j => simp only [step] at hs; split at hs <;> cases hs <;> exact .inl ⟨rfl, hn, by simp⟩
  | start j =>
    simp only [step] at hs
    split at hs
    case h_2 => cases hs
    case h_1 e =>
      split at hs
      · split at hs <;> cases hs
        cases hn
      · cases hs; exact .inl ⟨rfl, hn, by simp⟩
  | ask j q ans =>
    simp only [step] at hs
    split at hs
    case h_2 => cases hs
    case h_1 acc q' todo e =>
      split at hs
      case isFalse => cases hs
      case isTrue hq =>
        cases hs
        cases g with
        | true =>
          have := (hl.held rfl j _ _ e).1
          simp only [if_true, State.set] at hn
          rw [this] at hn
          cases hn
        | false => exact .inl ⟨rfl, hn, by simp⟩
  | fail j =>
    cases g with
    | true => exact absurd rfl (hf rfl j)
    | false => simp only [step] at hs; split at hs <;> cases hs; exact .inl ⟨rfl, hn, by simp⟩
  | store j =>
    simp only [step] at hs
    split at hs
    case h_2 => cases hs
    case h_1 acc e =>
      cases hs
      refine .inr ⟨j, acc, rfl, e, ?_⟩
      cases g with
      | true => exact (hl.held rfl j _ _ e).2
      | false => rfl
  | look j =>
    simp only [step] at hs
    split at hs
    case h_2 => cases hs
    case h_1 e => split at hs <;> cases hs; exact .inl ⟨rfl, hn, by simp⟩

/-- The session itself. -/
theorem phase_step {g : Bool} {s s' : State} {a : Act} (i : Nat) (hs : step g s a = some s') (hi : a ≠ .finish i) :
    s'.sess i = s.sess i ∨ (s.sess i = .called ∧ a = .start i ∧ (g = true → s.holder = none) ∧ ∃ acc todo, s'.sess i = .asking acc todo) ∨
    (∃ acc todo acc' todo', s.sess i = .asking acc todo ∧ s'.sess i = .asking acc' todo') ∨ (a = .store i ∧ (∃ acc todo, s.sess i = .asking acc todo) ∧ s'.sess i = .stored) ∨
    (s.sess i = .stored ∧ ∃ m, s'.sess i = .shown m) ∨ ((∃ acc todo, s.sess i = .asking acc todo) ∧ s'.sess i = .idle) := by
  have other : ∀ (j : Nat) (f : Phase), i ≠ j → (s.set j f).sess i = s.sess i := fun j f h => set_other h
  cases a with
  | connect l => cases hs; exact .inl rfl
  | change q l => cases hs; exact .inl rfl
  | finish j =>
    have hij : i ≠ j := fun e => hi (by rw [e])
    simp only [step] at hs; split at hs <;> cases hs <;> exact .inl (other _ _ hij)
  | start j =>
    simp only [step] at hs
    split at hs
    case h_2 => cases hs
    case h_1 e =>
      by_cases hij : i = j
      · subst hij
        split at hs
        · split at hs
          case isFalse => cases hs
          case isTrue hn => cases hs; exact .inr (.inl ⟨e, rfl, fun _ => hn, [], s.procs, set_self⟩)
        · next hg => cases hs; exact .inr (.inl ⟨e, rfl, fun k => absurd k hg, [], s.procs, set_self⟩)
      · split at hs
        · split at hs <;> cases hs
          exact .inl (other _ _ hij)
        · cases hs; exact .inl (other _ _ hij)
  | ask j q ans =>
    simp only [step] at hs
    split at hs
    case h_2 => cases hs
    case h_1 acc q' todo e =>
      split at hs
      case isFalse => cases hs
      case isTrue hq =>
        cases hs
        by_cases hij : i = j
        · subst hij
          refine .inr (.inr (.inl ⟨_, _, (if ans then acc ++ [(q, s.names q)] else acc), todo, e, ?_⟩))
          cases g <;> exact set_self
        · cases g <;> exact .inl (other _ _ hij)
  | fail j =>
    simp only [step] at hs
    split at hs
    case h_2 => cases hs
    case h_1 e =>
      cases hs
      by_cases hij : i = j
      · subst hij
        refine .inr (.inr (.inr (.inr (.inr ⟨⟨_, _, e⟩, ?_⟩))))
        cases g <;> exact set_self
      · cases g <;> exact .inl (other _ _ hij)
  | store j =>
    simp only [step] at hs
    split at hs
    case h_2 => cases hs
    case h_1 acc e =>
      cases hs
      by_cases hij : i = j
      · subst hij
        refine .inr (.inr (.inr (.inl ⟨rfl, ⟨_, _, e⟩, ?_⟩)))
        cases g <;> exact set_self
      · cases g <;> exact .inl (other _ _ hij)
  | look j =>
    simp only [step] at hs
    split at hs
    case h_2 => cases hs
    case h_1 e =>
      split at hs <;> cases hs
      by_cases hij : i = j
      · subst hij; exact .inr (.inr (.inr (.inr (.inl ⟨e, _, set_self⟩))))
      · exact .inl (other _ _ hij)

theorem going_step {g : Bool} {i : Nat} {p : Int} {V : List (Nat × String) → Prop} {s s' : State} {a : Act} (hl : LockInv g s) (h : Going g i p V s) (hf : Fine g i p a) (hv : V (s.names p)) (hp : p ∈ s.procs)
    (hs : step g s a = some s') : Going g i p V s' := by
  have ph := phase_step i hs hf.finish
  cases h with
  | called h1 h2 =>
    rcases ph with e | ⟨_, _, k, acc, todo, e⟩ | ⟨_, _, _, _, e, _⟩ | ⟨_, ⟨_, _, e⟩, _⟩ | ⟨e, _⟩ | ⟨⟨_, _, e⟩, _⟩
    · exact .called (e.trans h1) (fun hg => asks_step (h2 hg) hf hv hp hs)
    · refine .asking acc todo e (asks_step ?_ hf hv hp hs)
      cases g with
      | false => exact h2 rfl
      | true =>
        intro j acc todo hj
        have := (hl.held rfl j _ _ hj).1
        rw [k rfl] at this
        cases this
    · rw [h1] at e; cases e
    · rw [h1] at e; cases e
    · rw [h1] at e; cases e
    · rw [h1] at e; cases e
  | asking acc todo h1 h2 =>
    have h3 := asks_step h2 hf hv hp hs
    rcases ph with e | ⟨e, _⟩ | ⟨_, _, acc', todo', _, e⟩ | ⟨rfl, _, e⟩ | ⟨e, _⟩ | ⟨_, e⟩
    · exact .asking acc todo (e.trans h1) h3
    · rw [h1] at e; cases e
    · exact .asking acc' todo' e h3
    · refine .stored e h3 (fun hn => ?_)
      rcases stored_step hl hs hf.noFail hn with ⟨_, _, k⟩ | ⟨j, acc', k, e1, e2⟩
      · exact absurd rfl (k i)
      · have := h2 _ _ _ e1
        rw [e2]
        refine ⟨this.1.resolve_right (by simp), this.2⟩
    · rw [h1] at e; cases e
    · exact .done (.inl e)
  | stored h1 h2 h4 =>
    have h3 := asks_step h2 hf hv hp hs
    rcases ph with e | ⟨e, _⟩ | ⟨_, _, _, _, e, _⟩ | ⟨_, ⟨_, _, e⟩, _⟩ | ⟨_, m, e⟩ | ⟨⟨_, _, e⟩, _⟩
    · refine .stored (e.trans h1) h3 (fun hn => ?_)
      rcases stored_step hl hs hf.noFail hn with ⟨k, k', _⟩ | ⟨j, acc', k, e1, e2⟩
      · rw [k]; exact h4 k'
      · have := h2 _ _ _ e1
        rw [e2]
        exact ⟨this.1.resolve_right (by simp), this.2⟩
    · rw [h1] at e; cases e
    · rw [h1] at e; cases e
    · rw [h1] at e; cases e
    · exact .done (.inr ⟨m, e⟩)
    · rw [h1] at e; cases e
  | done h1 =>
    rcases ph with e | ⟨e, _⟩ | ⟨_, _, _, _, e, _⟩ | ⟨_, ⟨_, _, e⟩, _⟩ | ⟨e, _⟩ | ⟨⟨_, _, e⟩, _⟩
    · rw [← e] at h1; exact .done h1
    all_goals rw [e] at h1; rcases h1 with h1 | ⟨m, h1⟩ <;> cases h1

theorem going_run {g : Bool} {i : Nat} {p : Int} {V : List (Nat × String) → Prop} (mid : List Act) : ∀ s s' : State, LockInv g s → Going g i p V s → (∀ a ∈ mid, Fine g i p a) →
    (∀ a b s1, mid = a ++ b → run g s a = some s1 → V (s1.names p) ∧ p ∈ s1.procs) → run g s mid = some s' → Going g i p V s' := by
  induction mid with
  | nil => intro s s' _ h _ _ hr; cases hr; exact h
  | cons a mid ih =>
    intro s s' hl h hf hv hr
    simp only [run, Option.bind_eq_some_iff] at hr
    obtain ⟨s1, k1, k2⟩ := hr
    have h0 := hv [] (a :: mid) s rfl rfl
    refine ih s1 s' (lock_step hl a k1) (going_step hl h (hf a (by simp)) h0.1 h0.2 k1) (fun b hb => hf b (by simp [hb])) (fun b c s2 e e2 => ?_) k2
    exact hv (a :: b) c s2 (by rw [e]; rfl) (by simp [run, k1, e2])

theorem lookup_some {p : Int} {m : TraceMap} {l : List (Nat × String)} (h : (p, l) ∈ m) : ∃ l', m.lookup p = some l' ∧ (p, l') ∈ m := by
  induction m with
  | nil => cases h
  | cons x m ih =>
    obtain ⟨q, k⟩ := x
    by_cases e : p = q
    · subst e; exact ⟨k, by simp [List.lookup], by simp⟩
    · rcases List.mem_cons.1 h with h1 | h1
      · cases h1; exact absurd rfl e
      · obtain ⟨l', h2, h3⟩ := ih h1
        refine ⟨l', ?_, by simp [h3]⟩
        simp only [List.lookup, beq_eq_false_iff_ne.2 e, h2]

/-- What both providers have in common. -/
theorem fresh_of {g : Bool} {s0 : State} (h0 : Reachable g s0) {i : Nat} {mid : List Act} {m : TraceMap} (hf : Finish g s0 i mid m) {p : Int} (ha : Answers g s0 i mid p)
    (hq : g = false → ∀ j acc todo, s0.sess j ≠ .asking acc todo) : ∃ s, During g s0 i mid s ∧ m.lookup p = some (s.names p) := by
  obtain ⟨one, s', hr, hm⟩ := hf
  have hr' : run g s0 ([.finish i] ++ (mid ++ [.look i])) = some s' := by simpa using hr
  rw [run_append] at hr'
  obtain ⟨s1, k1, k2⟩ := Option.bind_eq_some_iff.1 hr'
  rw [run_append] at k2
  obtain ⟨s2, k3, k4⟩ := Option.bind_eq_some_iff.1 k2
  let V : List (Nat × String) → Prop := fun l => ∃ s, During g s0 i mid s ∧ s.names p = l
  have hl1 : LockInv g s1 := lock_run (locks h0) k1
  have hc : step g s0 (.finish i) = some s1 := by simpa [run] using k1
  have hs1 : s1 = s0.set i .called := by
    simp only [step] at hc
    split at hc <;> cases hc <;> rfl
  have g1 : Going g i p V s1 := by
    subst hs1
    refine .called set_self (fun hg j acc todo hj => ?_)
    by_cases e : j = i
    · subst e; rw [set_self] at hj; cases hj
    · rw [set_other e] at hj; exact absurd hj (hq hg j acc todo)
  have g2 : Going g i p V s2 := by
    refine going_run mid s1 s2 hl1 g1 (fun a h => ⟨?_, ?_, ?_⟩) (fun a b s3 e e3 => ?_) k3
    · rintro rfl; exact one h
    · rintro j rfl; exact ha.answers j h
    · rintro hg j rfl; exact ha.noFail hg j h
    · have hd : During g s0 i mid s3 := ⟨a, b, e, by simp [run, hc, e3]⟩
      exact ⟨⟨s3, hd, rfl⟩, ha.connected s3 hd⟩
  have hlook : step g s2 (.look i) = some s' := by simpa [run] using k4
  simp only [step] at hlook
  split at hlook
  case h_2 => cases hlook
  case h_1 e =>
    split at hlook
    case isFalse => cases hlook
    case isTrue hn =>
      cases hlook
      rw [set_self] at hm
      cases hm
      cases g2 with
      | called h1 => rw [e] at h1; cases h1
      | asking _ _ h1 => rw [e] at h1; cases h1
      | done h1 => rw [e] at h1; rcases h1 with h1 | ⟨m, h1⟩ <;> cases h1
      | stored _ _ h4 =>
        obtain ⟨⟨l, hl⟩, hR⟩ := h4 hn
        obtain ⟨l', h5, h6⟩ := lookup_some hl
        obtain ⟨s, hd, es⟩ := hR _ h6 rfl
        exact ⟨s, hd, by rw [h5, es]⟩

/-- **C154, the names of processes and threads.** Whatever other viewers do at the same time. -/
theorem general_fresh : Fresh true := fun _ h0 _ _ _ hf _ ha => fresh_of h0 hf ha (fun h => by cases h)

/-- **C154, the names of tracepoints, partial.** If no other viewer is in the middle of asking when the end of the recording is asked for. Others may begin to ask at any time after that. Missing: others that are. -/
theorem scope_fresh_partial (s0 : State) (h0 : Reachable false s0) (i : Nat) (mid : List Act) (m : TraceMap) (hf : Finish false s0 i mid m) (p : Int) (ha : Answers false s0 i mid p)
    (hq : ∀ j acc todo, s0.sess j ≠ .asking acc todo) : ∃ s, During false s0 i mid s ∧ m.lookup p = some (s.names p) := fresh_of h0 hf ha (fun _ => hq)

/-- **C154, what is shown, partial.** In this case an id that has its name all the time is shown with it. Missing: as before. -/
theorem name_shown_partial (s0 : State) (h0 : Reachable false s0) (i : Nat) (mid : List Act) (m : TraceMap) (hf : Finish false s0 i mid m) (p : Int) (ha : Answers false s0 i mid p)
    (hq : ∀ j acc todo, s0.sess j ≠ .asking acc todo) (id : Nat) (n : String) (hn : ∀ s, During false s0 i mid s → (s.names p).lookup id = some n) : getScopeName m p id = n := by
  obtain ⟨s, hd, hm⟩ := scope_fresh_partial s0 h0 i mid m hf p ha hq
  simp only [getScopeName, hm, hn s hd]

/-! ### Where it fails -/

/-- Steps that do not change processes. -/
def Still (a : Act) : Prop := (∀ l, a ≠ .connect l) ∧ ∀ p l, a ≠ .change p l

theorem still_step {g : Bool} {s s' : State} {a : Act} (ha : Still a) (hs : step g s a = some s') : s'.names = s.names ∧ s'.procs = s.procs := by
  cases a with
  | connect l => exact absurd rfl (ha.1 l)
  | change p l => exact absurd rfl (ha.2 p l)
  | finish i => simp only [step] at hs; split at hs <;> cases hs <;> exact ⟨rfl, rfl⟩
  | start i =>
    simp only [step] at hs
    split at hs
    · split at hs
      · split at hs <;> cases hs; exact ⟨rfl, rfl⟩
      · cases hs; exact ⟨rfl, rfl⟩
    · cases hs
  | ask i p ans =>
    simp only [step] at hs
    split at hs
    · split at hs
      · cases hs; cases g <;> exact ⟨rfl, rfl⟩
      · cases hs
    · cases hs
  | fail i => simp only [step] at hs; split at hs <;> cases hs; cases g <;> exact ⟨rfl, rfl⟩
  | store i => simp only [step] at hs; split at hs <;> cases hs; cases g <;> exact ⟨rfl, rfl⟩
  | look i =>
    simp only [step] at hs
    split at hs
    · split at hs <;> cases hs; exact ⟨rfl, rfl⟩
    · cases hs

theorem still_run {g : Bool} {as : List Act} : ∀ {s s' : State}, (∀ a ∈ as, Still a) → run g s as = some s' → s'.names = s.names ∧ s'.procs = s.procs := by
  induction as with
  | nil => intro s s' _ h; cases h; exact ⟨rfl, rfl⟩
  | cons a as ih =>
    intro s s' ha h
    simp only [run, Option.bind_eq_some_iff] at h
    obtain ⟨s1, k1, k2⟩ := h
    have h1 := still_step (ha a (by simp)) k1
    have h2 := ih (fun b hb => ha b (by simp [hb])) k2
    exact ⟨h2.1.trans h1.1, h2.2.trans h1.2⟩

/-- In a window without changes everything is as at its beginning. -/
theorem still_during {g : Bool} {s0 s : State} {i : Nat} {mid : List Act} (hm : ∀ a ∈ mid, Still a) (hd : During g s0 i mid s) : s.names = s0.names ∧ s.procs = s0.procs := by
  obtain ⟨a, b, e, hr⟩ := hd
  refine still_run (fun x hx => ?_) hr
  rcases List.mem_cons.1 hx with rfl | hx
  · exact ⟨by simp, by simp⟩
  · exact hm x (by rw [e]; simp [hx])

/-- A session asks all it has to ask; `f` says who answers. -/
def asks (i : Nat) (f : Int → Bool) (todo : List Int) : List Act := todo.map fun q => .ask i q (f q)

def answersOf (s : State) (f : Int → Bool) (todo : List Int) : TraceMap := (todo.filter f).map fun q => (q, s.names q)

theorem run_asks (g : Bool) (i : Nat) (f : Int → Bool) : ∀ (todo : List Int) (s : State) (acc : TraceMap), s.sess i = .asking acc todo →
    (g = true → s.mapping = acc) →
    ∃ s', run g s (asks i f todo) = some s' ∧ s'.sess i = .asking (acc ++ answersOf s f todo) [] ∧ (∀ j, j ≠ i → s'.sess j = s.sess j) ∧ s'.holder = s.holder ∧
      (g = false → s'.mapping = s.mapping) ∧ (g = true → s'.mapping = acc ++ answersOf s f todo) := by
  intro todo
  induction todo with
  | nil => intro s acc h hg; exact ⟨s, rfl, by simp [h, answersOf], fun _ _ => rfl, rfl, fun _ => rfl, fun h => by simp [hg h, answersOf]⟩
  | cons q todo ih =>
    intro s acc h hg
    let acc' := if f q then acc ++ [(q, s.names q)] else acc
    let s1 : State := if g then { s.set i (.asking acc' todo) with mapping := acc' } else s.set i (.asking acc' todo)
    have k1 : step g s (.ask i q (f q)) = some s1 := by simp [step, h, s1, acc']
    have e1 : s1.sess i = .asking acc' todo := by cases g <;> exact set_self
    obtain ⟨s', r1, r2, r3, r4, r5, r6⟩ := ih s1 acc' e1 (fun hg => by subst hg; rfl)
    have names : s1.names = s.names := by cases g <;> rfl
    have eq : acc' ++ answersOf s1 f todo = acc ++ answersOf s f (q :: todo) := by
      simp only [answersOf, names, acc', List.filter_cons]
      cases f q <;> simp
    refine ⟨s', by simp only [asks, List.map_cons, run, k1, Option.bind_some]; exact r1, by rw [r2, eq], fun j hj => ?_, ?_, fun hg => ?_, fun hg => by rw [r6 hg, eq]⟩
    · rw [r3 j hj]; cases g <;> exact set_other hj
    · rw [r4]; cases g <;> rfl
    · rw [r5 hg]; subst hg; rfl

/-- A whole update of a session that has called, with nobody else asking. -/
theorem run_update (g : Bool) (i : Nat) (f : Int → Bool) (s : State) (h : s.sess i = .called) (hn : s.holder = none) :
    ∃ s', run g s (.start i :: asks i f s.procs ++ [.store i]) = some s' ∧ s'.sess i = .stored ∧ (∀ j, j ≠ i → s'.sess j = s.sess j) ∧ s'.holder = none ∧ s'.mapping = answersOf s f s.procs := by
  let s1 : State := if g then { s.set i (.asking [] s.procs) with holder := some i, mapping := [] } else s.set i (.asking [] s.procs)
  have k1 : step g s (.start i) = some s1 := by cases g <;> simp [step, h, s1, hn]
  have e1 : s1.sess i = .asking [] s.procs := by cases g <;> exact set_self
  obtain ⟨s2, r1, r2, r3, r4, r5, r6⟩ := run_asks g i f s.procs s1 [] e1 (fun hg => by subst hg; rfl)
  have names : answersOf s1 f s.procs = answersOf s f s.procs := by cases g <;> rfl
  simp only [List.nil_append, names] at r2 r6
  let s3 : State := if g then { s2.set i .stored with holder := none } else { s2.set i .stored with mapping := answersOf s f s.procs }
  have k3 : step g s2 (.store i) = some s3 := by simp [step, r2, s3]
  refine ⟨s3, ?_, ?_, fun j hj => ?_, ?_, ?_⟩
  · rw [List.cons_append]
    simp only [run, k1, Option.bind_some]
    rw [run_append, r1]
    simp [run, k3]
  · cases g <;> exact set_self
  · have : s3.sess j = s2.sess j := by cases g <;> exact set_other hj
    rw [this, r3 j hj]
    cases g <;> exact set_other hj
  · cases g with
    | true => rfl
    | false => exact r4.trans hn
  · cases g with
    | true => exact r6 rfl
    | false => rfl

theorem lookup_answersOf {s : State} {f : Int → Bool} {l : List Int} {p : Int} (h : p ∉ l.filter f) : (answersOf s f l).lookup p = none := by
  unfold answersOf
  generalize l.filter f = r at h
  induction r with
  | nil => rfl
  | cons q r ih =>
    have hq : p ≠ q := fun e => h (by simp [e])
    simp only [List.map_cons, List.lookup, beq_eq_false_iff_ne.2 hq]
    exact ih (fun k => h (by simp [k]))

theorem lookup_new {l : List (Nat × String)} {id : Nat} {n : String} (h : l.lookup id = none) : (l ++ [(id, n)]).lookup id = some n := by
  induction l with
  | nil => simp [List.lookup]
  | cons x l ih =>
    obtain ⟨k, v⟩ := x
    simp only [List.cons_append, List.lookup] at h ⊢
    cases hk : id == k with
    | true => rw [hk] at h; cases h
    | false => rw [hk] at h; exact ih h

theorem asks_still (i : Nat) (f : Int → Bool) (l : List Int) : ∀ a ∈ asks i f l, ∃ q ∈ l, a = .ask i q (f q) := by
  intro a ha
  obtain ⟨q, hq, rfl⟩ := List.mem_map.1 ha
  exact ⟨q, hq, rfl⟩

/-- Who asks can go on to the end. -/
theorem end_asking {g : Bool} {s : State} (hl : LockInv g s) {j : Nat} {acc : TraceMap} {todo : List Int} (hj : s.sess j = .asking acc todo) (f : Int → Bool) :
    ∃ s', run g s (asks j f todo ++ [.store j]) = some s' ∧ s'.sess j = .stored ∧ (∀ k, k ≠ j → s'.sess k = s.sess k) ∧ s'.holder = none ∧ s'.mapping = acc ++ answersOf s f todo := by
  obtain ⟨s1, r1, r2, r3, r4, r5, r6⟩ := run_asks g j f todo s acc hj (fun hg => (hl.held hg j _ _ hj).2)
  let s2 : State := if g then { s1.set j .stored with holder := none } else { s1.set j .stored with mapping := acc ++ answersOf s f todo }
  have k2 : step g s1 (.store j) = some s2 := by simp [step, r2, s2]
  refine ⟨s2, by rw [run_append, r1]; simp [run, k2], by cases g <;> exact set_self, fun k hk => ?_, ?_, ?_⟩
  · have : s2.sess k = s1.sess k := by cases g <;> exact set_other hk
    rw [this, r3 k hk]
  · cases g with
    | true => rfl
    | false =>
      show s1.holder = none
      rw [r4]
      cases hh : s.holder with
      | none => rfl
      | some k => cases (hl.asks k hh).1
  · cases g with
    | true => exact r6 rfl
    | false => rfl

theorem lookup_append_none {a b : TraceMap} {p : Int} (h : b.lookup p = none) : (a ++ b).lookup p = a.lookup p := by
  induction a with
  | nil => simpa using h
  | cons x a ih =>
    obtain ⟨q, l⟩ := x
    simp only [List.cons_append, List.lookup]
    cases p == q with
    | true => rfl
    | false => exact ih

/-- **C154 fails for the names of tracepoints.** Whenever another viewer is in the middle of asking, and has asked a process, any name that this process registers then can be missing from a recording which is ended after
    that: it is shown as unknown, although the process had the name all the time and answered all questions. -/
theorem stale_shown (s0 : State) (h0 : Reachable false s0) (i j : Nat) (hij : j ≠ i) (acc : TraceMap) (todo : List Int) (hj : s0.sess j = .asking acc todo) (hi : s0.sess i = .idle ∨ ∃ m, s0.sess i = .shown m)
    (p : Int) (hp : p ∈ s0.procs) (hd : p ∉ todo) (id : Nat) (n : String) (hid : (s0.names p).lookup id = none) (hacc : ∀ l, acc.lookup p = some l → l.lookup id = none) :
    ∃ s1 mid m, step false s0 (.change p (s0.names p ++ [(id, n)])) = some s1 ∧ Finish false s1 i mid m ∧ Answers false s1 i mid p ∧ (∀ s, During false s1 i mid s → (s.names p).lookup id = some n) ∧
      getScopeName m p id = String.ofList ("Unknown 0x".toList ++ ScopeNames.hexDigits id) := by
  have hl0 := locks h0
  let s1 : State := { s0 with names := fun q => if q = p then s0.names p ++ [(id, n)] else s0.names q }
  have k1 : step false s0 (.change p (s0.names p ++ [(id, n)])) = some s1 := rfl
  have hl1 := lock_step hl0 _ k1
  let s2 : State := s1.set i .called
  have k2 : step false s1 (.finish i) = some s2 := by
    rcases hi with h | ⟨m, h⟩
    · simp [step, s1, h, s2]
    · simp [step, s1, h, s2]
  have hl2 := lock_step hl1 _ k2
  have hn2 : s2.holder = none := by
    cases hh : s2.holder with
    | none => rfl
    | some k => cases (hl2.asks k hh).1
  obtain ⟨s3, r1, r2, r3, r4, r5⟩ := run_update false i (fun _ => true) s2 set_self hn2
  have hl3 := lock_run hl2 r1
  have hj3 : s3.sess j = .asking acc todo := by rw [r3 j hij]; simpa [s2, State.set, hij, s1] using hj
  obtain ⟨s4, q1, q2, q3, q4, q5⟩ := end_asking hl3 hj3 (fun _ => true)
  let mid := (.start i :: asks i (fun _ => true) s2.procs ++ [.store i]) ++ (asks j (fun _ => true) todo ++ [.store j])
  have hmid : ∀ a ∈ mid, a = .start i ∨ a = .store i ∨ a = .store j ∨ ∃ k q, a = .ask k q true := by
    intro a ha
    simp only [mid, List.mem_append, List.mem_cons, List.mem_singleton, List.not_mem_nil, or_false] at ha
    rcases ha with ((rfl | ha) | rfl) | ha | rfl
    · exact .inl rfl
    · obtain ⟨q, _, rfl⟩ := asks_still _ _ _ a ha; exact .inr (.inr (.inr ⟨_, _, rfl⟩))
    · exact .inr (.inl rfl)
    · obtain ⟨q, _, rfl⟩ := asks_still _ _ _ a ha; exact .inr (.inr (.inr ⟨_, _, rfl⟩))
    · exact .inr (.inr (.inl rfl))
  have still : ∀ a ∈ mid, Still a := by
    intro a ha
    rcases hmid a ha with rfl | rfl | rfl | ⟨_, _, rfl⟩ <;> exact ⟨by simp, by simp⟩
  refine ⟨s1, mid, acc ++ answersOf s3 (fun _ => true) todo, k1, ⟨?_, ?_⟩, ⟨?_, ?_, ?_⟩, ?_, ?_⟩
  · intro h; rcases hmid _ h with h | h | h | ⟨_, _, h⟩ <;> cases h
  · refine ⟨s4.set i (.shown s4.mapping), ?_, by rw [set_self, q5]⟩
    have hi4 : s4.sess i = .stored := by rw [q3 i (Ne.symm hij)]; exact r2
    have : run false s2 (mid ++ [.look i]) = some (s4.set i (.shown s4.mapping)) := by
      rw [run_append, run_append, r1]
      simp only [Option.bind_some, q1]
      simp [run, step, hi4, q4]
    simpa [run, k2] using this
  · intro s hs; rw [(still_during still hs).2]; exact hp
  · intro k h; rcases hmid _ h with h | h | h | ⟨_, _, h⟩ <;> cases h
  · intro h; cases h
  · intro s hs
    rw [(still_during still hs).1]
    simp only [s1, if_true]
    exact lookup_new hid
  · have : (acc ++ answersOf s3 (fun _ => true) todo).lookup p = acc.lookup p := lookup_append_none (lookup_answersOf (by simpa using hd))
    simp only [getScopeName, this]
    cases ha : acc.lookup p with
    | none => rfl
    | some l => simp only [hacc l ha]

/-- **C154 does not hold** for the names of tracepoints. -/
theorem not_Fresh : ¬ Fresh false := by
  intro hf
  have hr : Reachable false _ := ⟨[.connect [7], .finish 1, .start 1, .ask 1 7 true], rfl⟩
  obtain ⟨s1, mid, m, h1, h2, h3, h4, h5⟩ := stale_shown _ hr 0 1 (by decide) [(7, [])] [] (by simp [State.set]) (.inl (by simp [State.set])) 7 (by simp [State.set]) (by simp) 5 "f" rfl
    (by intro l hl; simp [List.lookup] at hl; subst hl; rfl)
  have hr1 : Reachable false s1 := by
    cases h1
    exact ⟨[.connect [7], .finish 1, .start 1, .ask 1 7 true, .change 7 [(5, "f")]], rfl⟩
  obtain ⟨s, hd, hm⟩ := hf s1 hr1 0 mid m h2 7 h3
  simp only [getScopeName, hm, h4 s hd] at h5
  have := congrArg String.toList h5
  simp at this

/-- **C154 fails if a process is late.** Both providers show a recording without the names of a process that answered this viewer in time, if it did not answer another one in time, that asked afterwards. This can happen
    whenever nobody asks. -/
theorem late_hides (g : Bool) (s0 : State) (h0 : Reachable g s0) (i j : Nat) (hij : j ≠ i) (hn : s0.holder = none) (hi : s0.sess i = .idle ∨ ∃ m, s0.sess i = .shown m)
    (hj : s0.sess j = .idle ∨ ∃ m, s0.sess j = .shown m) (p : Int) :
    ∃ mid m, Finish g s0 i mid m ∧ Act.ask i p false ∉ mid ∧ (∀ k q, q ≠ p → Act.ask k q false ∉ mid) ∧ (∀ k, Act.fail k ∉ mid) ∧ (∀ s, During g s0 i mid s → s.procs = s0.procs) ∧ m.lookup p = none := by
  have fin : ∀ (s : State) (k : Nat), (s.sess k = .idle ∨ ∃ m, s.sess k = .shown m) → step g s (.finish k) = some (s.set k .called) := by
    intro s k h
    rcases h with h | ⟨m, h⟩ <;> simp [step, h]
  let s1 : State := s0.set i .called
  obtain ⟨s2, r1, r2, r3, r4, _⟩ := run_update g i (fun _ => true) s1 set_self hn
  have hj2 : s2.sess j = .idle ∨ ∃ m, s2.sess j = .shown m := by rw [r3 j hij, set_other hij]; exact hj
  let s3 : State := s2.set j .called
  obtain ⟨s4, q1, q2, q3, q4, q5⟩ := run_update g j (fun q => decide (q ≠ p)) s3 set_self r4
  have hi4 : s4.sess i = .stored := by rw [q3 i (Ne.symm hij), set_other (Ne.symm hij)]; exact r2
  let mid := (.start i :: asks i (fun _ => true) s1.procs ++ [.store i]) ++ (.finish j :: (.start j :: asks j (fun q => decide (q ≠ p)) s3.procs ++ [.store j]))
  have hmid : ∀ a ∈ mid, a = .start i ∨ a = .store i ∨ a = .finish j ∨ a = .start j ∨ a = .store j ∨ (∃ q, a = .ask i q true) ∨ ∃ q, a = .ask j q (decide (q ≠ p)) := by
    intro a ha
    simp only [mid, List.mem_append, List.mem_cons, List.mem_singleton, List.not_mem_nil, or_false] at ha
    rcases ha with ((rfl | ha) | rfl) | rfl | (rfl | ha) | rfl
    · exact .inl rfl
    · obtain ⟨q, _, rfl⟩ := asks_still _ _ _ a ha; exact .inr (.inr (.inr (.inr (.inr (.inl ⟨_, rfl⟩)))))
    · exact .inr (.inl rfl)
    · exact .inr (.inr (.inl rfl))
    · exact .inr (.inr (.inr (.inl rfl)))
    · obtain ⟨q, _, rfl⟩ := asks_still _ _ _ a ha; exact .inr (.inr (.inr (.inr (.inr (.inr ⟨_, rfl⟩)))))
    · exact .inr (.inr (.inr (.inr (.inl rfl))))
  have still : ∀ a ∈ mid, Still a := by
    intro a ha
    rcases hmid a ha with rfl | rfl | rfl | rfl | rfl | ⟨_, rfl⟩ | ⟨_, rfl⟩ <;> exact ⟨by simp, by simp⟩
  refine ⟨mid, answersOf s3 (fun q => decide (q ≠ p)) s3.procs, ⟨?_, ?_⟩, ?_, ?_, ?_, fun s hs => (still_during still hs).2, lookup_answersOf (by simp)⟩
  · intro h
    rcases hmid _ h with h | h | h | h | h | ⟨_, h⟩ | ⟨_, h⟩ <;> cases h
    exact hij rfl
  · refine ⟨s4.set i (.shown s4.mapping), ?_, by rw [set_self, q5]⟩
    have : run g s1 (mid ++ [.look i]) = some (s4.set i (.shown s4.mapping)) := by
      rw [run_append, run_append, r1]
      simp only [Option.bind_some]
      rw [show run g s2 (.finish j :: (.start j :: asks j (fun q => decide (q ≠ p)) s3.procs ++ [.store j])) = some s4 by simp only [run, fin s2 j hj2, Option.bind_some]; exact q1]
      simp [run, step, hi4, q4]
    simpa [run, fin s0 i hi] using this
  · intro h
    rcases hmid _ h with h | h | h | h | h | ⟨_, h⟩ | ⟨_, h⟩
    · cases h
    · cases h
    · cases h
    · cases h
    · cases h
    · cases h
    · injection h with h1; exact hij h1.symm
  · intro k q hq h
    rcases hmid _ h with h | h | h | h | h | ⟨_, h⟩ | ⟨_, h⟩
    all_goals simp_all
  · intro k h
    rcases hmid _ h with h | h | h | h | h | ⟨_, h⟩ | ⟨_, h⟩ <;> cases h

/-- **C154 fails if a question fails.** For the names of processes and threads, a viewer whose question fails leaves nothing for another one that has asked before, and is about to look. -/
theorem failed_hides (s0 : State) (_h0 : Reachable true s0) (i j : Nat) (hij : j ≠ i) (hn : s0.holder = none) (hi : s0.sess i = .idle ∨ ∃ m, s0.sess i = .shown m)
    (hj : s0.sess j = .idle ∨ ∃ m, s0.sess j = .shown m) : ∃ mid, Finish true s0 i mid [] ∧ ∀ k q, Act.ask k q false ∉ mid := by
  have fin : ∀ (s : State) (k : Nat), (s.sess k = .idle ∨ ∃ m, s.sess k = .shown m) → step true s (.finish k) = some (s.set k .called) := by
    intro s k h
    rcases h with h | ⟨m, h⟩ <;> simp [step, h]
  let s1 : State := s0.set i .called
  obtain ⟨s2, r1, r2, r3, r4, _⟩ := run_update true i (fun _ => true) s1 set_self hn
  have hj2 : s2.sess j = .idle ∨ ∃ m, s2.sess j = .shown m := by rw [r3 j hij, set_other hij]; exact hj
  refine ⟨(.start i :: asks i (fun _ => true) s1.procs ++ [.store i]) ++ [.finish j, .start j, .fail j], ⟨?_, ?_⟩, ?_⟩
  · intro h
    simp only [List.mem_append, List.mem_cons, List.not_mem_nil, or_false] at h
    rcases h with ((h | h) | h) | h | h | h
    · cases h
    · obtain ⟨q, _, h⟩ := asks_still _ _ _ _ h; cases h
    · cases h
    · cases h; exact hij rfl
    · cases h
    · cases h
  · let s4 : State := { ((s2.set j .called).set j (.asking [] s2.procs)).set j .idle with holder := none, mapping := [] }
    have hi4 : s4.sess i = .stored := by simp [s4, State.set, Ne.symm hij, r2]
    refine ⟨s4.set i (.shown []), ?_, set_self⟩
    have : run true s1 (((.start i :: asks i (fun _ => true) s1.procs ++ [.store i]) ++ [.finish j, .start j, .fail j]) ++ [.look i]) = some (s4.set i (.shown [])) := by
      rw [run_append, run_append, r1]
      simp only [Option.bind_some, run, fin s2 j hj2]
      simp [step, State.set, r4, Ne.symm hij, r2, s4]
    simpa [run, fin s0 i hi] using this
  · intro k q h
    simp only [List.mem_append, List.mem_cons, List.not_mem_nil, or_false] at h
    rcases h with ((h | h) | h) | h | h | h
    · cases h
    · obtain ⟨q, _, h⟩ := asks_still _ _ _ _ h; cases h
    all_goals cases h

/-! ### Nothing else is shown, and no viewer waits for ever -/

def EntriesIn (W : Int → List (Nat × String) → Prop) (m : TraceMap) : Prop := ∀ e ∈ m, W e.1 e.2

structure SoundInv (W : Int → List (Nat × String) → Prop) (s : State) : Prop where
  mapping : EntriesIn W s.mapping
  asking : ∀ j acc todo, s.sess j = .asking acc todo → EntriesIn W acc
  shown : ∀ j m, s.sess j = .shown m → EntriesIn W m

theorem sound_set {W : Int → List (Nat × String) → Prop} {s s' : State} (h : SoundInv W s) (i : Nat) (f : Phase) (e : ∀ j, s'.sess j = (s.set i f).sess j) (hm : EntriesIn W s'.mapping)
    (h1 : ∀ acc todo, f = .asking acc todo → EntriesIn W acc) (h2 : ∀ m, f = .shown m → EntriesIn W m) : SoundInv W s' := by
  refine ⟨hm, fun j acc todo hj => ?_, fun j m hj => ?_⟩
  · rw [e] at hj
    by_cases e' : j = i
    · subst e'; rw [set_self] at hj; exact h1 acc todo hj
    · rw [set_other e'] at hj; exact h.asking j acc todo hj
  · rw [e] at hj
    by_cases e' : j = i
    · subst e'; rw [set_self] at hj; exact h2 m hj
    · rw [set_other e'] at hj; exact h.shown j m hj

theorem sound_step {g : Bool} {W : Int → List (Nat × String) → Prop} {s s' : State} {a : Act} (h : SoundInv W s) (hw : ∀ q, W q (s.names q)) (hs : step g s a = some s') : SoundInv W s' := by
  cases a with
  | connect l => cases hs; exact ⟨h.mapping, h.asking, h.shown⟩
  | change p l => cases hs; exact ⟨h.mapping, h.asking, h.shown⟩
  | finish i =>
    simp only [step] at hs
    split at hs <;> cases hs <;> exact sound_set h i .called (fun _ => rfl) h.mapping (fun _ _ k => by cases k) (fun _ k => by cases k)
  | start i =>
    simp only [step] at hs
    split at hs
    case h_2 => cases hs
    case h_1 e =>
      have h1 : ∀ acc todo, Phase.asking [] s.procs = .asking acc todo → EntriesIn W acc := by intro acc todo k; cases k; intro e he; cases he
      split at hs
      · split at hs <;> cases hs
        exact sound_set h i _ (fun _ => rfl) (fun e he => by cases he) h1 (fun _ k => by cases k)
      · cases hs; exact sound_set h i _ (fun _ => rfl) h.mapping h1 (fun _ k => by cases k)
  | ask i p ans =>
    simp only [step] at hs
    split at hs
    case h_2 => cases hs
    case h_1 acc q todo e =>
      split at hs
      case isFalse => cases hs
      case isTrue hq =>
        have h0 : EntriesIn W (if ans then acc ++ [(p, s.names p)] else acc) := by
          cases ans with
          | false => exact h.asking i _ _ e
          | true =>
            intro x hx
            simp only [if_true, List.mem_append, List.mem_singleton] at hx
            rcases hx with hx | rfl
            · exact h.asking i _ _ e x hx
            · exact hw p
        have h1 : ∀ acc' todo', Phase.asking (if ans then acc ++ [(p, s.names p)] else acc) todo = .asking acc' todo' → EntriesIn W acc' := by intro acc' todo' k; cases k; exact h0
        cases hs
        cases g with
        | true => exact sound_set h i _ (fun _ => rfl) h0 h1 (fun _ k => by cases k)
        | false => exact sound_set h i _ (fun _ => rfl) h.mapping h1 (fun _ k => by cases k)
  | fail i =>
    simp only [step] at hs
    split at hs
    case h_2 => cases hs
    case h_1 e =>
      cases hs
      cases g <;> exact sound_set h i .idle (fun _ => rfl) h.mapping (fun _ _ k => by cases k) (fun _ k => by cases k)
  | store i =>
    simp only [step] at hs
    split at hs
    case h_2 => cases hs
    case h_1 acc e =>
      cases hs
      cases g with
      | true => exact sound_set h i .stored (fun _ => rfl) h.mapping (fun _ _ k => by cases k) (fun _ k => by cases k)
      | false => exact sound_set h i .stored (fun _ => rfl) (h.asking i _ _ e) (fun _ _ k => by cases k) (fun _ k => by cases k)
  | look i =>
    simp only [step] at hs
    split at hs
    case h_2 => cases hs
    case h_1 e =>
      split at hs <;> cases hs
      exact sound_set h i (.shown s.mapping) (fun _ => rfl) h.mapping (fun _ _ k => by cases k) (fun m k => by cases k; exact h.mapping)

theorem sound_run {g : Bool} {W : Int → List (Nat × String) → Prop} (as : List Act) : ∀ s s' : State, SoundInv W s → (∀ a b s1, as = a ++ b → run g s a = some s1 → ∀ q, W q (s1.names q)) → run g s as = some s' →
    SoundInv W s' := by
  induction as with
  | nil => intro s s' h _ hr; cases hr; exact h
  | cons a as ih =>
    intro s s' h hw hr
    simp only [run, Option.bind_eq_some_iff] at hr
    obtain ⟨s1, k1, k2⟩ := hr
    exact ih s1 s' (sound_step h (hw [] (a :: as) s rfl rfl) k1) (fun b c s2 e e2 => hw (a :: b) c s2 (by rw [e]; rfl) (by simp [run, k1, e2])) k2

/-- **C154.** Nothing else is shown: all names with which a recording is shown are names that the process had at some time. -/
theorem nothing_else (g : Bool) (as : List Act) (s : State) (h : run g {} as = some s) (i : Nat) (m : TraceMap) (hm : s.sess i = .shown m) (p : Int) (l : List (Nat × String)) (hl : m.lookup p = some l) :
    ∃ a b s1, as = a ++ b ∧ run g {} a = some s1 ∧ s1.names p = l := by
  have inv := sound_run (g := g) (W := fun q l => ∃ a b s1, as = a ++ b ∧ run g {} a = some s1 ∧ s1.names q = l) as {} s
    ⟨(fun e he => by cases he), (fun j acc todo hj => by cases hj), (fun j m hj => by cases hj)⟩ (fun a b s1 e e1 q => ⟨a, b, s1, e, e1, rfl⟩) h
  have mem : ∀ m : TraceMap, m.lookup p = some l → (p, l) ∈ m := by
    intro m
    induction m with
    | nil => intro h; cases h
    | cons x m ih =>
      obtain ⟨q, k⟩ := x
      intro h
      simp only [List.lookup] at h
      cases hq : p == q with
      | true => rw [hq] at h; cases h; rw [beq_iff_eq.1 hq]; simp
      | false => rw [hq] at h; simp [ih h]
  exact inv.shown i m hm (p, l) (mem m hl)

/-- **C154.** No viewer waits for ever: whatever others are in the middle of, it gets its names once they are answered. -/
theorem can_finish (g : Bool) (s : State) (h : Reachable g s) (i : Nat) (hi : s.sess i ≠ .idle) :
    ∃ as s' m, (∀ a ∈ as, (∃ j, a = .start j ∨ a = .store j ∨ a = .look j) ∨ ∃ j p, a = .ask j p true) ∧ run g s as = some s' ∧ s'.sess i = .shown m := by
  let Ok : Act → Prop := fun a => (∃ j, a = .start j ∨ a = .store j ∨ a = .look j) ∨ ∃ j p, a = .ask j p true
  have okAsks : ∀ j l, ∀ a ∈ asks j (fun _ => true) l ++ [.store j], Ok a := by
    intro j l a ha
    rcases List.mem_append.1 ha with ha | ha
    · obtain ⟨q, _, rfl⟩ := asks_still _ _ _ a ha; exact .inr ⟨_, _, rfl⟩
    · exact .inl ⟨j, .inr (.inl (by simpa using ha))⟩
  -- first whoever has the mutex
  have free : ∃ as s', (∀ a ∈ as, Ok a) ∧ run g s as = some s' ∧ s'.holder = none ∧ s'.sess i ≠ .idle := by
    cases hh : s.holder with
    | none => exact ⟨[], s, (fun a ha => by cases ha), rfl, hh, hi⟩
    | some j =>
      obtain ⟨_, acc, todo, hj⟩ := (locks h).asks j hh
      obtain ⟨s', r1, r2, r3, r4, _⟩ := end_asking (locks h) hj (fun _ => true)
      refine ⟨_, s', okAsks j todo, r1, r4, ?_⟩
      by_cases e : i = j
      · subst e; rw [r2]; simp
      · rw [r3 i e]; exact hi
  obtain ⟨as, s1, o1, r1, hn, hi1⟩ := free
  have h1 : Reachable g s1 := by
    obtain ⟨bs, hb⟩ := h
    exact ⟨bs ++ as, by rw [run_append, hb]; exact r1⟩
  -- then the session itself, up to the store
  have upto : (∃ m, s1.sess i = .shown m) ∨ ∃ bs s', (∀ a ∈ bs, Ok a) ∧ run g s1 bs = some s' ∧ s'.holder = none ∧ s'.sess i = .stored := by
    cases hp : s1.sess i with
    | idle => exact absurd hp hi1
    | shown m => exact .inl ⟨m, rfl⟩
    | stored => exact .inr ⟨[], s1, (fun a ha => by cases ha), rfl, hn, hp⟩
    | called =>
      obtain ⟨s', q1, q2, _, q4, _⟩ := run_update g i (fun _ => true) s1 hp hn
      refine .inr ⟨_, s', fun a ha => ?_, q1, q4, q2⟩
      rw [List.cons_append] at ha
      rcases List.mem_cons.1 ha with rfl | ha
      · exact .inl ⟨_, .inl rfl⟩
      · exact okAsks i _ a ha
    | asking acc todo =>
      obtain ⟨s', q1, q2, _, q4, _⟩ := end_asking (locks h1) hp (fun _ => true)
      exact .inr ⟨_, s', okAsks i todo, q1, q4, q2⟩
  rcases upto with ⟨m, hm⟩ | ⟨bs, s2, o2, r2, hn2, hs2⟩
  · exact ⟨as, s1, m, o1, r1, hm⟩
  · refine ⟨as ++ (bs ++ [.look i]), s2.set i (.shown s2.mapping), s2.mapping, fun a ha => ?_, ?_, set_self⟩
    · simp only [List.mem_append, List.mem_singleton] at ha
      rcases ha with ha | ha | rfl
      · exact o1 a ha
      · exact o2 a ha
      · exact .inl ⟨_, .inr (.inr rfl)⟩
    · rw [run_append, r1]
      simp only [Option.bind_some]
      rw [run_append, r2]
      simp [run, step, hs2, hn2]

/-! ### Examples -/

/-- Two viewers end their recordings at the same time: viewer 1 begins to ask after viewer 0 has called, and both show what the two processes had. -/
example : ∃ s, run false {} [.connect [7, 8], .change 7 [(1, "f")], .finish 0, .start 0, .finish 1, .ask 0 7 true, .start 1, .change 8 [(2, "g")], .ask 0 8 true, .ask 1 7 true, .store 0, .ask 1 8 true, .store 1, .look 0,
    .look 1] = some s ∧ (∃ m, s.sess 0 = .shown m ∧ m = [(7, [(1, "f")]), (8, [(2, "g")])] ∧ getScopeName m 8 2 = "g") :=
  ⟨_, rfl, _, rfl, rfl, by decide⟩
/-- With the mutex, viewer 1 waits. -/
example : run true {} [.connect [7, 8], .finish 0, .start 0, .finish 1, .ask 0 7 true, .start 1] = none := rfl
/-- The conditions of the theorems are met. -/
example : ∃ s0 mid m, Reachable false s0 ∧ Finish false s0 0 mid m ∧ Answers false s0 0 mid 7 ∧ (∀ j acc todo, s0.sess j ≠ .asking acc todo) ∧ m.lookup 7 = some [(1, "f")] := by
  have still : ∀ a ∈ [Act.start 0, .ask 0 7 true, .store 0], Still a := by
    intro a ha
    simp only [List.mem_cons, List.not_mem_nil, or_false] at ha
    rcases ha with rfl | rfl | rfl <;> exact ⟨by simp, by simp⟩
  refine ⟨_, [.start 0, .ask 0 7 true, .store 0], _, ⟨[.connect [7], .change 7 [(1, "f")]], rfl⟩, ⟨by simp, _, rfl, rfl⟩, ⟨fun s hs => ?_, by simp, by simp⟩, by simp, rfl⟩
  rw [(still_during still hs).2]
  simp

end Scalopus.C154
