import Verif.Model.ProcessName

/-!
# C123: the name of a process may be set at any time

Every answer gives the name that was set last. A program may set the name at any time. The first holds for every history without a data race, the second only if the name is set before the endpoint is added
to a transport: a name that is set while a request is answered is a data race, in C++ and in Python.
-/

namespace Scalopus.C123

open ProcessName

/-! ## Specification -/

/-- The name that was set last, of a log whose newest event is the first. -/
def last {N : Type} (d : N) : List (Event N) → N
  | [] => d
  | .assigned n :: _ => n
  | _ :: l => last d l

/-- Nothing has happened yet. The name is empty in the code; here it is any name. -/
def start {N : Type} (d : N) (gil : Bool) : State N := { name := d, gil := gil }

/-- The name may be set at any time: no history is undefined. -/
def AnyTime (N : Type) : Prop := ∀ (d : N) (gil : Bool) (acts : List (Act N)), run (start d gil) acts ≠ .ub

def isSet {N : Type} : Act N → Bool
  | .set .. => true
  | _ => false

/-! ## What holds in every state -/

structure Inv {N : Type} (d : N) (s : State N) : Prop where
  name : s.name = last d s.log
  answers : ∀ l1 l2 r n, s.log = l1 ++ .answered r n :: l2 → n = last d l2
  one : s.writing = [] ∨ (∃ w, s.writing = [w]) ∧ s.reading = []

theorem inv_start {N : Type} (d : N) (gil : Bool) : Inv d (start d gil) := ⟨rfl, fun l1 l2 r n h => (by cases l1 <;> cases h), .inl rfl⟩

theorem inv_step {N : Type} {d : N} {s s' : State N} {a : Act N} (h : Inv d s) (e : step s a = .ok s') : Inv d s' := by
  obtain ⟨h1, h2, h3⟩ := h
  cases a with
  | add r => cases e; exact ⟨h1, h2, h3⟩
  | set t n =>
    simp only [step] at e
    split at e
    · cases e
    · split at e
      · rename_i hc
        cases e
        refine ⟨h1, h2, .inr ⟨⟨_, rfl⟩, ?_⟩⟩
        simp only [Bool.and_eq_true, List.isEmpty_iff] at hc
        exact hc.2
      · cases e
  | setEnd t =>
    simp only [step] at e
    split at e
    · rename_i u n hf
      cases e
      refine ⟨rfl, fun l1 l2 r m hl => ?_, .inl ?_⟩
      · cases l1 with
        | nil => cases hl
        | cons x l1 => simp only [List.cons_append, List.cons.injEq] at hl; exact h2 l1 l2 r m hl.2
      · rcases h3 with h3 | ⟨⟨w, h3⟩, _⟩
        · rw [h3] at hf; cases hf
        · rw [h3] at hf ⊢
          simp only [List.find?_cons, List.find?_nil] at hf
          split at hf
          · rename_i hw; simp only [beq_iff_eq] at hw; simp [hw]
          · cases hf
    · cases e
  | read r =>
    simp only [step] at e
    split at e
    · cases e
    · split at e
      · rename_i hw
        cases e
        refine ⟨h1, fun l1 l2 q m hl => ?_, .inl (by simpa using hw)⟩
        cases l1 with
        | nil => cases hl
        | cons x l1 => simp only [List.cons_append, List.cons.injEq] at hl; exact h2 l1 l2 q m hl.2
      · cases e
  | readEnd r =>
    simp only [step] at e
    split at e
    · rename_i hr
      cases e
      refine ⟨h1, fun l1 l2 q m hl => ?_, ?_⟩
      · cases l1 with
        | nil => cases hl; exact h1
        | cons x l1 => simp only [List.cons_append, List.cons.injEq] at hl; exact h2 l1 l2 q m hl.2
      · rcases h3 with h3 | ⟨_, h3⟩
        · exact .inl h3
        · rw [h3] at hr; simp at hr
    · cases e

theorem inv_run {N : Type} {d : N} {s s' : State N} {acts : List (Act N)} (h : Inv d s) (e : run s acts = .ok s') : Inv d s' := by
  induction acts generalizing s with
  | nil => cases e; exact h
  | cons a as ih =>
    simp only [run] at e
    split at e
    · rename_i hs; exact ih (inv_step h hs) e
    · rename_i hs; exact absurd e (hs s')

/-! ## Answers -/

/-- Every answer gives the name that was set last, in every history without a race. -/
theorem answer_is_last {N : Type} {d : N} {gil : Bool} {acts : List (Act N)} {s : State N} (e : run (start d gil) acts = .ok s) {l1 l2 : List (Event N)} {r : Nat} {n : N}
    (hl : s.log = l1 ++ .answered r n :: l2) : n = last d l2 :=
  (inv_run (inv_start d gil) e).answers l1 l2 r n hl

/-- A request to a transport that has the endpoint, at a time at which nobody sets the name, is answered with the name set last. -/
theorem request_answered {N : Type} {d : N} {gil : Bool} {acts : List (Act N)} {s : State N} (e : run (start d gil) acts = .ok s) {r : Nat} (ha : r ∈ s.added) (hr : r ∉ s.reading) (hw : s.writing = []) :
    ∃ s', run s [.read r, .readEnd r] = .ok s' ∧ s'.log = .answered r (last d s.log) :: .asked r :: s.log := by
  have h1 := (inv_run (inv_start d gil) e).name
  have hf : s.reading.filter (· != r) = s.reading := List.filter_eq_self.2 (fun a h => by simp; rintro rfl; exact hr h)
  refine ⟨{ s with log := .answered r (last d s.log) :: .asked r :: s.log }, ?_, rfl⟩
  simp [run, step, ha, hr, hw, h1, hf]

/-- Setting the name when nobody reads or sets it. -/
theorem name_set {N : Type} {d : N} {gil : Bool} {acts : List (Act N)} {s : State N} (_e : run (start d gil) acts = .ok s) (t : Nat) (n : N) (hr : s.reading = []) (hw : s.writing = []) :
    ∃ s', run s [.set t n, .setEnd t] = .ok s' ∧ s'.log = .assigned n :: s.log ∧ s'.writing = [] ∧ s'.reading = [] ∧ s'.added = s.added := by
  refine ⟨{ s with name := n, log := .assigned n :: s.log }, ?_, rfl, hw, hr, rfl⟩
  simp [run, step, hw, hr]

/-- A program that sets its names one after the other before the endpoint is used, and none later, is never undefined, and every answer gives the last of the names. -/
theorem early_names_partial {N : Type} (d : N) (gil : Bool) (names : List (Nat × N)) {post : List (Act N)} (hp : ∀ a ∈ post, isSet a = false) :
    run (start d gil) (names.flatMap (fun p => [.set p.1 p.2, .setEnd p.1]) ++ post) ≠ .ub ∧
    ∀ s, run (start d gil) (names.flatMap (fun p => [.set p.1 p.2, .setEnd p.1]) ++ post) = .ok s → ∀ r n, .answered r n ∈ s.log → n = (names.getLast?.map (·.2)).getD d := by
  -- after the names, nothing is written
  have after : ∀ (post : List (Act N)) (s : State N), (∀ a ∈ post, isSet a = false) → s.writing = [] → (∀ r n, .answered r n ∈ s.log → n = s.name) →
      run s post ≠ .ub ∧ ∀ s', run s post = .ok s' → ∀ r n, .answered r n ∈ s'.log → n = s.name := by
    intro post
    induction post with
    | nil => intro s _ _ h; exact ⟨by simp [run], fun s' e => by cases e; exact h⟩
    | cons a as ih =>
      intro s hp hw hl
      have hps := fun b hb => hp b (List.mem_cons_of_mem _ hb)
      cases a with
      | add r => exact ih { s with added := r :: s.added } hps hw hl
      | set t n => have := hp _ List.mem_cons_self; simp [isSet] at this
      | setEnd t => simp [run, step, hw]
      | read r =>
        simp only [run, step]
        by_cases hc : (!s.added.contains r || s.reading.contains r) = true
        · rw [if_pos hc]; simp
        · rw [if_neg hc, if_pos (by simp [hw])]
          exact ih _ hps hw (fun q m hm => hl q m (by simpa using hm))
      | readEnd r =>
        simp only [run, step]
        split
        · rename_i s1 e1
          split at e1
          · cases e1
            refine ih _ hps hw (fun q m hm => ?_)
            simp only [List.mem_cons, Event.answered.injEq] at hm
            rcases hm with ⟨_, rfl⟩ | hm
            · rfl
            · exact hl q m hm
          · cases e1
        · rename_i o hne
          split at hne
          · exact absurd rfl (hne _)
          · rename_i hc; rw [if_neg hc]; simp
  have before : ∀ (names : List (Nat × N)) (s : State N), s.writing = [] → s.reading = [] → (∀ r n, .answered r n ∉ s.log) →
      run s (names.flatMap (fun p => [.set p.1 p.2, .setEnd p.1]) ++ post) ≠ .ub ∧
      ∀ s', run s (names.flatMap (fun p => [.set p.1 p.2, .setEnd p.1]) ++ post) = .ok s' → ∀ r n, .answered r n ∈ s'.log → n = (names.getLast?.map (·.2)).getD s.name := by
    intro names
    induction names with
    | nil => intro s hw _ hl; exact after post s hp hw (fun r n h => absurd h (hl r n))
    | cons p names ih =>
      intro s hw hr hl
      have e : run s (((p :: names).flatMap (fun p => [.set p.1 p.2, .setEnd p.1])) ++ post) =
          run { s with name := p.2, writing := [], log := .assigned p.2 :: s.log } (names.flatMap (fun p => [.set p.1 p.2, .setEnd p.1]) ++ post) := by
        simp [run, step, hw, hr]
      rw [e]
      have := ih { s with name := p.2, writing := [], log := .assigned p.2 :: s.log } rfl hr (by simpa using hl)
      refine ⟨this.1, fun s' es r n hm => ?_⟩
      rw [this.2 s' es r n hm]
      cases names with
      | nil => rfl
      | cons q names => simp [List.getLast?_cons_cons]; cases h : (q :: names).getLast? <;> simp_all
  exact before names (start d gil) rfl rfl (by simp [start])

/-! ## Races -/

/-- Whenever a request is being answered, setting the name is undefined, also from Python. -/
theorem set_while_read {N : Type} {d : N} {gil : Bool} {acts : List (Act N)} {s : State N} (e : run (start d gil) acts = .ok s) (hr : s.reading ≠ []) (t : Nat) (n : N) : step s (.set t n) = .ub := by
  have hw : s.writing = [] := by
    rcases (inv_run (inv_start d gil) e).one with h | ⟨_, h⟩
    · exact h
    · exact absurd h hr
  simp [step, hw, hr]

/-- A name that is set after the endpoint was added can always meet a request. -/
theorem late_name {N : Type} {d : N} {gil : Bool} {acts : List (Act N)} {s : State N} (_e : run (start d gil) acts = .ok s) {r : Nat} (ha : r ∈ s.added) (hr : r ∉ s.reading) (hw : s.writing = []) (t : Nat) (n : N) :
    run s [.read r, .set t n] = .ub ∧ run s [.set t n, .read r] = .ub := by
  constructor
  · simp [run, step, ha, hr, hw]
  · by_cases he : s.reading = []
    · simp [run, step, ha, hr, hw, he]
    · simp [run, step, hw, he]

/-- Two threads of a C++ program that set the name; Python threads wait for each other. -/
theorem two_setters {N : Type} {d : N} {gil : Bool} {acts : List (Act N)} {s : State N} (_e : run (start d gil) acts = .ok s) {t u : Nat} {m : N} (hw : s.writing = [(u, m)]) (ht : t ≠ u) (n : N) :
    step s (.set t n) = if s.gil then .no else .ub := by
  cases hg : s.gil <;> simp [step, hw, Ne.symm ht, hg]

theorem not_AnyTime {N : Type} (n : N) : ¬ AnyTime N := fun h => h n true [.add 0, .read 0, .set 1 n] (by simp [run, step, start])

/-! ## Cases -/

/-- A name is set, then two requests are answered over two transports at the same time. -/
example : ∃ s, run (start "" false) [.set 0 "app", .setEnd 0, .add 1, .add 2, .read 1, .read 2, .readEnd 1, .readEnd 2] = .ok s ∧
    s.log = [.answered 2 "app", .answered 1 "app", .asked 2, .asked 1, .assigned "app"] := ⟨_, rfl, by decide⟩

/-- The name is changed between two requests. -/
example : ∃ s, run (start "" true) [.add 1, .read 1, .readEnd 1, .set 0 "app", .setEnd 0, .read 1, .readEnd 1] = .ok s ∧
    s.log = [.answered 1 "app", .asked 1, .assigned "app", .answered 1 "", .asked 1] := ⟨_, rfl, by decide⟩

end Scalopus.C123
