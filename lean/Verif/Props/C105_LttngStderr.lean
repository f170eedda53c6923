import Verif.Model.LttngStderr

/-!
# C105: warnings of babeltrace do not hold up the recording

`ops` is everything that babeltrace would write, in order, if nothing held it up. The claim is about the lines that reach the parser.
-/

namespace Scalopus.C105

open LttngStderr

/-- The lines among what babeltrace writes. -/
def lines : List Op → List Nat
  | [] => []
  | .line l :: r => l :: lines r
  | .err _ :: r => lines r

/-- The bytes of its warnings. -/
def errs : List Op → Nat
  | [] => 0
  | .line _ :: r => errs r
  | .err n :: r => n + errs r

/-- **C105** in full: however many warnings babeltrace writes, whatever has happened, every line can still reach the parser, and only the lines do, in order. -/
def NothingHeldUp : Prop := ∀ (c : Caps), 0 < c.out → ∀ ops as s, run c { todo := ops } as = some s →
  s.parsed <+: lines ops ∧ ∃ bs s', run c s bs = some s' ∧ s'.parsed = lines ops

theorem run_cons (c : Caps) (a : Act) (as : List Act) (s : State) : run c s (a :: as) = (step c s a).bind fun t => run c t as := rfl

theorem lines_append (a b : List Op) : lines (a ++ b) = lines a ++ lines b := by
  induction a with
  | nil => rfl
  | cons x a ih => cases x <;> simp [lines, ih]

theorem errs_append (a b : List Op) : errs (a ++ b) = errs a + errs b := by
  induction a with
  | nil => simp [errs]
  | cons x a ih => cases x <;> simp [errs, ih, Nat.add_assoc]

/-- While the part `pre` of the output is being written, before `b`. -/
structure Inv (c : Caps) (total : Nat) (ls : List Nat) (b : List Op) (s : State) : Prop where
  room : s.err ≤ c.err
  part : ∃ pre, s.todo = pre ++ b ∧ s.err + errs pre = total ∧ s.parsed ++ s.out ++ lines pre = ls

theorem inv_step {c : Caps} {total : Nat} {ls : List Nat} {b : List Op} (hb : b = [] ∨ c.err < total) {s s' : State} (h : Inv c total ls b s) {a : Act} (e : step c s a = some s') : Inv c total ls b s' := by
  obtain ⟨h1, pre, h2, h3, h4⟩ := h
  cases a with
  | parser =>
    simp only [step] at e
    split at e
    · cases e
    · rename_i l r ho
      obtain rfl := Option.some.inj e
      exact ⟨h1, pre, h2, h3, by rw [ho] at h4; simpa using h4⟩
  | child =>
    simp only [step] at e
    cases pre with
    | nil =>
      rcases hb with rfl | hb
      · rw [h2] at e; simp at e
      · simp only [errs, Nat.add_zero] at h3; omega
    | cons x pre =>
      rw [h2] at e
      cases x with
      | line l =>
        simp only [List.cons_append] at e
        split at e
        · obtain rfl := Option.some.inj e
          exact ⟨h1, pre, rfl, h3, by simpa [lines] using h4⟩
        · cases e
      | err n =>
        simp only [List.cons_append] at e
        split at e
        · obtain rfl := Option.some.inj e
          simp only [errs] at h3
          exact ⟨by simp only; omega, pre, rfl, by simp only; omega, by simpa [lines] using h4⟩
        · split at e
          · cases e
          · obtain rfl := Option.some.inj e
            simp only [errs] at h3
            exact ⟨by simp only; omega, .err (n - (c.err - s.err)) :: pre, rfl, by simp only [errs]; omega, by simpa [lines] using h4⟩

theorem inv_run {c : Caps} {total : Nat} {ls : List Nat} {b : List Op} (hb : b = [] ∨ c.err < total) (as : List Act) : ∀ {s s' : State}, Inv c total ls b s → run c s as = some s' → Inv c total ls b s' := by
  induction as with
  | nil => intro s s' h e; obtain rfl := Option.some.inj e; exact h
  | cons a as ih =>
    intro s s' h e
    rw [run_cons] at e
    cases h1 : step c s a with
    | none => rw [h1] at e; cases e
    | some t => rw [h1] at e; exact ih (inv_step hb h h1) e

theorem start_inv (c : Caps) (a b : List Op) : Inv c (errs a) (lines a) b { todo := a ++ b } := ⟨Nat.zero_le _, a, rfl, by simp, by simp⟩

/-- **C105, in order.** In every run, whatever the warnings, the parser is given the first lines of babeltrace, each once and in order. -/
theorem in_order (c : Caps) (ops : List Op) (as : List Act) (s : State) (e : run c { todo := ops } as = some s) : s.parsed <+: lines ops := by
  have h := start_inv c ops []
  rw [List.append_nil] at h
  obtain ⟨_, pre, _, _, h4⟩ := inv_run (.inl rfl) as h e
  exact ⟨s.out ++ lines pre, by rw [← h4]; simp⟩

/-- **C105 fails:** as soon as babeltrace has written more warnings than the pipe holds, no line that it would print afterwards ever reaches the parser, in whatever order babeltrace and the parser run. For
    all outputs and capacities. -/
theorem warnings_hold_up (c : Caps) (a b : List Op) (n : Nat) (hn : c.err < errs a + n) (as : List Act) (s : State) (e : run c { todo := a ++ .err n :: b } as = some s) :
    s.parsed <+: lines a := by
  have h := start_inv c (a ++ [.err n]) b
  simp only [errs_append, lines_append, errs, lines, Nat.add_zero, List.append_nil, List.append_assoc, List.singleton_append] at h
  obtain ⟨_, pre, _, _, h4⟩ := inv_run (.inr hn) as h e
  exact ⟨s.out ++ lines pre, by rw [← h4]; simp⟩

/-- A pipe of 65536 bytes, as Linux has them, 1000 warnings of 80 bytes, and then lines. -/
example : (⟨10, 65536⟩ : Caps).err < errs (.line 1 :: List.replicate 999 (.err 80)) + 80 ∧ lines (.line 1 :: List.replicate 999 (.err 80)) = [1] := by
  have e : ∀ n, errs (List.replicate n (.err 80)) = n * 80 := by
    intro n; induction n with
    | zero => rfl
    | succ n ih => rw [List.replicate_succ]; simp only [errs, ih]; omega
  have l : ∀ n, lines (List.replicate n (.err 80)) = [] := by
    intro n; induction n with
    | zero => rfl
    | succ n ih => rw [List.replicate_succ]; exact ih
  exact ⟨by simp only [errs, e]; omega, by simp only [lines, l]⟩

theorem not_NothingHeldUp : ¬ NothingHeldUp := fun h => by
  obtain ⟨_, bs, s', e, hs⟩ := h ⟨1, 0⟩ (by decide) [.err 1, .line 0] [] _ rfl
  have := warnings_hold_up ⟨1, 0⟩ [] [.line 0] 1 (by decide) bs s' e
  rw [hs] at this
  simp [lines] at this

theorem parse_all (c : Caps) : ∀ (o : List Nat) (s : State), s.out = o → ∃ bs, run c s bs = some { s with out := [], parsed := s.parsed ++ o } := by
  intro o
  induction o with
  | nil => intro s h; exact ⟨[], by cases s; simp_all [run]⟩
  | cons l r ih =>
    intro s h
    obtain ⟨bs, hb⟩ := ih { s with out := r, parsed := s.parsed ++ [l] } rfl
    refine ⟨.parser :: bs, ?_⟩
    rw [run_cons]
    have : step c s .parser = some { s with out := r, parsed := s.parsed ++ [l] } := by simp only [step, h]
    rw [this]
    simpa using hb

theorem run_append (c : Caps) (as bs : List Act) {s s1 s2 : State} (h1 : run c s as = some s1) (h2 : run c s1 bs = some s2) : run c s (as ++ bs) = some s2 := by
  induction as generalizing s with
  | nil => obtain rfl := Option.some.inj h1; exact h2
  | cons a as ih =>
    rw [List.cons_append, run_cons]
    rw [run_cons] at h1
    cases h : step c s a with
    | none => rw [h] at h1; cases h1
    | some t => rw [h] at h1; exact ih h1

theorem finish (c : Caps) (hc : 0 < c.out) : ∀ (l : List Op) (s : State), s.todo = l → s.err + errs l ≤ c.err → ∃ bs s', run c s bs = some s' ∧ s'.parsed = s.parsed ++ s.out ++ lines l := by
  intro l
  induction l with
  | nil =>
    intro s _ _
    obtain ⟨bs, hb⟩ := parse_all c s.out s rfl
    exact ⟨bs, _, hb, by simp [lines]⟩
  | cons x l ih =>
    intro s hs he
    obtain ⟨bs, hb⟩ := parse_all c s.out s rfl
    cases x with
    | line n =>
      obtain ⟨ds, s', h1, h2⟩ := ih { s with todo := l, out := [n], parsed := s.parsed ++ s.out } rfl he
      refine ⟨bs ++ .child :: ds, s', run_append c _ _ hb ?_, by rw [h2]; simp [lines]⟩
      rw [run_cons]
      have : step c { s with out := [], parsed := s.parsed ++ s.out } .child = some { s with todo := l, out := [n], parsed := s.parsed ++ s.out } := by
        simp only [step, hs]; simp [hc]
      rw [this]; exact h1
    | err n =>
      simp only [errs] at he
      obtain ⟨ds, s', h1, h2⟩ := ih { s with todo := l, err := s.err + n } rfl (by simp only; omega)
      refine ⟨.child :: ds, s', ?_, by rw [h2]; simp [lines]⟩
      rw [run_cons]
      have : step c s .child = some { s with todo := l, err := s.err + n } := by
        simp only [step, hs]
        rw [if_pos (by omega)]
      rw [this]; exact h1

/-- **C105, partial.** If all warnings of babeltrace together fit into the pipe, then whatever has happened every line can still reach the parser. Missing: more warnings; see above. -/
theorem lines_arrive_partial (c : Caps) (hc : 0 < c.out) (ops : List Op) (he : errs ops ≤ c.err) (as : List Act) (s : State) (e : run c { todo := ops } as = some s) :
    ∃ bs s', run c s bs = some s' ∧ s'.parsed = lines ops := by
  have h := start_inv c ops []
  rw [List.append_nil] at h
  obtain ⟨_, pre, h2, h3, h4⟩ := inv_run (.inl rfl) as h e
  rw [List.append_nil] at h2
  obtain ⟨bs, s', e1, e2⟩ := finish c hc pre s h2 (by omega)
  exact ⟨bs, s', e1, by rw [e2, h4]⟩

example : ∃ s, run ⟨1, 100⟩ { todo := [.line 1, .err 60, .line 2, .err 40, .line 3] } [.child, .child, .parser, .child] = some s ∧ s.parsed = [1] ∧ s.out = [2] ∧ s.err = 60 := ⟨_, rfl, rfl, rfl, rfl⟩

end Scalopus.C105
