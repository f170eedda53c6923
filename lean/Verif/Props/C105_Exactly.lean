import Verif.Props.C105_LttngStderr
import Verif.Props.C123_ProcessName

/-!
# C105, C123: exactly when it goes wrong

Warnings of babeltrace that hold up its lines, and names of a process that are set while they are read.
-/

namespace Scalopus.C105

open LttngStderr

/-- Before each line that is still to be written, the warnings fit into the pipe. -/
def Fits (c : Caps) (s : State) : Prop := ∀ a l b, s.todo = a ++ .line l :: b → s.err + errs a ≤ c.err

theorem fits_step {c : Caps} {s s' : State} (h : Fits c s) {a : Act} (e : step c s a = some s') : Fits c s' := by
  cases a with
  | parser =>
    simp only [step] at e
    split at e
    · cases e
    · obtain rfl := Option.some.inj e; exact h
  | child =>
    simp only [step] at e
    split at e
    · cases e
    · rename_i l r ht
      split at e
      · obtain rfl := Option.some.inj e
        intro a l' b hr
        simp only at hr
        have := h (.line l :: a) l' b (by rw [ht, hr]; rfl)
        simpa [errs] using this
      · cases e
    · rename_i n r ht
      split at e
      · obtain rfl := Option.some.inj e
        intro a l' b hr
        simp only at hr
        have := h (.err n :: a) l' b (by rw [ht, hr]; rfl)
        simp only [errs] at this
        simp only; omega
      · rename_i hn
        split at e
        · cases e
        · obtain rfl := Option.some.inj e
          intro a l' b hr
          cases a with
          | nil => simp at hr
          | cons x a =>
            simp only [List.cons_append, List.cons.injEq] at hr
            obtain ⟨rfl, hr⟩ := hr
            have := h (.err n :: a) l' b (by rw [ht, hr]; rfl)
            simp only [errs] at this ⊢
            omega

theorem fits_run {c : Caps} (as : List Act) : ∀ {s s' : State}, Fits c s → run c s as = some s' → Fits c s' := by
  induction as with
  | nil => intro s s' h e; obtain rfl := Option.some.inj e; exact h
  | cons a as ih =>
    intro s s' h e
    rw [run_cons] at e
    cases h1 : step c s a with
    | none => rw [h1] at e; cases e
    | some t => rw [h1] at e; exact ih (fits_step h h1) e

theorem no_lines {l : List Op} (h : ∀ a n b, l ≠ a ++ .line n :: b) : lines l = [] := by
  induction l with
  | nil => rfl
  | cons x l ih =>
    cases x with
    | line n => exact absurd rfl (h [] n l)
    | err n => exact ih fun a m b e => h (.err n :: a) m b (by rw [e]; rfl)

theorem finish_fits (c : Caps) (hc : 0 < c.out) : ∀ (l : List Op) (s : State), s.todo = l → Fits c s → ∃ bs s', run c s bs = some s' ∧ s'.parsed = s.parsed ++ s.out ++ lines l := by
  intro l
  induction l with
  | nil =>
    intro s _ _
    obtain ⟨bs, hb⟩ := parse_all c s.out s rfl
    exact ⟨bs, _, hb, by simp [lines]⟩
  | cons x l ih =>
    intro s hs hf
    obtain ⟨bs, hb⟩ := parse_all c s.out s rfl
    cases x with
    | line n =>
      have hst : step c { s with out := [], parsed := s.parsed ++ s.out } .child = some { s with todo := l, out := [n], parsed := s.parsed ++ s.out } := by
        simp only [step, hs]; simp [hc]
      obtain ⟨ds, s', h1, h2⟩ := ih { s with todo := l, out := [n], parsed := s.parsed ++ s.out } rfl (fits_step (s := { s with out := [], parsed := s.parsed ++ s.out }) hf hst)
      refine ⟨bs ++ .child :: ds, s', run_append c _ _ hb ?_, by rw [h2]; simp [lines]⟩
      rw [run_cons, hst]; exact h1
    | err n =>
      by_cases hn : n ≤ c.err - s.err
      · have hst : step c s .child = some { s with todo := l, err := s.err + n } := by
          simp only [step, hs]
          rw [if_pos hn]
        obtain ⟨ds, s', h1, h2⟩ := ih { s with todo := l, err := s.err + n } rfl (fits_step hf hst)
        refine ⟨.child :: ds, s', ?_, by rw [h2]; simp [lines]⟩
        rw [run_cons, hst]; exact h1
      · have hl : lines (.err n :: l) = [] := by
          apply no_lines
          intro a m b e
          have := hf a m b (by rw [hs, e])
          cases a with
          | nil => simp at e
          | cons y a =>
            simp only [List.cons_append, List.cons.injEq] at e
            obtain ⟨rfl, -⟩ := e
            simp only [errs] at this
            omega
        exact ⟨bs, _, hb, by rw [hl]; simp⟩

/-- **C105, exactly.** Whatever has happened, every line can still reach the parser exactly if, before each line, babeltrace writes no more warnings than the pipe holds. If not, the lines from the first such
    one on never arrive (`warnings_hold_up`). -/
theorem all_arrive_iff (c : Caps) (hc : 0 < c.out) (ops : List Op) :
    (∀ as s, run c { todo := ops } as = some s → ∃ bs s', run c s bs = some s' ∧ s'.parsed = lines ops) ↔ ∀ a l b, ops = a ++ .line l :: b → errs a ≤ c.err := by
  constructor
  · rintro h a l b rfl
    apply Classical.byContradiction
    intro hn
    obtain ⟨bs, s', e, hp⟩ := h [] _ rfl
    obtain ⟨_, pre, _, _, h4⟩ := inv_run (.inr (by omega)) bs (start_inv c a (.line l :: b)) e
    have := congrArg List.length h4
    rw [hp] at this
    simp only [lines_append, lines, List.length_append, List.length_cons] at this
    omega
  · intro h as s e
    have h0 := start_inv c ops []
    rw [List.append_nil] at h0
    obtain ⟨_, pre, h2, _, h4⟩ := inv_run (.inl rfl) as h0 e
    rw [List.append_nil] at h2
    obtain ⟨bs, s', e1, e2⟩ := finish_fits c hc pre s h2 (fits_run as (fun a l b hs => by simpa using h a l b hs) e)
    exact ⟨bs, s', e1, by rw [e2, h4]⟩

/-- More warnings than the pipe holds, but after the last line. -/
example : ∀ a l b, [Op.line 1, .err 60, .line 2, .err 400] = a ++ .line l :: b → errs a ≤ 100 := by
  intro a l b e
  match a, e with
  | [], _ => decide
  | [x], e => cases e
  | [x, y], e => cases e; decide
  | [x, y, z], e => cases e
  | _ :: _ :: _ :: _ :: _, e => simp at e

end Scalopus.C105

namespace Scalopus.C123

open ProcessName

/-- **C123, exactly.** Whatever happened before, the next step is undefined exactly if a thread sets the name while it is being read or, in C++, set by another thread, or a transport reads it while it is being set. -/
theorem undefined_iff {N : Type} (s : State N) (a : Act N) :
    step s a = .ub ↔
      (∃ t n, a = .set t n ∧ (∀ x ∈ s.writing, x.1 ≠ t) ∧ (s.gil = true → s.writing = []) ∧ (s.writing ≠ [] ∨ s.reading ≠ [])) ∨
      (∃ r, a = .read r ∧ r ∈ s.added ∧ r ∉ s.reading ∧ s.writing ≠ []) := by
  cases a with
  | add r => simp [step]
  | setEnd t => simp only [step]; split <;> simp
  | readEnd r => simp only [step]; split <;> simp
  | read r =>
    simp only [step, reduceCtorEq, false_and, exists_false, Act.read.injEq, exists_eq_left', false_or]
    by_cases h1 : (!s.added.contains r || s.reading.contains r) = true
    · rw [if_pos h1]
      simp only [reduceCtorEq, false_iff]
      rintro ⟨h2, h3, -⟩
      simp [h2, h3] at h1
    · rw [if_neg h1]
      simp only [Bool.or_eq_true, Bool.not_eq_eq_eq_not, Bool.not_true, not_or, Bool.not_eq_false, List.contains_iff_mem, Bool.not_eq_true] at h1
      have h3 : r ∉ s.reading := by simpa using h1.2
      by_cases hw : s.writing = []
      · simp [hw]
      · simp [hw, h1.1, h3]
  | set t n =>
    simp only [step, reduceCtorEq, false_and, exists_false, or_false]
    have e1 : (s.writing.any (·.1 == t) || (s.gil && !s.writing.isEmpty)) = false ↔ (∀ x ∈ s.writing, x.1 ≠ t) ∧ (s.gil = true → s.writing = []) := by
      cases s.gil <;> simp
    by_cases h1 : (s.writing.any (·.1 == t) || (s.gil && !s.writing.isEmpty)) = true
    · rw [if_pos h1]
      simp only [reduceCtorEq, false_iff]
      rintro ⟨t', n', e, h2, h3, -⟩
      cases e
      rw [e1.2 ⟨h2, h3⟩] at h1
      cases h1
    · rw [if_neg h1]
      have h2 := e1.1 (Bool.eq_false_iff.2 h1)
      by_cases hw : s.writing = [] ∧ s.reading = []
      · simp only [hw.1, hw.2, List.isEmpty_nil, Bool.and_self, ↓reduceIte, reduceCtorEq, false_iff]
        rintro ⟨t', n', -, -, -, h | h⟩ <;> exact h rfl
      · have : (s.writing.isEmpty && s.reading.isEmpty) = false := by
          cases h3 : s.writing <;> cases h4 : s.reading <;> simp_all
        rw [this]
        simp only [Bool.false_eq_true, ↓reduceIte, true_iff]
        refine ⟨t, n, rfl, h2.1, h2.2, ?_⟩
        by_cases h3 : s.writing = []
        · exact .inr fun h4 => hw ⟨h3, h4⟩
        · exact .inl h3

end Scalopus.C123
