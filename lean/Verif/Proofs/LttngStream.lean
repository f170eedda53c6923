import Verif.Spec.LttngStream

/-!
# The lines the parser reads
-/

namespace Scalopus.LttngStream

open Ctf (Text)
open Spec

/-- What the parser has taken for the present line. -/
def taken : Pc → Text
  | .gets acc => acc
  | _ => []

/-- Up to now the parser has passed on lines that fit: `rest` is what follows them. -/
theorem cString_eq {t : Text} (h : Char.ofNat 0 ∉ t) : cString t = t := by
  unfold cString
  induction t with
  | nil => rfl
  | cons c t ih =>
    simp only [List.mem_cons, not_or] at h
    rw [List.takeWhile_cons, if_pos (by simpa using Ne.symm h.1), ih h.2]

/-- A text that is a prefix of lines: either it is a proper prefix of the first line, or the first line is a prefix of it. -/
theorem isLine_ne_nil {l : Text} (h : IsLine l) : l ≠ [] := by
  obtain ⟨b, rfl, _⟩ := h
  simp

theorem isLine_getLast {l : Text} (h : IsLine l) : l.getLast? = some '\n' := by
  obtain ⟨b, rfl, _⟩ := h
  simp

/-- A proper prefix of a line contains no newline. -/
theorem isLine_no_newline {l a b : Text} (h : IsLine l) (hl : l = a ++ b) (hb : b ≠ []) : '\n' ∉ a := by
  obtain ⟨body, rfl, hn⟩ := h
  obtain ⟨b', x, rfl⟩ : ∃ b' x, b = b' ++ [x] := ⟨b.dropLast, b.getLast hb, (List.dropLast_append_getLast hb).symm⟩
  rw [← List.append_assoc] at hl
  have := (List.append_inj' hl rfl).1
  rw [this] at hn
  intro ha
  exact hn (List.mem_append_left _ ha)

/-- The invariant until the loop ends: what the parser has passed on, has taken, has in its buffer and what is in the pipe is what babeltrace printed. -/
def Open (ls : List Text) (t : Text) (s : State) : Prop :=
  (s.pc = .poll ∨ ∃ a, s.pc = .gets a) ∧ ∃ done todo, ls = done ++ todo ∧ s.lines = done ∧
    (taken s.pc ++ s.buf ++ s.pipe) <+: todo.flatten ∧ done.flatten ++ taken s.pc ++ s.buf ++ s.pipe = t ∧
    (∀ l ∈ todo.head?, (taken s.pc) <+: l) ∧ (todo = [] → taken s.pc = [])

/-- The loop has ended. `acc` is the line that babeltrace did not complete. -/
def Closed (ls : List Text) (t : Text) (s : State) : Prop :=
  s.pc = .done ∧ s.closed = true ∧ ∃ done todo acc, ls = done ++ todo ∧ s.lines = done ++ (if acc = [] then [] else [acc]) ∧ done.flatten ++ acc = t ∧
    acc.getLast? ≠ some '\n' ∧ ∀ l ∈ todo.head?, acc <+: l

theorem prefix_snoc {a l rest : Text} {c : Char} (h : a <+: l) (hne : a ≠ l) (hc : (a ++ [c]) <+: l ++ rest) : a ++ [c] <+: l := by
  obtain ⟨b, rfl⟩ := h
  cases b with
  | nil => simp at hne
  | cons d b =>
    obtain ⟨e, he⟩ := hc
    simp only [List.append_assoc, List.singleton_append, List.append_cancel_left_eq, List.cons_append, List.cons.injEq] at he
    exact ⟨b, by simp [he.1]⟩

/-- Invariant for lines that fit, with a text that is a prefix of them. -/
theorem inv {ls : List Text} (hls : ∀ l ∈ ls, Fits l) {t : Text} {s : State} (h : Reachable t s) (ht : t <+: ls.flatten) : Open ls t s ∨ Closed ls t s := by
  induction h with
  | init =>
    exact .inl ⟨.inl rfl, [], ls, rfl, rfl, by simp [taken], rfl, by simp [taken], by simp [taken]⟩
  | @print t t' s s' hr hs ih =>
    simp only [step] at hs
    split at hs
    · cases hs
    · rename_i hcl
      cases hs
      rcases ih ((List.prefix_append _ _).trans ht) with ⟨hfin, done, todo, h1, h2, h3, h4, h5, h6⟩ | hc
      · refine .inl ⟨hfin, done, todo, h1, h2, ?_, ?_, h5, h6⟩
        · have : done.flatten ++ (taken s.pc ++ s.buf ++ (s.pipe ++ t')) <+: done.flatten ++ todo.flatten := by
            rw [← List.flatten_append, ← h1]
            rw [← h4] at ht
            simpa using ht
          exact (List.prefix_append_right_inj _).mp this
        · simp only [← h4, List.append_assoc]
      · exact absurd hc.2.1 (by simpa using hcl)
  | @close t s s' hr hs ih =>
    simp only [step] at hs
    cases hs
    rcases ih ht with h | h
    · exact .inl h
    · exact .inr ⟨h.1, rfl, h.2.2⟩
  | @parser t s s' n hr hs ih =>
    have ih := ih ht
    simp only [step, parserStep] at hs
    rcases ih with ⟨hfin, done, todo, h1, h2, h3, h4, h5, h6⟩ | ⟨hd, _⟩
    case inr =>
      rw [hd] at hs
      cases hs
    split at hs
    · rename_i hpc
      split at hs
      · cases hs
        rw [hpc] at h3 h4 h5
        exact .inl ⟨.inr ⟨_, rfl⟩, done, todo, h1, h2, h3, h4, by simp [taken], by simp [taken]⟩
      · cases hs
    · rename_i acc hpc
      rw [hpc] at h3 h4 h5 h6
      simp only [taken] at h3 h4 h5 h6
      split at hs
      · rename_i hend
        cases hs
        -- a whole line has been taken
        cases todo with
        | nil =>
          rw [h6 rfl] at hend
          simp [limit] at hend
        | cons l todo =>
          have hfit := hls l (by rw [h1]; simp)
          have hpre := h5 l (by simp)
          have hal : acc = l := by
            obtain ⟨b, hb⟩ := hpre
            by_cases hbn : b = []
            · subst hbn; simpa using hb
            · exfalso
              have hnn := isLine_no_newline hfit.1 hb.symm hbn
              rcases hend with hend | hend
              · have := hfit.2.1
                rw [← hb, List.length_append, hend] at this
                have : b.length = 0 := by unfold limit at this; omega
                exact hbn (List.length_eq_zero_iff.mp this)
              · exact hnn (List.mem_of_getLast? hend)
          subst hal
          have hcs := cString_eq hfit.2.2
          refine .inl ⟨.inl rfl, done ++ [acc], todo, by simp [h1], ?_, ?_, ?_, ?_, ?_⟩
          · simp only [passOn, hcs, isLine_ne_nil hfit.1, if_false, h2]
          · simp only [passOn, taken, List.nil_append, Bool.false_eq_true, if_false]
            simp only [List.flatten_cons, List.append_assoc] at h3
            exact (List.prefix_append_right_inj _).mp h3
          · simp only [passOn, taken, Bool.false_eq_true, if_false, List.append_nil, List.flatten_append, List.flatten_cons, List.flatten_nil, ← h4]
          · simp [passOn, taken]
          · simp [passOn, taken]
      · rename_i hend
        simp only [not_or] at hend
        split at hs
        · rename_i c buf hbuf
          cases hs
          rw [hbuf] at h3 h4
          refine .inl ⟨.inr ⟨_, rfl⟩, done, todo, h1, h2, ?_, ?_, ?_, ?_⟩
          · simp only [taken, List.append_assoc, List.singleton_append, List.cons_append] at h3 ⊢
            exact h3
          · simp only [taken, List.append_assoc, List.singleton_append, List.cons_append] at h4 ⊢
            exact h4
          · intro l hl
            cases todo with
            | nil => cases hl
            | cons l' todo =>
              simp only [List.head?_cons, Option.mem_def, Option.some.injEq] at hl
              subst hl
              have hfit := hls l' (by rw [h1]; simp)
              refine prefix_snoc (h5 l' (by simp)) ?_ (rest := todo.flatten) ?_
              · rintro rfl
                exact hend.2 (isLine_getLast hfit.1)
              · refine List.IsPrefix.trans ?_ (by simpa using h3)
                simp
          · intro hn
            subst hn
            simp at h3
        · rename_i hbuf
          rw [hbuf] at h3 h4
          split at hs
          · split at hs
            · cases hs
              simp only [List.append_nil] at h3 h4
              refine .inl ⟨.inr ⟨_, hpc⟩, done, todo, h1, h2, ?_, ?_, by rw [hpc]; exact h5, by rw [hpc]; exact h6⟩
              · simp only [hpc, taken, List.append_assoc, List.take_append_drop]; exact h3
              · simp only [hpc, taken, List.append_assoc, List.take_append_drop] at h4 ⊢; exact h4
            · cases hs
          · split at hs
            · rename_i hpipe hcl
              cases hs
              have hz : cString acc = acc := by
                apply cString_eq
                cases todo with
                | nil => rw [h6 rfl]; simp
                | cons l todo =>
                  intro hm
                  exact (hls l (by rw [h1]; simp)).2.2 ((h5 l (by simp)).subset hm)
              refine .inr ⟨by simp [passOn], hcl, done, todo, acc, h1, ?_, ?_, hend.2, h5⟩
              · simp only [passOn, hz, h2]
                split <;> simp
              · simp only [ne_eq, Decidable.not_not] at hpipe
                rw [hpipe] at h4
                simpa using h4
            · cases hs
    · cases hs

end Scalopus.LttngStream
