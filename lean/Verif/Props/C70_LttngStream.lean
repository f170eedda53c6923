import Verif.Proofs.LttngStream
import Verif.Props.C52_LttngSource

/-!
# C70: every line that babeltrace prints is passed on

`Reachable t s`: babeltrace has printed `t`, in pieces of any size, and the parser has run at any speed and got pieces of any size.
-/

namespace Scalopus.C70

open LttngStream LttngStream.Spec
open Ctf (Text)

/-- **C70, order.** As long as the lines fit the array, what has been passed on are the first of the lines, whole and in order. -/
theorem lines_in_order (ls : List Text) (hls : ∀ l ∈ ls, Fits l) (t : Text) (ht : t <+: ls.flatten) (s : State) (h : Reachable t s) (hd : s.pc ≠ .done) : s.lines <+: ls := by
  rcases inv hls h ht with ⟨_, done, todo, h1, h2, _⟩ | ⟨h1, _⟩
  · rw [h2, h1]; exact List.prefix_append _ _
  · exact absurd h1 hd

/-- **C70, completeness at the end.** When the parser has ended, every line has been passed on. -/
theorem all_passed_at_end (ls : List Text) (hls : ∀ l ∈ ls, Fits l) (s : State) (h : Reachable ls.flatten s) (hd : s.pc = .done) : s.lines = ls := by
  rcases inv hls h (List.prefix_refl _) with ⟨hfin, _⟩ | ⟨_, _, done, todo, acc, h1, h2, h3, h4, h5⟩
  · rcases hfin with hfin | ⟨a, hfin⟩ <;> rw [hd] at hfin <;> cases hfin
  · have hacc : acc = todo.flatten := by
      rw [h1, List.flatten_append] at h3
      exact List.append_cancel_left h3
    cases todo with
    | nil =>
      simp only [List.flatten_nil] at hacc
      subst hacc
      rw [h2, h1]
      simp
    | cons l todo =>
      exfalso
      have hpre := h5 l (by simp)
      have hlen := hpre.length_le
      rw [hacc] at hlen hpre
      simp only [List.flatten_cons, List.length_append] at hlen
      have ht : todo.flatten = [] := List.length_eq_zero_iff.mp (by omega)
      rw [List.flatten_cons, ht, List.append_nil] at hacc
      rw [hacc] at h4
      exact h4 (isLine_getLast (hls l (by rw [h1]; simp)).1)

/-- Every execution of the parser alone comes to its end: it never gets stuck and does not go on for ever. -/
inductive Ends : State → Prop
  | done {s : State} : s.pc = .done → Ends s
  | step {s : State} : (∃ n s', parserStep s n = some s') → (∀ n s', parserStep s n = some s' → Ends s') → Ends s

/-- Decreases with each step of the parser. -/
def weight (s : State) : Nat :=
  4 * s.pipe.length + 3 * s.buf.length + match s.pc with
    | .done => 0
    | .gets [] => 1
    | .poll => 2
    | .gets (_ :: _) => 3

theorem weight_step {s s' : State} {n : Nat} (hc : s.closed = true) (h : parserStep s n = some s') : weight s' < weight s ∧ s'.closed = true := by
  unfold parserStep at h
  split at h
  · rename_i hpc
    split at h
    · cases h
      refine ⟨?_, hc⟩
      simp only [weight, hpc]
      omega
    · cases h
  · rename_i acc hpc
    split at h
    · rename_i hend
      cases h
      refine ⟨?_, hc⟩
      cases acc with
      | nil => simp [limit] at hend
      | cons c acc => simp [weight, hpc, passOn]
    · split at h
      · rename_i c buf hbuf
        cases h
        refine ⟨?_, hc⟩
        have hne : ∃ d e, acc ++ [c] = d :: e := by cases acc <;> exact ⟨_, _, rfl⟩
        obtain ⟨d, e, hde⟩ := hne
        simp only [weight, hpc, hbuf, hde, List.length_cons]
        cases acc <;> simp <;> omega
      · rename_i hbuf
        split at h
        · rename_i hp
          split at h
          · rename_i hn
            cases h
            refine ⟨?_, hc⟩
            have : 0 < s.pipe.length := List.length_pos_of_ne_nil hp
            simp only [weight, hpc, hbuf, List.length_take, List.length_drop, List.length_nil]
            cases acc <;> simp <;> omega
          · cases h
        · cases h
          refine ⟨?_, hc⟩
          simp only [weight, hpc, passOn, if_true]
          cases acc <;> simp
  · cases h

/-- **C70, the end is reached.** Once babeltrace has ended, the parser comes to its end too, whatever the sizes of the pieces it gets. -/
theorem end_reached (s : State) (hc : s.closed = true) : Ends s := by
  induction hw : weight s using Nat.strong_induction_on generalizing s with
  | _ w ih =>
    subst hw
    by_cases hd : s.pc = .done
    · exact .done hd
    · refine .step ?_ ?_
      · unfold parserStep
        cases hpc : s.pc with
        | poll => exact ⟨1, _, by simp [hc]; rfl⟩
        | done => exact absurd hpc hd
        | gets acc =>
          simp only
          by_cases hend : acc.length = limit ∨ acc.getLast? = some '\n'
          · exact ⟨1, _, by rw [if_pos hend]⟩
          · cases hb : s.buf with
            | cons c buf => exact ⟨1, _, by rw [if_neg hend]⟩
            | nil =>
              by_cases hp : s.pipe ≠ []
              · exact ⟨1, _, by rw [if_neg hend]; simp only; rw [if_pos hp, if_pos (by decide)]⟩
              · exact ⟨1, _, by rw [if_neg hend]; simp only; rw [if_neg hp, if_pos hc]⟩
      · intro n s' hs
        obtain ⟨h1, h2⟩ := weight_step hc hs
        exact ih _ h1 s' h2 rfl

/-- **C70** in full: when the parser waits for more output, every line printed has been passed on. -/
def AllPassed : Prop := ∀ (ls : List Text), (∀ l ∈ ls, IsLine l ∧ Char.ofNat 0 ∉ l) → ∀ s, Reachable ls.flatten s → (∀ n, parserStep s n = none) → s.lines = ls

/-- **C70, partial.** When the parser waits for more output, at most the last 4096 bytes of the lines have not been passed on. Missing: these bytes (`not_all_passed`) and lines that do
    not fit the array (`long_line_never_passed`). -/
theorem delay_bounded_partial (ls : List Text) (hls : ∀ l ∈ ls, Fits l) (s : State) (h : Reachable ls.flatten s) (hw : ∀ n, parserStep s n = none) :
    ∃ todo, ls = s.lines ++ todo ∧ todo.flatten.length ≤ 4096 := by
  have hb : s.buf.length ≤ 4096 := by
    clear hw
    generalize ls.flatten = t at h
    induction h with
    | init => simp
    | print _ hs ih =>
      simp only [step] at hs
      split at hs
      · cases hs
      · cases hs; exact ih
    | close _ hs ih => cases hs; exact ih
    | parser _ hs ih =>
      simp only [step, parserStep] at hs
      split at hs
      · split at hs <;> cases hs; exact ih
      · split at hs
        · cases hs; exact ih
        · split at hs
          · rename_i hbuf
            cases hs
            rw [hbuf] at ih
            simp only [List.length_cons] at ih
            simp only
            omega
          · split at hs
            · split at hs
              · rename_i hn
                cases hs
                have := hn.2
                simp only [List.length_take, bufSize] at this ⊢
                omega
              · cases hs
            · split at hs
              · cases hs; exact ih
              · cases hs
      · cases hs
  rcases inv hls h (List.prefix_refl _) with ⟨hfin, done, todo, h1, h2, h3, h4, h5, h6⟩ | ⟨hd, _⟩
  · refine ⟨todo, by rw [h2]; exact h1, ?_⟩
    have hflat : taken s.pc ++ s.buf ++ s.pipe = todo.flatten := by
      rw [h1, List.flatten_append] at h4
      simp only [List.append_assoc, List.append_cancel_left_eq] at h4
      simpa using h4
    have hw1 := hw 1
    unfold parserStep at hw1
    rcases hfin with hpc | ⟨acc, hpc⟩
    · rw [hpc] at hw1 hflat
      simp only at hw1
      split at hw1
      · cases hw1
      · rename_i hr
        simp only [not_or, ne_eq, Decidable.not_not] at hr
        rw [← hflat, hr.1]
        simpa [taken] using hb
    · rw [hpc] at hw1 hflat
      simp only [taken] at hw1 hflat
      split at hw1
      · cases hw1
      · rename_i hend
        split at hw1
        · cases hw1
        · rename_i hbuf
          split at hw1
          · rw [if_pos (by decide)] at hw1; cases hw1
          · rename_i hp
            simp only [ne_eq, Decidable.not_not] at hp
            rw [← hflat, hbuf, hp]
            -- in fact the present line is not complete, so it is empty
            have : acc.length ≤ 1023 := by
              cases todo with
              | nil =>
                rw [hbuf, hp] at hflat
                simp only [List.append_nil, List.flatten_nil] at hflat
                simp [hflat]
              | cons l todo =>
                rw [hpc] at h5
                exact (h5 l (by simp)).length_le.trans (hls l (by rw [h1]; simp)).2.1
            simp
            omega
  · obtain ⟨done, todo, acc, h1, h2⟩ := ‹_ ∧ _›.2
    have := all_passed_at_end ls hls s h hd
    exact ⟨[], by simp [this], by simp⟩

/-- No array longer than 1023 characters is ever passed on: a longer line is not. -/
theorem long_line_never_passed (t : Text) (s : State) (h : Reachable t s) (l : Text) (hl : 1023 < l.length) : l ∉ s.lines := by
  have key : (∀ x ∈ s.lines, x.length ≤ 1023) ∧ ∀ acc, s.pc = .gets acc → acc.length ≤ 1023 := by
    have pass : ∀ (s : State) (acc : Text) (b : Bool), acc.length ≤ 1023 → (∀ x ∈ s.lines, x.length ≤ 1023) → ∀ x ∈ (passOn s acc b).lines, x.length ≤ 1023 := by
      intro s acc b ha hs x hx
      simp only [passOn] at hx
      split at hx
      · exact hs x hx
      · rcases List.mem_append.mp hx with hx | hx
        · exact hs x hx
        · rw [List.mem_singleton.mp hx]
          exact (List.takeWhile_prefix _).length_le.trans ha
    induction h with
    | init => simp
    | print _ hs ih =>
      simp only [step] at hs
      split at hs
      · cases hs
      · cases hs; exact ih
    | close _ hs ih => cases hs; exact ih
    | parser _ hs ih =>
      simp only [step, parserStep] at hs
      split at hs
      · split at hs <;> cases hs
        exact ⟨ih.1, fun acc ha => by cases ha; simp⟩
      · rename_i acc hpc
        have hacc := ih.2 acc hpc
        split at hs
        · cases hs
          exact ⟨pass _ _ _ hacc ih.1, fun a ha => by cases ha⟩
        · rename_i hend
          simp only [not_or, limit] at hend
          split at hs
          · cases hs
            exact ⟨ih.1, fun a ha => by cases ha; simp; omega⟩
          · split at hs
            · split at hs
              · cases hs; exact ih
              · cases hs
            · split at hs
              · cases hs
                exact ⟨pass _ _ _ hacc ih.1, fun a ha => by cases ha⟩
              · cases hs
      · cases hs
  intro hm
  have := key.1 l hm
  omega

/-- `fgets` taking characters from the buffer. -/
theorem gets_run (t : Text) (s : State) (acc w rest : Text) (h : Reachable t { s with pc := .gets acc, buf := w ++ rest }) (hw : '\n' ∉ acc ++ w) (hl : (acc ++ w).length ≤ 1023) :
    Reachable t { s with pc := .gets (acc ++ w), buf := rest } := by
  induction w generalizing acc with
  | nil => simpa using h
  | cons c w ih =>
    have h' : Reachable t { s with pc := .gets (acc ++ [c]), buf := w ++ rest } := by
      refine .parser (n := 1) h ?_
      simp only [step, parserStep]
      rw [if_neg]
      · rfl
      · rintro (h1 | h1)
        · simp [limit] at h1 hl
          omega
        · exact hw (List.mem_append_left _ (List.mem_of_getLast? h1))
    have := ih (acc ++ [c]) h' (by simpa using hw) (by simpa using hl)
    simpa using this

/-- A line that does not fit is passed on in two pieces, as if it were two lines. -/
theorem long_line_split (body : Text) (hn : '\n' ∉ body) (hz : Char.ofNat 0 ∉ body) (h1 : 1023 < body.length) (h2 : body.length ≤ 2045) :
    ∃ s, Reachable (body ++ ['\n']) s ∧ s.lines = [body.take 1023, body.drop 1023 ++ ['\n']] := by
  have hlen : (body.take 1023).length = 1023 := by simp; omega
  have r1 : Reachable ([] ++ (body ++ ['\n'])) { pipe := body ++ ['\n'] } := .print .init rfl
  rw [List.nil_append] at r1
  have r2 : Reachable (body ++ ['\n']) { pipe := body ++ ['\n'], closed := true } := .close r1 rfl
  have r3 : Reachable (body ++ ['\n']) { pipe := body ++ ['\n'], closed := true, pc := .gets [] } := .parser (n := 4096) r2 (by simp [step, parserStep])
  have r4 : Reachable (body ++ ['\n']) { closed := true, pc := .gets [], buf := body.take 1023 ++ (body.drop 1023 ++ ['\n']) } := by
    refine .parser (n := 4096) r3 ?_
    simp only [step, parserStep]
    rw [if_neg (by simp [limit]), if_pos (by simp), if_pos (by decide), List.take_of_length_le (by simp; omega), List.drop_eq_nil_of_le (by simp; omega), ← List.append_assoc, List.take_append_drop]
  have r5 := gets_run _ { closed := true } [] (body.take 1023) (body.drop 1023 ++ ['\n']) r4 (by simpa using fun h => hn (List.mem_of_mem_take h)) (by rw [List.nil_append, hlen])
  rw [List.nil_append] at r5
  have r6 : Reachable (body ++ ['\n']) { closed := true, buf := body.drop 1023 ++ ['\n'], lines := [body.take 1023] } := by
    refine .parser (n := 1) r5 ?_
    simp only [step, parserStep]
    rw [if_pos (.inl hlen)]
    simp only [passOn, cString_eq (fun h => hz (List.mem_of_mem_take h)), Bool.false_eq_true, if_false]
    rw [if_neg (by intro h; rw [h] at hlen; simp at hlen)]
    rfl
  have r7 : Reachable (body ++ ['\n']) { closed := true, pc := .gets [], buf := body.drop 1023 ++ ['\n'], lines := [body.take 1023] } :=
    .parser (n := 1) r6 (by simp [step, parserStep])
  have r8 := gets_run _ { closed := true, lines := [body.take 1023] } [] (body.drop 1023) ['\n'] r7 (by simpa using fun h => hn (List.mem_of_mem_drop h)) (by simp; omega)
  rw [List.nil_append] at r8
  have r9 : Reachable (body ++ ['\n']) { closed := true, pc := .gets (body.drop 1023 ++ ['\n']), lines := [body.take 1023] } := by
    refine .parser (n := 1) r8 ?_
    simp only [step, parserStep]
    rw [if_neg]
    rintro (h | h)
    · simp [limit] at h; omega
    · exact hn (List.mem_of_mem_drop (List.mem_of_getLast? h))
  refine ⟨{ closed := true, lines := [body.take 1023, body.drop 1023 ++ ['\n']] }, .parser (n := 1) r9 ?_, rfl⟩
  simp only [step, parserStep]
  rw [if_pos (.inr (by simp))]
  have hz' : Char.ofNat 0 ∉ body.drop 1023 ++ ['\n'] := by
    simp only [List.mem_append, List.mem_singleton, not_or]
    exact ⟨fun h => hz (List.mem_of_mem_drop h), by decide⟩
  simp [passOn, cString_eq hz']

/-- The second piece is taken for an event without a time: with it the conversion of the interval, however short, is undefined. -/
theorem long_line_spoils_interval (keyFirst : Bool) (body : Text) (hb : '[' ∉ body.drop 1023) (names : Endpoints.TraceMap) (rest : List Ctf.Event) :
    ∃ e, Ctf.parse keyFirst (body.drop 1023 ++ ['\n']) = .ok e ∧ LttngSource.convertAll names [] (e :: rest) = .ub :=
  C68.line_without_time_undefined keyFirst _ (by simpa using hb) (by simp) names [] rest

def sampleLines : List Text := ["a\n".toList, "b\n".toList]

theorem sample_fits : ∀ l ∈ sampleLines, Fits l := by
  intro l hl
  simp only [sampleLines, List.mem_cons, List.not_mem_nil, or_false] at hl
  rcases hl with rfl | rfl
  · exact ⟨⟨['a'], rfl, by decide⟩, by decide, by decide⟩
  · exact ⟨⟨['b'], rfl, by decide⟩, by decide, by decide⟩

/-- Two lines were printed at once: after the first, the parser waits although the second is in its buffer. -/
theorem sample_stuck : Reachable sampleLines.flatten { buf := "b\n".toList, lines := ["a\n".toList] } := by
  have r1 : Reachable sampleLines.flatten { pipe := "a\nb\n".toList } := .print (t := []) (t' := "a\nb\n".toList) .init rfl
  have r2 : Reachable sampleLines.flatten { pipe := "a\nb\n".toList, pc := .gets [] } := .parser (n := 1) r1 rfl
  have r3 : Reachable sampleLines.flatten { buf := "a\nb\n".toList, pc := .gets [] } := .parser (n := 4096) r2 rfl
  have r4 : Reachable sampleLines.flatten { buf := "\nb\n".toList, pc := .gets "a".toList } := .parser (n := 1) r3 rfl
  have r5 : Reachable sampleLines.flatten { buf := "b\n".toList, pc := .gets "a\n".toList } := .parser (n := 1) r4 rfl
  exact .parser (n := 1) r5 rfl

/-- **C70 fails:** a line that babeltrace printed together with the one before waits in the parser's buffer until more is printed. -/
theorem not_all_passed : ¬ AllPassed := by
  intro h
  have := h sampleLines (fun l hl => ⟨(sample_fits l hl).1, (sample_fits l hl).2.2⟩) _ sample_stuck (fun n => rfl)
  exact absurd this (by decide)

/-- The hypotheses of the theorems above are met. -/
example : ∃ todo, sampleLines = ["a\n".toList] ++ todo ∧ todo.flatten.length ≤ 4096 := delay_bounded_partial sampleLines sample_fits _ sample_stuck (fun _ => rfl)

example : ∃ s, Reachable sampleLines.flatten s ∧ s.pc = .done := by
  have r1 : Reachable sampleLines.flatten { buf := "b\n".toList, lines := ["a\n".toList], closed := true } := .close sample_stuck rfl
  have r2 : Reachable sampleLines.flatten { buf := "b\n".toList, lines := ["a\n".toList], closed := true, pc := .gets [] } := .parser (n := 1) r1 rfl
  have r3 : Reachable sampleLines.flatten { buf := "\n".toList, lines := ["a\n".toList], closed := true, pc := .gets "b".toList } := .parser (n := 1) r2 rfl
  have r4 : Reachable sampleLines.flatten { lines := ["a\n".toList], closed := true, pc := .gets "b\n".toList } := .parser (n := 1) r3 rfl
  have r5 : Reachable sampleLines.flatten { lines := ["a\n".toList, "b\n".toList], closed := true } := .parser (n := 1) r4 rfl
  have r6 : Reachable sampleLines.flatten { lines := ["a\n".toList, "b\n".toList], closed := true, pc := .gets [] } := .parser (n := 1) r5 rfl
  exact ⟨_, .parser (n := 1) r6 rfl, rfl⟩

end Scalopus.C70
