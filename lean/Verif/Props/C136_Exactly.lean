import Verif.Props.C136_LttngProcs
import Mathlib.Data.List.Induction

/-!
# C136: exactly when every process of the user is signalled
-/

namespace Scalopus.C136

open Scalopus.LttngProcs

/-- Tool `i` is there and not started, its pipes can be made, and there is no room for its process. -/
def CannotFork (s : State) (i n : Nat) : Prop := s.tools[i]? = some none ∧ 3 ≤ n ∧ s.limit ≤ s.table.length

theorem run_snoc (s : State) (as : List Act) (a : Act) : run s (as ++ [a]) = step (run s as) a := by simp [run]

theorem getElem?_set_tool (l : List Tool) (i j : Nat) (x y : Tool) (h : (l.set j y)[i]? = some x) : (i = j ∧ x = y) ∨ (i ≠ j ∧ l[i]? = some x) := by
  rw [List.getElem?_set] at h
  split at h
  · rename_i e
    split at h
    · simp only [Option.some.injEq] at h; exact .inl ⟨e.symm, h.symm⟩
    · cases h
  · rename_i e; exact .inr ⟨fun e' => e e'.symm, h⟩

/-- How a tool gets to have no process although it was started. -/
theorem broken_step (s : State) (a : Act) (i : Nat) (h : (step s a).tools[i]? = some (some none)) :
    (s.tools[i]? = some (some none) ∧ a ≠ .halt i) ∨ ∃ pid n, a = .init i pid n ∧ CannotFork s i n := by
  cases a with
  | newTool =>
    left
    refine ⟨?_, by simp⟩
    simp only [step] at h
    by_cases h1 : i < s.tools.length
    · rwa [List.getElem?_append_left h1] at h
    · rw [List.getElem?_append_right (by omega)] at h
      have : [(none : Tool)][i - s.tools.length]? = some (some none) → False := by
        intro e
        have := List.mem_of_getElem? e
        simp at this
      exact absurd h this
  | init j pid n =>
    simp only [step] at h
    split at h
    · rename_i hj
      unfold popen at h
      split at h
      · exact .inl ⟨h, by simp⟩
      · rename_i hn
        split at h
        · rename_i hl
          rcases getElem?_set_tool _ _ _ _ _ h with ⟨rfl, -⟩ | ⟨-, h'⟩
          · exact .inr ⟨pid, n, rfl, hj, by omega, hl⟩
          · exact .inl ⟨h', by simp⟩
        · split at h
          · exact .inl ⟨h, by simp⟩
          · rcases getElem?_set_tool _ _ _ _ _ h with ⟨-, h'⟩ | ⟨-, h'⟩
            · simp at h'
            · exact .inl ⟨h', by simp⟩
    · exact .inl ⟨h, by simp⟩
  | halt j =>
    left
    simp only [step] at h
    split at h
    · rcases getElem?_set_tool _ _ _ _ _ h with ⟨-, h'⟩ | ⟨hne, h'⟩
      · cases h'
      · exact ⟨h', fun e => hne (by simpa using e.symm)⟩
    · rename_i hj
      refine ⟨h, ?_⟩
      intro e
      simp only [Act.halt.injEq] at e
      subst e
      exact hj none h
  | exits pid => exact .inl ⟨h, by simp⟩
  | foreign pid =>
    left
    refine ⟨?_, by simp⟩
    simp only [step] at h
    split at h <;> exact h

/-- It stays so until it is halted. -/
theorem broken_stays (s : State) (a : Act) (i : Nat) (h : s.tools[i]? = some (some none)) (ha : a ≠ .halt i) : (step s a).tools[i]? = some (some none) := by
  have hlt : i < s.tools.length := by rw [List.getElem?_eq_some_iff] at h; exact h.1
  cases a with
  | newTool => simp only [step]; rwa [List.getElem?_append_left hlt]
  | init j pid n =>
    simp only [step]
    split
    · rename_i hj
      have hne : j ≠ i := by rintro rfl; rw [h] at hj; simp at hj
      unfold popen
      repeat' split
      all_goals first | exact h | (simp only; rw [List.getElem?_set, if_neg hne]; exact h)
    · exact h
  | halt j =>
    have hne : j ≠ i := fun e => ha (by rw [e])
    simp only [step]
    split
    · simp only; rw [List.getElem?_set, if_neg hne]; exact h
    · exact h
  | exits pid => exact h
  | foreign pid => simp only [step]; split <;> exact h

theorem signal_step (s : State) (a : Act) : (.everyone ∈ (step s a).signals ↔ .everyone ∈ s.signals ∨ ∃ i, a = .halt i ∧ s.tools[i]? = some (some none)) := by
  cases a with
  | newTool => simp [step]
  | exits pid => simp [step]
  | foreign pid => simp only [step]; split <;> simp
  | init j pid n =>
    simp only [step]
    split
    · unfold popen
      repeat' split
      all_goals simp
    · simp
  | halt j =>
    simp only [step, Act.halt.injEq]
    split
    · rename_i p hj
      simp only [List.mem_append]
      cases p with
      | none => simp [reached, hj]
      | some p =>
        have : Signal.everyone ∉ reached s (some p) := by
          simp only [reached]
          repeat' split
          all_goals simp
        constructor
        · rintro (h | h)
          · exact .inl h
          · exact absurd h this
        · rintro (h | ⟨i, rfl, h⟩)
          · exact .inl h
          · rw [hj] at h; simp at h
    · rename_i hj
      constructor
      · exact .inl
      · rintro (h | ⟨i, rfl, h⟩)
        · exact h
        · exact absurd h (hj none)

/-- A tool is started while there is no room for its process, and later halted. -/
def StartedWithoutRoom (s : State) (as : List Act) : Prop :=
  ∃ p₁ i pid n p₂ p₃, as = p₁ ++ .init i pid n :: (p₂ ++ .halt i :: p₃) ∧ CannotFork (run s p₁) i n ∧ Act.halt i ∉ p₂

theorem broken_run (s : State) (hf : Fresh s) (as : List Act) (i : Nat) :
    (run s as).tools[i]? = some (some none) ↔ ∃ p₁ pid n p₂, as = p₁ ++ .init i pid n :: p₂ ∧ CannotFork (run s p₁) i n ∧ Act.halt i ∉ p₂ := by
  constructor
  · induction as using List.reverseRecOn with
    | nil => intro h; have := hf.2.1; simp [run, this] at h
    | append_singleton as a ih =>
      intro h
      rw [run_snoc] at h
      rcases broken_step _ a i h with ⟨h1, h2⟩ | ⟨pid, n, rfl, hc⟩
      · obtain ⟨p₁, pid, n, p₂, e, hc, hn⟩ := ih h1
        exact ⟨p₁, pid, n, p₂ ++ [a], by rw [e]; simp, hc, by simp [hn, Ne.symm h2]⟩
      · exact ⟨as, pid, n, [], rfl, hc, by simp⟩
  · rintro ⟨p₁, pid, n, p₂, rfl, ⟨h1, h2, h3⟩, hn⟩
    have hlt : i < (run s p₁).tools.length := by rw [List.getElem?_eq_some_iff] at h1; exact h1.1
    have base : (run s (p₁ ++ [.init i pid n])).tools[i]? = some (some none) := by
      rw [run_snoc]
      simp only [step, h1, popen]
      rw [if_neg (by omega), if_pos h3]
      simp [hlt]
    induction p₂ using List.reverseRecOn with
    | nil => exact base
    | append_singleton p₂ a ih =>
      simp only [List.mem_append, List.mem_singleton, not_or] at hn
      have := broken_stays _ a i (ih hn.1) (Ne.symm hn.2)
      rw [← run_snoc] at this
      simpa using this

/-- **C136, exactly.** For every program and every history: every process of the user is signalled if and only if a tool was started while there was no room for its process, and then halted. -/
theorem everyone_iff (s : State) (hf : Fresh s) (as : List Act) : .everyone ∈ (run s as).signals ↔ StartedWithoutRoom s as := by
  induction as using List.reverseRecOn with
  | nil =>
    have := hf.2.2.2.1
    simp only [run, List.foldl_nil, this, List.not_mem_nil, false_iff]
    rintro ⟨p₁, i, pid, n, p₂, p₃, e, -⟩
    simp at e
  | append_singleton as a ih =>
    rw [run_snoc, signal_step, ih]
    constructor
    · rintro (⟨p₁, i, pid, n, p₂, p₃, e, h1, h2⟩ | ⟨i, rfl, h⟩)
      · exact ⟨p₁, i, pid, n, p₂, p₃ ++ [a], by rw [e]; simp, h1, h2⟩
      · obtain ⟨p₁, pid, n, p₂, e, hc, hn⟩ := (broken_run s hf as i).1 h
        exact ⟨p₁, i, pid, n, p₂, [], by rw [e]; simp, hc, hn⟩
    · rintro ⟨p₁, i, pid, n, p₂, p₃, e, h1, h2⟩
      rcases List.eq_nil_or_concat p₃ with rfl | ⟨p', x, rfl⟩
      · have e' : as ++ [a] = (p₁ ++ .init i pid n :: p₂) ++ [.halt i] := by rw [e]; simp
        obtain ⟨e1, e2⟩ := List.append_inj' e' rfl
        simp only [List.cons.injEq, and_true] at e2
        exact .inr ⟨i, e2, (broken_run s hf as i).2 ⟨p₁, pid, n, p₂, e1, h1, h2⟩⟩
      · have e' : as ++ [a] = (p₁ ++ .init i pid n :: (p₂ ++ .halt i :: p')) ++ [x] := by rw [e]; simp
        exact .inl ⟨p₁, i, pid, n, p₂, p', (List.append_inj' e' rfl).1, h1, h2⟩

/-- A system with room for one process, which is taken by another one. -/
example : Fresh { limit := 1, table := [{ pid := 1, owner := none }] } ∧
    StartedWithoutRoom { limit := 1, table := [{ pid := 1, owner := none }] } [.newTool, .newTool, .init 1 7 3, .halt 0, .exits 1, .halt 1] := by
  refine ⟨⟨rfl, rfl, rfl, rfl, by decide, by decide⟩, [.newTool, .newTool], 1, 7, 3, [.halt 0, .exits 1], [], rfl, ⟨rfl, by decide, by decide⟩, by decide⟩

end Scalopus.C136
