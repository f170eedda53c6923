import Verif.Props.C149_PyExamples

/-!
# C149: exactly which intervals the sections of the source stay within
-/

namespace Scalopus.C149

open PyExamples PyMarks

/-- **C149, source, exactly.** For every interval: no event of the source is later than its end if and only if the interval is empty or has a whole number of seconds. -/
theorem within_iff (start stop : Nat) : (∀ e ∈ source start stop start, e.ts ≤ stop) ↔ stop ≤ start ∨ ∃ n, stop = start + n * second := by
  have hs : 0 < second := by decide
  constructor
  · intro h
    by_cases hlt : start < stop
    · right
      obtain ⟨e, he, -, -, -, h4⟩ := source_past_end start stop hlt
      have hm : (stop - start) % second = 0 := by
        by_cases hm : (stop - start) % second = 0
        · exact hm
        · have := h e he; have := h4 hm; omega
      refine ⟨(stop - start) / second, ?_⟩
      have := Nat.div_add_mod (stop - start) second
      rw [Nat.mul_comm]
      omega
    · exact .inl (by omega)
  · intro h e he
    rw [source_exact] at he
    simp only [expected, List.mem_flatMap, List.mem_range] at he
    obtain ⟨i, hi, he⟩ := he
    rcases h with h | ⟨n, rfl⟩
    · have : begun start stop = 0 := by
        unfold begun
        rw [show stop - start = 0 by omega]
        exact Nat.div_eq_of_lt (by omega)
      omega
    · have hb : begun start (start + n * second) = n := by
        unfold begun
        rw [show start + n * second - start + second - 1 = (second - 1) + n * second by omega, Nat.add_mul_div_right _ _ hs, Nat.div_eq_of_lt (by omega)]
        omega
      rw [hb] at hi
      have h1 : (i + 1) * second ≤ n * second := Nat.mul_le_mul_right _ hi
      have h2 : i * second ≤ n * second := Nat.mul_le_mul_right _ (by omega)
      simp only [List.mem_cons, List.not_mem_nil, or_false] at he
      rcases he with rfl | rfl <;> simp only <;> omega

/-- Three whole seconds are within; half a second more is not. -/
example : (∀ e ∈ source 10 (10 + 3 * second) 10, e.ts ≤ 10 + 3 * second) ∧ ¬ ∀ e ∈ source 10 (10 + 3 * second + second / 2) 10, e.ts ≤ 10 + 3 * second + second / 2 := by
  refine ⟨(within_iff _ _).2 (.inr ⟨3, rfl⟩), fun h => ?_⟩
  rcases (within_iff _ _).1 h with h | ⟨n, h⟩ <;> simp only [second] at h <;> omega

end Scalopus.C149
