import Verif.Model.Double
import Mathlib.Tactic.Linarith
import Mathlib.Tactic.FieldSimp
import Mathlib.Tactic.Positivity
import Mathlib.Tactic.NormNum
import Mathlib.Tactic.Ring

/-!
# C64: timestamps
-/

namespace Scalopus.Double

theorem roundEven_int (n : ℤ) : roundEven (n : ℚ) = n := by
  simp [roundEven]

theorem roundEven_ge (x : ℚ) : ⌊x⌋ ≤ roundEven x := by
  unfold roundEven
  simp only
  repeat' split
  all_goals omega

theorem roundEven_le (x : ℚ) : roundEven x ≤ ⌊x⌋ + 1 := by
  unfold roundEven
  simp only
  repeat' split
  all_goals omega

theorem roundEven_mono {x y : ℚ} (h : x ≤ y) : roundEven x ≤ roundEven y := by
  rcases lt_or_eq_of_le (Int.floor_le_floor h) with hl | he
  · calc roundEven x ≤ ⌊x⌋ + 1 := roundEven_le x
      _ ≤ ⌊y⌋ := by omega
      _ ≤ roundEven y := roundEven_ge y
  · unfold roundEven
    simp only [he]
    have hd : x - ⌊y⌋ ≤ y - ⌊y⌋ := by linarith
    split
    · split
      · exact le_refl _
      · split
        · omega
        · split <;> omega
    · rename_i h1
      have h1' : ¬ (y - ⌊y⌋ < 1 / 2) := by linarith
      rw [if_neg h1']
      split
      · rename_i h2
        have h2' : 1 / 2 < y - ⌊y⌋ := by linarith
        rw [if_pos h2']
      · split
        · split
          · omega
          · exact le_refl _
        · split <;> exact le_refl _

theorem roundEven_near (x : ℚ) : |(roundEven x : ℚ) - x| ≤ 1 / 2 := by
  have h1 := Int.floor_le x
  have h2 := Int.lt_floor_add_one x
  rw [abs_le]
  unfold roundEven
  simp only
  split
  · constructor <;> linarith
  · split
    · push_cast
      constructor <;> linarith
    · split
      · constructor <;> linarith
      · push_cast
        constructor <;> linarith

theorem nearest_zero : nearest 0 = 0 := by
  simp [nearest, roundEven]

theorem ulp_pos (x : ℚ) : (0 : ℚ) < 2 ^ (Int.log 2 x - 52) := zpow_pos (by norm_num) _

/-- A positive number is scaled to between 2^52 and 2^53. -/
theorem scaled {x : ℚ} (h : 0 < x) : (2 : ℚ) ^ 52 ≤ x / 2 ^ (Int.log 2 x - 52) ∧ x / 2 ^ (Int.log 2 x - 52) < 2 ^ 53 := by
  have h1 : ((2 : ℕ) : ℚ) ^ Int.log 2 x ≤ x := Int.zpow_log_le_self (by decide) h
  have h2 : x < ((2 : ℕ) : ℚ) ^ (Int.log 2 x + 1) := Int.lt_zpow_succ_log_self (by decide) x
  have hu := ulp_pos x
  push_cast at h1 h2
  constructor
  · rw [le_div_iff₀ hu]
    calc (2 : ℚ) ^ 52 * 2 ^ (Int.log 2 x - 52) = 2 ^ Int.log 2 x := by
          rw [zpow_sub₀ (by norm_num)]
          norm_num
          field_simp
      _ ≤ x := h1
  · rw [div_lt_iff₀ hu]
    calc x < 2 ^ (Int.log 2 x + 1) := h2
      _ = 2 ^ 53 * 2 ^ (Int.log 2 x - 52) := by
          rw [zpow_sub₀ (by norm_num), zpow_add₀ (by norm_num)]
          norm_num
          field_simp
          norm_num

theorem nearest_bounds {x : ℚ} (h : 0 < x) : (2 : ℚ) ^ Int.log 2 x ≤ nearest x ∧ nearest x ≤ 2 ^ (Int.log 2 x + 1) := by
  obtain ⟨h1, h2⟩ := scaled h
  have hu := ulp_pos x
  have e1 : (2 : ℚ) ^ Int.log 2 x = 2 ^ 52 * 2 ^ (Int.log 2 x - 52) := by
    rw [zpow_sub₀ (by norm_num)]
    norm_num
    field_simp
  have e2 : (2 : ℚ) ^ (Int.log 2 x + 1) = 2 ^ 53 * 2 ^ (Int.log 2 x - 52) := by
    rw [zpow_sub₀ (by norm_num), zpow_add₀ (by norm_num)]
    norm_num
    field_simp
    norm_num
  have m1 : roundEven ((2 ^ 52 : ℤ) : ℚ) ≤ roundEven (x / 2 ^ (Int.log 2 x - 52)) := roundEven_mono (by push_cast; exact h1)
  have m2 : roundEven (x / 2 ^ (Int.log 2 x - 52)) ≤ roundEven ((2 ^ 53 : ℤ) : ℚ) := roundEven_mono (by push_cast; exact h2.le)
  rw [roundEven_int] at m1 m2
  rw [e1, e2]
  unfold nearest
  simp only
  constructor
  · apply mul_le_mul_of_nonneg_right _ hu.le
    exact_mod_cast m1
  · apply mul_le_mul_of_nonneg_right _ hu.le
    exact_mod_cast m2

theorem nearest_nonneg {x : ℚ} (h : 0 ≤ x) : 0 ≤ nearest x := by
  rcases eq_or_lt_of_le h with rfl | h
  · rw [nearest_zero]
  · exact le_trans (zpow_pos (by norm_num) _).le (nearest_bounds h).1

theorem nearest_pos {x : ℚ} (h : 0 < x) : 0 < nearest x := lt_of_lt_of_le (zpow_pos (by norm_num) _) (nearest_bounds h).1

theorem nearest_mono {x y : ℚ} (hx : 0 ≤ x) (h : x ≤ y) : nearest x ≤ nearest y := by
  rcases eq_or_lt_of_le hx with rfl | hx
  · rw [nearest_zero]
    exact nearest_nonneg h
  · have hy : 0 < y := lt_of_lt_of_le hx h
    rcases lt_or_eq_of_le (Int.log_mono_right (b := 2) hx h) with hl | he
    · calc nearest x ≤ 2 ^ (Int.log 2 x + 1) := (nearest_bounds hx).2
        _ ≤ 2 ^ Int.log 2 y := zpow_le_zpow_right₀ (by norm_num) (by omega)
        _ ≤ nearest y := (nearest_bounds hy).1
    · unfold nearest
      simp only [he]
      have hu := ulp_pos y
      apply mul_le_mul_of_nonneg_right _ hu.le
      have : roundEven (x / 2 ^ (Int.log 2 y - 52)) ≤ roundEven (y / 2 ^ (Int.log 2 y - 52)) :=
        roundEven_mono (div_le_div_of_nonneg_right h hu.le)
      exact_mod_cast this

theorem nearest_near {x : ℚ} (h : 0 ≤ x) : |nearest x - x| ≤ x / 2 ^ 53 := by
  rcases eq_or_lt_of_le h with rfl | h
  · simp [nearest_zero]
  · obtain ⟨h1, _⟩ := scaled h
    have hu := ulp_pos x
    have hn := roundEven_near (x / 2 ^ (Int.log 2 x - 52))
    unfold nearest
    simp only
    generalize hg : (2 : ℚ) ^ (Int.log 2 x - 52) = u at *
    have hx : x = x / u * u := by field_simp
    rw [le_div_iff₀ hu] at h1
    calc |(roundEven (x / u) : ℚ) * u - x| = |((roundEven (x / u) : ℚ) - x / u) * u| := by
          congr 1
          rw [sub_mul, ← hx]
      _ = |(roundEven (x / u) : ℚ) - x / u| * u := by rw [abs_mul, abs_of_pos hu]
      _ ≤ 1 / 2 * u := mul_le_mul_of_nonneg_right hn hu.le
      _ ≤ x / 2 ^ 53 := by
          rw [le_div_iff₀ (by positivity)]
          calc 1 / 2 * u * 2 ^ 53 = 2 ^ 52 * u := by ring
            _ ≤ x := h1

/-- A positive integer below 2^53 is a double. -/
theorem nearest_exact (n : ℕ) (h : n < 2 ^ 53) : nearest (n : ℚ) = n := by
  rcases Nat.eq_zero_or_pos n with rfl | hn
  · simpa using nearest_zero
  · have hq : (0 : ℚ) < n := by exact_mod_cast hn
    have hlog : Int.log 2 (n : ℚ) ≤ 52 := by
      rw [Int.log_natCast]
      have := Nat.log_lt_of_lt_pow (b := 2) (x := 53) (y := n) (by omega) h
      omega
    obtain ⟨k, hk⟩ : ∃ k : ℕ, Int.log 2 (n : ℚ) - 52 = -(k : ℤ) := ⟨(52 - Int.log 2 (n : ℚ)).toNat, by omega⟩
    unfold nearest
    simp only [hk, zpow_neg, zpow_natCast, div_inv_eq_mul]
    have : (n : ℚ) * 2 ^ k = (((n : ℤ) * 2 ^ k : ℤ) : ℚ) := by push_cast; rfl
    rw [this, roundEven_int]
    push_cast
    field_simp

end Scalopus.Double

namespace Scalopus.C64

open Double

/-- **C64, order.** Reported timestamps never reverse the order of the recorded times. -/
theorem timestamps_monotone (a b : ℕ) (h : a ≤ b) : ts a ≤ ts b := by
  unfold ts
  have ha : (0 : ℚ) ≤ a := by positivity
  have h1 : nearest (a : ℚ) ≤ nearest (b : ℚ) := nearest_mono ha (by exact_mod_cast h)
  apply nearest_mono
  · have := nearest_nonneg ha
    positivity
  · linarith

/-- **C64, accuracy.** The reported timestamp differs from the recorded time, in microseconds, by less than one part in 2^51. -/
theorem timestamps_accurate (ns : ℕ) : |ts ns - ns / 1000| ≤ (ns : ℚ) / 1000 / 2 ^ 51 := by
  unfold ts
  have h0 : (0 : ℚ) ≤ ns := by positivity
  have h1 := nearest_near h0
  have h2 : (0 : ℚ) ≤ nearest ns / 1000 := by have := nearest_nonneg h0; positivity
  have h3 := nearest_near h2
  rw [abs_le] at h1 h3 ⊢
  obtain ⟨a1, a2⟩ := h1
  obtain ⟨b1, b2⟩ := h3
  generalize nearest (nearest (ns : ℚ) / 1000) = r at *
  generalize nearest (ns : ℚ) = q at *
  generalize (ns : ℚ) = n at *
  constructor <;> linarith

/-- **C64, sources whose clock counts from the start of the machine.** Below 2^53 ns (104 days) the only rounding is that of the division. -/
theorem timestamps_below (ns : ℕ) (h : ns < 2 ^ 53) : ts ns = nearest ((ns : ℚ) / 1000) := by
  unfold ts
  rw [nearest_exact ns h]

/-- The full wish: different times have different timestamps. -/
def TimestampsDistinct : Prop := ∀ a b : ℕ, a < 2 ^ 64 → b < 2 ^ 64 → a ≠ b → ts a ≠ ts b

theorem log_2_60 (n : ℕ) (h1 : 2 ^ 60 ≤ n) (h2 : n < 2 ^ 61) : Int.log 2 (n : ℚ) = 60 := by
  rw [Int.log_natCast]
  have : Nat.log 2 n = 60 := (Nat.log_eq_iff (.inl (by decide))).mpr ⟨h1, h2⟩
  rw [this]
  rfl

/-- **C64 is violated** for distinctness: with a clock that counts from 1970, two events 100 ns apart have the same timestamp. -/
theorem timestamps_collide : ts 1600000000000000000 = ts 1600000000000000100 := by
  have e : nearest ((1600000000000000000 : ℕ) : ℚ) = nearest ((1600000000000000100 : ℕ) : ℚ) := by
    unfold nearest
    rw [log_2_60 _ (by norm_num) (by norm_num), log_2_60 _ (by norm_num) (by norm_num)]
    have f1 : ⌊((1600000000000000000 : ℕ) : ℚ) / 2 ^ ((60 : ℤ) - 52)⌋ = 6250000000000000 := by
      rw [Int.floor_eq_iff]; norm_num
    have f2 : ⌊((1600000000000000100 : ℕ) : ℚ) / 2 ^ ((60 : ℤ) - 52)⌋ = 6250000000000000 := by
      rw [Int.floor_eq_iff]; norm_num
    unfold roundEven
    simp only [f1, f2]
    norm_num
  unfold ts
  rw [e]

theorem not_distinct : ¬ TimestampsDistinct := fun h =>
  h 1600000000000000000 1600000000000000100 (by norm_num) (by norm_num) (by norm_num) timestamps_collide

/-- **C64, partial.** Times that differ by more than one part in 2^50 (1.5 microseconds, fifty years after the epoch of the clock) have timestamps in the same strict order.
    Missing: closer ones. -/
theorem timestamps_distinct_partial (a b : ℕ) (h : (a : ℚ) + b / 2 ^ 50 < b) : ts a < ts b := by
  have h1 := (abs_le.mp (timestamps_accurate a)).2
  have h2 := (abs_le.mp (timestamps_accurate b)).1
  have ha : (0 : ℚ) ≤ a := by positivity
  have hb : (0 : ℚ) ≤ b := by positivity
  linarith

example : ts 1600000000000000000 < ts 1600000000000002000 := timestamps_distinct_partial _ _ (by norm_num)

end Scalopus.C64
