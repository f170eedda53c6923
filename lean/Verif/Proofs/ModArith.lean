/-!
# Arithmetic modulo the buffer size
-/

namespace Scalopus

theorem add_mod_eq {r i n : Nat} (hr : r < n) (hi : i ≤ n) :
    (r + i) % n = if r + i < n then r + i else r + i - n := by
  by_cases h : r + i < n
  · simp [h, Nat.mod_eq_of_lt h]
  · have h1 : r + i - n < n := by omega
    have h2 : r + i = (r + i - n) + n := by omega
    rw [if_neg h]
    conv => lhs; rw [h2]
    rw [Nat.add_mod_right, Nat.mod_eq_of_lt h1]

theorem add_mod_inj {r i j n : Nat} (hr : r < n) (hi : i < n) (hj : j < n)
    (h : (r + i) % n = (r + j) % n) : i = j := by
  rw [add_mod_eq hr (by omega), add_mod_eq hr (by omega)] at h
  split at h <;> split at h <;> omega

/-- Two counters less than `n` apart with equal residues are equal. -/
theorem mod_inj_of_lt {a b n : Nat} (hab : a ≤ b) (hlt : b - a < n) (h : a % n = b % n) : a = b := by
  have hn : 0 < n := by omega
  have hb : b = a + (b - a) := by omega
  have hr := Nat.mod_lt a hn
  have h2 : b % n = (a % n + (b - a)) % n := by
    conv => lhs; rw [hb]
    simp [Nat.add_mod]
  have h3 : (a % n + 0) % n = (a % n + (b - a)) % n := by
    rw [← h2, ← h]; simp
  have := add_mod_inj hr (by omega : 0 < n) hlt h3
  omega

end Scalopus
