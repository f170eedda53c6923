import Verif.Model.Crc
import Verif.Spec.Crc

/-!
# The table-driven checksum computes CRC-32
-/

namespace Scalopus.Crc

open Spec (shift)

/-- Shift out eight bits. -/
def shift8 (r : BitVec 32) : BitVec 32 := shift (shift (shift (shift (shift (shift (shift (shift r)))))))

theorem shift_xor (x y : BitVec 32) : shift (x ^^^ y) = shift x ^^^ shift y := by
  unfold shift
  rw [BitVec.getLsbD_xor]
  cases hx : x.getLsbD 0 <;> cases hy : y.getLsbD 0 <;>
    simp [BitVec.ushiftRight_xor_distrib]
  · rw [BitVec.xor_assoc]
  · rw [BitVec.xor_assoc, BitVec.xor_assoc, BitVec.xor_comm (3988292384#32)]
  · rw [BitVec.xor_assoc, BitVec.xor_comm (3988292384#32), BitVec.xor_assoc, BitVec.xor_self]; simp

theorem shift8_xor (x y : BitVec 32) : shift8 (x ^^^ y) = shift8 x ^^^ shift8 y := by
  simp only [shift8, shift_xor]

/-- A register whose low end is zero is only shifted. -/
theorem shift_shl (x : BitVec 32) (k : Nat) (h : ∀ i, 24 ≤ i → x.getLsbD i = false) (hk : k < 8) : shift (x <<< (k + 1)) = x <<< k := by
  unfold shift
  rw [if_neg (by simp)]
  apply BitVec.eq_of_getLsbD_eq
  intro i hi
  simp only [BitVec.getLsbD_ushiftRight, BitVec.getLsbD_shiftLeft]
  by_cases h1 : i < k
  · have h2 : 1 + i < k + 1 := by omega
    simp [h1, h2]
  · have h2 : ¬ (1 + i < k + 1) := by omega
    have e : 1 + i - (k + 1) = i - k := by omega
    rw [e]
    by_cases h3 : 1 + i < 32
    · simp [h1, h2, h3, hi]
    · have h4 : x.getLsbD (i - k) = false := h _ (by omega)
      simp [h4]

theorem shift8_shl (x : BitVec 32) (h : ∀ i, 24 ≤ i → x.getLsbD i = false) : shift8 (x <<< 8) = x := by
  unfold shift8
  rw [shift_shl x 7 h (by omega), shift_shl x 6 h (by omega), shift_shl x 5 h (by omega), shift_shl x 4 h (by omega),
    shift_shl x 3 h (by omega), shift_shl x 2 h (by omega), shift_shl x 1 h (by omega), shift_shl x 0 h (by omega)]
  simp

/-- All 256 entries of the table. -/
theorem table_ok : ∀ i : Fin 256, table[i.val]? = some (shift8 (BitVec.ofNat 32 i.val)) := by decide +kernel

theorem low_lt (x : BitVec 32) : (x &&& 0xFF).toNat < 256 := by
  have : (x &&& 0xFF#32).toNat = x.toNat % 256 := by
    rw [BitVec.toNat_and]
    exact Nat.and_two_pow_sub_one_eq_mod x.toNat 8
  show (x &&& 0xFF#32).toNat < 256
  omega

theorem idx_eq (r : BitVec 32) (b : UInt8) :
    b.toBitVec.setWidth 32 ^^^ (r &&& 0xFF) = (r ^^^ b.toBitVec.setWidth 32) &&& 0xFF := by
  apply BitVec.eq_of_getLsbD_eq
  intro i hi
  simp only [BitVec.getLsbD_xor, BitVec.getLsbD_and, BitVec.getLsbD_setWidth]
  by_cases h8 : i < 8
  · have hFF : (0xFF : BitVec 32).getLsbD i = true := by
      have : ∀ i : Fin 8, (0xFF : BitVec 32).getLsbD i.val = true := by decide
      exact this ⟨i, h8⟩
    simp only [hFF]
    cases r.getLsbD i <;> simp
  · have : b.toBitVec.getLsbD i = false := BitVec.getLsbD_of_ge _ _ (by omega)
    simp [this]

theorem split_low (x : BitVec 32) : x = (x &&& 0xFF#32) ^^^ ((x >>> 8) <<< 8) := by
  apply BitVec.eq_of_getLsbD_eq
  intro i hi
  have hFF : (0xFF#32).getLsbD i = decide (i < 8) := by
    have : ∀ i : Fin 32, (0xFF#32).getLsbD i.val = decide (i.val < 8) := by decide
    exact this ⟨i, hi⟩
  simp only [BitVec.getLsbD_xor, BitVec.getLsbD_and, BitVec.getLsbD_shiftLeft, BitVec.getLsbD_ushiftRight, hFF]
  by_cases h8 : i < 8
  · simp only [h8]; simp
  · have e : 8 + (i - 8) = i := by omega
    simp only [h8, hi, e]; simp

theorem shr8_high (x : BitVec 32) (i : Nat) (h : 24 ≤ i) : (x >>> 8).getLsbD i = false := by
  rw [BitVec.getLsbD_ushiftRight]
  exact BitVec.getLsbD_of_ge _ _ (by omega)

theorem round_eq (r : BitVec 32) (b : UInt8) : round r b = some (Spec.byte r b) := by
  unfold round
  rw [idx_eq]
  have hlt := low_lt (r ^^^ b.toBitVec.setWidth 32)
  have ht := table_ok ⟨_, hlt⟩
  simp only at ht
  rw [ht]
  simp only [Option.map_some, Option.some.injEq]
  have hb : (r ^^^ b.toBitVec.setWidth 32) >>> 8 = r >>> 8 := by
    apply BitVec.eq_of_getLsbD_eq
    intro i hi
    simp only [BitVec.getLsbD_ushiftRight, BitVec.getLsbD_xor, BitVec.getLsbD_setWidth]
    have : b.toBitVec.getLsbD (8 + i) = false := BitVec.getLsbD_of_ge _ _ (by omega)
    simp [this]
  show _ = shift8 (r ^^^ b.toBitVec.setWidth 32)
  generalize r ^^^ b.toBitVec.setWidth 32 = x at *
  conv => rhs; rw [split_low x]
  rw [shift8_xor, shift8_shl _ (shr8_high x), hb]
  simp

theorem foldlM_round (data : List UInt8) (r : BitVec 32) : data.foldlM round r = some (data.foldl Spec.byte r) := by
  induction data generalizing r with
  | nil => rfl
  | cons b l ih =>
    simp only [List.foldlM_cons, List.foldl_cons, round_eq]
    exact ih _

theorem compute_eq (data : List UInt8) : compute data = some (Spec.crc32 data) := by
  unfold compute Spec.crc32
  simp only [foldlM_round, Option.map_some]
  rfl

/-! ## Injectivity: differences do not get lost -/

theorem shift_inj {x y : BitVec 32} (h : shift x = shift y) : x = y := by
  have key : ∀ x : BitVec 32, shift x = 0 → x = 0 := by
    intro x hx
    unfold shift at hx
    have h31 : ((x >>> 1).getLsbD 31) = false := by simp [BitVec.getLsbD_ushiftRight]
    cases h0 : x.getLsbD 0 with
    | true =>
      rw [if_pos h0] at hx
      have := congrArg (fun z : BitVec 32 => z.getLsbD 31) hx
      simp only [BitVec.getLsbD_xor, h31] at this
      exact absurd this (by decide)
    | false =>
      rw [h0] at hx
      simp only [Bool.false_eq_true, ↓reduceIte] at hx
      apply BitVec.eq_of_getLsbD_eq
      intro i hi
      cases i with
      | zero => rw [h0]; rfl
      | succ j =>
        have := congrArg (fun z : BitVec 32 => z.getLsbD j) hx
        simp only [BitVec.getLsbD_ushiftRight] at this
        rw [Nat.add_comm] at this
        rw [this]
        simp
  have : shift (x ^^^ y) = 0 := by rw [shift_xor, h]; simp
  have := key _ this
  exact BitVec.xor_eq_zero_iff.mp this

theorem shift8_inj {x y : BitVec 32} (h : shift8 x = shift8 y) : x = y := by
  unfold shift8 at h
  exact shift_inj (shift_inj (shift_inj (shift_inj (shift_inj (shift_inj (shift_inj (shift_inj h)))))))

theorem xor_right_inj {x y z : BitVec 32} (h : x ^^^ z = y ^^^ z) : x = y := by
  have := congrArg (· ^^^ z) h
  simpa [BitVec.xor_assoc] using this

theorem byte_inj {r r' : BitVec 32} (b : UInt8) (h : Spec.byte r b = Spec.byte r' b) : r = r' :=
  xor_right_inj (shift8_inj h)

theorem foldl_inj {r r' : BitVec 32} (l : List UInt8) (h : l.foldl Spec.byte r = l.foldl Spec.byte r') : r = r' := by
  induction l generalizing r r' with
  | nil => exact h
  | cons b l ih => exact byte_inj b (ih h)

/-- The four bytes at the positions where they meet the register. -/
def word (b0 b1 b2 b3 : UInt8) : BitVec 32 :=
  b0.toBitVec.setWidth 32 ^^^ (b1.toBitVec.setWidth 32 <<< 8) ^^^ (b2.toBitVec.setWidth 32 <<< 16) ^^^ (b3.toBitVec.setWidth 32 <<< 24)

theorem byte_high (b : UInt8) (k i : Nat) (hi : 8 + k ≤ i) : ((b.toBitVec.setWidth 32) <<< k : BitVec 32).getLsbD i = false := by
  simp only [BitVec.getLsbD_shiftLeft, BitVec.getLsbD_setWidth]
  have : b.toBitVec.getLsbD (i - k) = false := BitVec.getLsbD_of_ge _ _ (by omega)
  simp [this]

theorem four_bytes (r : BitVec 32) (b0 b1 b2 b3 : UInt8) :
    [b0, b1, b2, b3].foldl Spec.byte r = shift8 (shift8 (shift8 (shift8 (r ^^^ word b0 b1 b2 b3)))) := by
  have e1 : ∀ b : UInt8, shift8 (b.toBitVec.setWidth 32 <<< 8) = b.toBitVec.setWidth 32 := by
    intro b
    apply shift8_shl
    intro i hi
    have := byte_high b 0 i (by omega)
    simpa using this
  have e2 : ∀ b : UInt8, shift8 (b.toBitVec.setWidth 32 <<< 16) = b.toBitVec.setWidth 32 <<< 8 := by
    intro b
    have : (b.toBitVec.setWidth 32 <<< 16 : BitVec 32) = (b.toBitVec.setWidth 32 <<< 8) <<< 8 := by rw [← BitVec.shiftLeft_add]
    rw [this]
    exact shift8_shl _ fun i hi => byte_high b 8 i (by omega)
  have e3 : ∀ b : UInt8, shift8 (b.toBitVec.setWidth 32 <<< 24) = b.toBitVec.setWidth 32 <<< 16 := by
    intro b
    have : (b.toBitVec.setWidth 32 <<< 24 : BitVec 32) = (b.toBitVec.setWidth 32 <<< 16) <<< 8 := by rw [← BitVec.shiftLeft_add]
    rw [this]
    exact shift8_shl _ fun i hi => byte_high b 16 i (by omega)
  show shift8 (shift8 (shift8 (shift8 (r ^^^ b0.toBitVec.setWidth 32) ^^^ b1.toBitVec.setWidth 32) ^^^ b2.toBitVec.setWidth 32) ^^^
    b3.toBitVec.setWidth 32) = _
  simp only [word, shift8_xor, e1, e2, e3, BitVec.xor_assoc]

theorem word_inj {b0 b1 b2 b3 c0 c1 c2 c3 : UInt8} (h : word b0 b1 b2 b3 = word c0 c1 c2 c3) : b0 = c0 ∧ b1 = c1 ∧ b2 = c2 ∧ b3 = c3 := by
  have get : ∀ (b0 b1 b2 b3 : UInt8) (i : Nat), i < 8 →
      (word b0 b1 b2 b3).getLsbD i = b0.toBitVec.getLsbD i ∧ (word b0 b1 b2 b3).getLsbD (8 + i) = b1.toBitVec.getLsbD i ∧
      (word b0 b1 b2 b3).getLsbD (16 + i) = b2.toBitVec.getLsbD i ∧ (word b0 b1 b2 b3).getLsbD (24 + i) = b3.toBitVec.getLsbD i := by
    intro b0 b1 b2 b3 i hi
    unfold word
    have g : ∀ (b : UInt8) (j : Nat), 8 ≤ j → b.toBitVec.getLsbD j = false := fun b j hj => BitVec.getLsbD_of_ge _ _ hj
    simp only [BitVec.getLsbD_xor, BitVec.getLsbD_shiftLeft, BitVec.getLsbD_setWidth]
    have a1 : 8 + i - 8 = i := by omega
    have a2 : 16 + i - 16 = i := by omega
    have a3 : 24 + i - 24 = i := by omega
    have n1 : i < 32 ∧ 8 + i < 32 ∧ 16 + i < 32 ∧ 24 + i < 32 := by omega
    have n2 : i < 8 ∧ ¬ (8 + i < 8) ∧ 8 + i < 16 ∧ 8 + i < 24 ∧ i < 16 ∧ i < 24 ∧ ¬ (16 + i < 8) ∧ ¬ (16 + i < 16) ∧ 16 + i < 24 ∧
      ¬ (24 + i < 8) ∧ ¬ (24 + i < 16) ∧ ¬ (24 + i < 24) := by omega
    simp only [n1, n2, a1, a2, a3, g _ (8 + i) (by omega), g _ (16 + i) (by omega), g _ (24 + i) (by omega), g _ (16 + i - 8) (by omega),
      g _ (24 + i - 8) (by omega), g _ (24 + i - 16) (by omega)]
    simp
  have ext : ∀ b c : UInt8, (∀ i, i < 8 → b.toBitVec.getLsbD i = c.toBitVec.getLsbD i) → b = c := by
    intro b c hbc
    have : b.toBitVec = c.toBitVec := BitVec.eq_of_getLsbD_eq hbc
    exact UInt8.toBitVec_inj.mp this
  refine ⟨ext _ _ fun i hi => ?_, ext _ _ fun i hi => ?_, ext _ _ fun i hi => ?_, ext _ _ fun i hi => ?_⟩
  · rw [← (get b0 b1 b2 b3 i hi).1, h, (get c0 c1 c2 c3 i hi).1]
  · rw [← (get b0 b1 b2 b3 i hi).2.1, h, (get c0 c1 c2 c3 i hi).2.1]
  · rw [← (get b0 b1 b2 b3 i hi).2.2.1, h, (get c0 c1 c2 c3 i hi).2.2.1]
  · rw [← (get b0 b1 b2 b3 i hi).2.2.2, h, (get c0 c1 c2 c3 i hi).2.2.2]

theorem crc32_window (pre post : List UInt8) (b0 b1 b2 b3 c0 c1 c2 c3 : UInt8)
    (h : Spec.crc32 (pre ++ [b0, b1, b2, b3] ++ post) = Spec.crc32 (pre ++ [c0, c1, c2, c3] ++ post)) :
    [b0, b1, b2, b3] = [c0, c1, c2, c3] := by
  unfold Spec.crc32 at h
  have h1 := xor_right_inj h
  rw [List.foldl_append, List.foldl_append, List.foldl_append, List.foldl_append] at h1
  have h2 := foldl_inj post h1
  rw [four_bytes, four_bytes] at h2
  have h3 := shift8_inj (shift8_inj (shift8_inj (shift8_inj h2)))
  rw [BitVec.xor_comm _ (word b0 b1 b2 b3), BitVec.xor_comm _ (word c0 c1 c2 c3)] at h3
  obtain ⟨rfl, rfl, rfl, rfl⟩ := word_inj (xor_right_inj h3)
  rfl

end Scalopus.Crc
