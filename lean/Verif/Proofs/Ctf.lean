import Verif.Spec.Ctf
import Verif.Proofs.Assoc
import Verif.Props.C64_Timestamps

/-!
# Proofs about parsing lines
-/

namespace Scalopus.Ctf

open Spec

/-! ## Positions -/

theorem add_small {a b : Nat} (h : a + b < 2 ^ 64) : add a b = a + b := Nat.mod_eq_of_lt h

theorem sub_small {a b : Nat} (h : b ≤ a) (ha : a < 2 ^ 64) : sub a b = a - b := by
  unfold sub
  have : a + 2 ^ 64 - b = (a - b) + 2 ^ 64 := by omega
  rw [this, Nat.add_mod_right, Nat.mod_eq_of_lt (by omega)]

theorem findIn_char (c : Char) (mid post : Text) (h : c ∉ mid) : ∀ i, findIn [c] (mid ++ c :: post) i = i + mid.length := by
  induction mid with
  | nil => intro i; simp [findIn]
  | cons x mid ih =>
    intro i
    simp only [List.mem_cons, not_or] at h
    simp only [List.cons_append, findIn]
    have : [c].isPrefixOf (x :: (mid ++ c :: post)) = false := by simp [List.isPrefixOf, h.1]
    rw [this]
    simp only [Bool.false_eq_true, if_false, List.length_cons]
    rw [ih h.2]
    omega

theorem find_char {s : Text} (c : Char) (pre mid post : Text) (hs : s = pre ++ (mid ++ c :: post)) (h : c ∉ mid) {pos : Nat} (hp : pos = pre.length) :
    find s [c] pos = pre.length + mid.length := by
  unfold find
  subst hs hp
  rw [List.drop_left, findIn_char c mid post h]

theorem substr_mid {s : Text} (pre mid post : Text) (hs : s = pre ++ (mid ++ post)) {pos len : Nat} (hp : pos = pre.length) (hl : len = mid.length) :
    substr s pos len = .ok mid := by
  unfold substr
  subst hs hp hl
  rw [if_neg (by simp), List.drop_left, List.take_left]

/-! ## Digits -/

theorem digit_digitChar (n : Nat) (h : n < 10) : digit 10 (digitChar n) = some n := by
  have : n = 0 ∨ n = 1 ∨ n = 2 ∨ n = 3 ∨ n = 4 ∨ n = 5 ∨ n = 6 ∨ n = 7 ∨ n = 8 ∨ n = 9 := by omega
  rcases this with rfl | rfl | rfl | rfl | rfl | rfl | rfl | rfl | rfl | rfl <;> rfl

theorem digits_append (ds : List Nat) (h : ∀ d ∈ ds, d < 10) (r : Text) : digits 10 (ds.map digitChar ++ r) = (ds ++ (digits 10 r).1, (digits 10 r).2) := by
  induction ds with
  | nil => rfl
  | cons d ds ih =>
    simp only [List.map_cons, List.cons_append, digits, digit_digitChar d (h d List.mem_cons_self)]
    rw [ih (fun d hd => h d (List.mem_cons_of_mem _ hd))]

theorem number_append (base : Nat) (a b : List Nat) : number base (a ++ b) = number base a * base ^ b.length + number base b := by
  have key : ∀ (b : List Nat) (x : Nat), b.foldl (fun n d => n * base + d) x = x * base ^ b.length + b.foldl (fun n d => n * base + d) 0 := by
    intro b
    induction b with
    | nil => intro x; simp
    | cons d b ih =>
      intro x
      simp only [List.foldl_cons, List.length_cons]
      rw [ih, ih (0 * base + d)]
      ring
  unfold number
  rw [List.foldl_append, key]

theorem decimal_lt (n : Nat) : ∀ d ∈ decimal n, d < 10 := by
  induction n using Nat.strongRecOn with
  | ind n ih =>
    unfold decimal
    split
    · intro d hd; simp only [List.mem_singleton] at hd; omega
    · intro d hd
      rcases List.mem_append.mp hd with hd | hd
      · exact ih (n / 10) (by omega) d hd
      · simp only [List.mem_singleton] at hd; omega

theorem decimal_number (n : Nat) : number 10 (decimal n) = n := by
  induction n using Nat.strongRecOn with
  | ind n ih =>
    unfold decimal
    split
    · simp [number]
    · rw [number_append, ih (n / 10) (by omega)]
      simp only [List.length_singleton, pow_one, number, List.foldl_cons, List.foldl_nil]
      omega

theorem decimal_ne (n : Nat) : decimal n ≠ [] := by
  unfold decimal
  split <;> simp

theorem padded_lt (k n : Nat) : ∀ d ∈ padded k n, d < 10 := by
  induction k generalizing n with
  | zero => simp [padded]
  | succ k ih =>
    intro d hd
    unfold padded at hd
    rcases List.mem_append.mp hd with hd | hd
    · exact ih _ d hd
    · simp only [List.mem_singleton] at hd; omega

theorem padded_number (k n : Nat) (h : n < 10 ^ k) : number 10 (padded k n) = n := by
  induction k generalizing n with
  | zero => simp only [pow_zero] at h; simp [padded, number]; omega
  | succ k ih =>
    unfold padded
    rw [number_append, ih (n / 10) (by rw [pow_succ] at h; omega)]
    simp only [List.length_singleton, pow_one, number, List.foldl_cons, List.foldl_nil]
    omega

theorem padded_length (k n : Nat) : (padded k n).length = k := by
  induction k generalizing n with
  | zero => rfl
  | succ k ih => simp [padded, ih]

/-- Characters of decimal digits. -/
theorem digitChar_cases (n : Nat) (h : n < 10) : digitChar n ∈ ['0', '1', '2', '3', '4', '5', '6', '7', '8', '9'] := by
  have : n = 0 ∨ n = 1 ∨ n = 2 ∨ n = 3 ∨ n = 4 ∨ n = 5 ∨ n = 6 ∨ n = 7 ∨ n = 8 ∨ n = 9 := by omega
  rcases this with rfl | rfl | rfl | rfl | rfl | rfl | rfl | rfl | rfl | rfl <;> decide

theorem mem_digits {ds : List Nat} (h : ∀ d ∈ ds, d < 10) {c : Char} (hc : c ∈ ds.map digitChar) : c ∈ ['0', '1', '2', '3', '4', '5', '6', '7', '8', '9'] := by
  obtain ⟨d, hd, rfl⟩ := List.mem_map.mp hc
  exact digitChar_cases d (h d hd)

theorem not_mem_dec {c : Char} (h : c ∉ ['0', '1', '2', '3', '4', '5', '6', '7', '8', '9']) (n : Nat) : c ∉ dec n := fun hc => h (mem_digits (decimal_lt n) hc)

/-- A text that begins with a digit has no space or sign in front. -/
theorem sign_skip_of_head {c : Char} {r : Text} (h1 : isSpace c = false) (h2 : c ≠ '-') (h3 : c ≠ '+') : sign (skipSpace (c :: r)) = (false, c :: r) := by
  have : skipSpace (c :: r) = c :: r := by simp [skipSpace, h1]
  rw [this]
  unfold sign
  split
  · rename_i heq; exact absurd (List.cons.inj heq).1 h2
  · rename_i heq; exact absurd (List.cons.inj heq).1 h3
  · rfl

theorem head_dec (ds : List Nat) (h : ∀ d ∈ ds, d < 10) (hne : ds ≠ []) (r : Text) : sign (skipSpace (ds.map digitChar ++ r)) = (false, ds.map digitChar ++ r) := by
  cases ds with
  | nil => exact absurd rfl hne
  | cons d ds =>
    have hd := digitChar_cases d (h d List.mem_cons_self)
    simp only [List.map_cons, List.cons_append]
    apply sign_skip_of_head
    · revert hd; generalize digitChar d = c; intro hc; simp only [List.mem_cons, List.not_mem_nil, or_false] at hc; rcases hc with rfl | rfl | rfl | rfl | rfl | rfl | rfl | rfl | rfl | rfl <;> rfl
    · revert hd; generalize digitChar d = c; intro hc; simp only [List.mem_cons, List.not_mem_nil, or_false] at hc; rcases hc with rfl | rfl | rfl | rfl | rfl | rfl | rfl | rfl | rfl | rfl <;> decide
    · revert hd; generalize digitChar d = c; intro hc; simp only [List.mem_cons, List.not_mem_nil, or_false] at hc; rcases hc with rfl | rfl | rfl | rfl | rfl | rfl | rfl | rfl | rfl | rfl <;> decide

theorem stoull_dec (n : Nat) (h : n < 2 ^ 64) : stoull (dec n) = .val n := by
  unfold stoull dec
  have h1 := head_dec (decimal n) (decimal_lt n) (decimal_ne n) []
  have h2 := digits_append (decimal n) (decimal_lt n) []
  simp only [List.append_nil, digits] at h1 h2
  rw [h1]
  simp only [h2]
  rw [if_neg (decimal_ne n), decimal_number, if_neg (by omega)]
  simp

theorem stoull_neg (n : Nat) (h : n < 2 ^ 64) : stoull ('-' :: dec n) = .val ((2 ^ 64 - n) % 2 ^ 64) := by
  have h0 : sign (skipSpace ('-' :: dec n)) = (true, dec n) := by
    have : skipSpace ('-' :: dec n) = '-' :: dec n := by simp [skipSpace, isSpace]
    rw [this]; rfl
  unfold stoull
  have h2 := digits_append (decimal n) (decimal_lt n) []
  simp only [List.append_nil, digits] at h2
  rw [h0]
  simp only [dec, h2]
  rw [if_neg (decimal_ne n), decimal_number, if_neg (by omega)]
  simp

theorem stoull_other {c : Char} {r : Text} (h1 : isSpace c = false) (h2 : digit 10 c = none) (h3 : c ≠ '-') (h4 : c ≠ '+') : stoull (c :: r) = .invalid := by
  unfold stoull
  rw [sign_skip_of_head h1 h3 h4]
  simp [digits, h2]

theorem startsWith_false {w s : Text} {c : Char} (hw : c ∈ w) (hs : ∀ x ∈ s, x.toLower ≠ c) : startsWith w s = false := by
  unfold startsWith
  rw [Bool.eq_false_iff]
  intro h
  obtain ⟨x, hx, rfl⟩ := List.mem_map.mp ((List.isPrefixOf_iff_prefix.mp h).subset hw)
  exact hs x hx rfl

theorem mem_timeText {l : Line} {c : Char} (h : c ∈ l.timeText) : c ∈ ['.', '0', '1', '2', '3', '4', '5', '6', '7', '8', '9'] := by
  unfold Line.timeText at h
  rcases List.mem_append.mp h with h | h
  · rcases List.mem_append.mp h with h | h
    · exact List.mem_cons_of_mem _ (mem_digits (decimal_lt _) h)
    · exact List.mem_cons.mpr (.inl (List.mem_singleton.mp h))
  · exact List.mem_cons_of_mem _ (mem_digits (padded_lt _ _) h)

theorem timeText_lower {l : Line} {x : Char} (h : x ∈ l.timeText) : x.toLower ≠ 'i' ∧ x.toLower ≠ 'a' ∧ x.toLower ≠ 'x' := by
  have hc := mem_timeText h
  simp only [List.mem_cons, List.not_mem_nil, or_false] at hc
  rcases hc with rfl | rfl | rfl | rfl | rfl | rfl | rfl | rfl | rfl | rfl | rfl <;> decide

theorem float_time (l : Line) (hn : l.nanos < 10 ^ 9) : float 10 10 (fun c => c = 'e' || c = 'E') l.timeText = some ((l.secs : ℚ) + (l.nanos : ℚ) / 10 ^ 9) := by
  have h1 : digits 10 l.timeText = (decimal l.secs, '.' :: (padded 9 l.nanos).map digitChar) := by
    unfold Line.timeText dec
    rw [List.append_assoc, digits_append _ (decimal_lt _)]
    have : digits 10 (['.'] ++ (padded 9 l.nanos).map digitChar) = ([], '.' :: (padded 9 l.nanos).map digitChar) := rfl
    rw [this]
    simp
  have h2 : digits 10 ((padded 9 l.nanos).map digitChar) = (padded 9 l.nanos, []) := by
    have := digits_append (padded 9 l.nanos) (padded_lt _ _) []
    simpa [digits] using this
  unfold float
  rw [h1]
  simp only [h2]
  rw [if_neg (by simp [decimal_ne]), if_neg (by simp [decimal_ne]), number_append, decimal_number, padded_number 9 _ hn, padded_length]
  simp only [exponent, zpow_zero, mul_one, Option.some.injEq]
  push_cast
  field_simp
  norm_num

theorem toDouble_time (l : Line) (hs : l.secs < 2 ^ 64) (hn : l.nanos < 10 ^ 9) : toDouble (l.secs + l.nanos / 10 ^ 9) = .val (Double.nearest (l.secs + l.nanos / 10 ^ 9)) := by
  have hs' : (l.secs : ℚ) ≤ 2 ^ 64 := by exact_mod_cast hs.le
  have hn' : (l.nanos : ℚ) < 10 ^ 9 := by exact_mod_cast hn
  have hs0 : (0 : ℚ) ≤ l.secs := by positivity
  have hn0 : (0 : ℚ) ≤ l.nanos := by positivity
  unfold toDouble
  by_cases h0 : (l.secs : ℚ) + l.nanos / 10 ^ 9 = 0
  · rw [if_pos h0, h0, Double.nearest_zero]
  · rw [if_neg h0]
    have hpos : (1 : ℚ) / 10 ^ 9 ≤ l.secs + l.nanos / 10 ^ 9 := by
      have hnat : 1 ≤ l.secs * 10 ^ 9 + l.nanos := by
        rcases Nat.eq_zero_or_pos (l.secs * 10 ^ 9 + l.nanos) with hz | hz
        · exfalso; apply h0
          have h1 : l.secs = 0 := by omega
          have h2 : l.nanos = 0 := by omega
          rw [h1, h2]; norm_num
        · exact hz
      have : (1 : ℚ) ≤ l.secs * 10 ^ 9 + l.nanos := by exact_mod_cast hnat
      rw [div_le_iff₀ (by norm_num)]
      field_simp
      linarith
    have hsmall : (2 : ℚ) ^ (-1022 : ℤ) ≤ 1 / 10 ^ 9 := by
      calc (2 : ℚ) ^ (-1022 : ℤ) ≤ 2 ^ (-30 : ℤ) := zpow_le_zpow_right₀ (by norm_num) (by norm_num)
        _ ≤ 1 / 10 ^ 9 := by norm_num
    rw [if_neg (by linarith)]
    have hle : (l.secs : ℚ) + l.nanos / 10 ^ 9 ≤ 2 ^ 65 := by
      have : (l.nanos : ℚ) / 10 ^ 9 ≤ 1 := by rw [div_le_one (by norm_num)]; linarith
      have : (2 : ℚ) ^ 65 = 2 * 2 ^ 64 := by norm_num
      have : (1 : ℚ) ≤ 2 ^ 64 := by norm_num
      linarith
    have hbig : Double.nearest (l.secs + l.nanos / 10 ^ 9) < 2 ^ (1024 : ℤ) := by
      have h1 := (abs_le.mp (Double.nearest_near (x := (l.secs : ℚ) + l.nanos / 10 ^ 9) (by positivity))).2
      have h2 : ((l.secs : ℚ) + l.nanos / 10 ^ 9) / 2 ^ 53 ≤ (l.secs + l.nanos / 10 ^ 9) := div_le_self (by positivity) (by norm_num)
      have h3 : (2 : ℚ) ^ (66 : ℤ) < 2 ^ (1024 : ℤ) := zpow_lt_zpow_right₀ (by norm_num) (by norm_num)
      have h4 : (2 : ℚ) ^ (66 : ℤ) = 2 * 2 ^ 65 := by norm_num
      have h5 : Double.nearest ((l.secs : ℚ) + l.nanos / 10 ^ 9) ≤ 2 * (l.secs + l.nanos / 10 ^ 9) := by linarith
      have h6 : (2 : ℚ) * (l.secs + l.nanos / 10 ^ 9) ≤ 2 * 2 ^ 65 := by linarith
      exact lt_of_le_of_lt (le_trans h5 (le_trans h6 (le_of_eq h4.symm))) h3
    rw [if_neg (not_le.mpr hbig)]

/-- The time. -/
theorem stod_time (l : Line) (hs : l.secs < 2 ^ 64) (hn : l.nanos < 10 ^ 9) : stod l.timeText = .val (some (Double.nearest (l.secs + l.nanos / 10 ^ 9))) := by
  have h1 : sign (skipSpace l.timeText) = (false, l.timeText) := by
    have := head_dec (decimal l.secs) (decimal_lt _) (decimal_ne _) (['.'] ++ (padded 9 l.nanos).map digitChar)
    rw [← List.append_assoc] at this
    exact this
  unfold stod
  rw [h1]
  simp only
  rw [startsWith_false (c := 'i') (by decide) (fun x hx => (timeText_lower hx).1), startsWith_false (c := 'a') (by decide) (fun x hx => (timeText_lower hx).2.1),
    startsWith_false (c := 'x') (by decide) (fun x hx => (timeText_lower hx).2.2)]
  simp only [Bool.or_self, Bool.false_eq_true, if_false, float_time l hn, toDouble_time l hs hn]

/-! ## Contexts -/

theorem delimiter_skip (a b : Text) (h : ',' ∉ a) : delimiter (a ++ b) = (delimiter b).map (· + a.length) := by
  induction a with
  | nil => simp
  | cons c a ih =>
    simp only [List.mem_cons, not_or] at h
    simp only [List.cons_append, delimiter]
    have : [',', ' '].isPrefixOf (c :: (a ++ b)) = false := by simp [List.isPrefixOf, h.1]
    rw [this]
    simp only [Bool.false_eq_true, if_false, ih h.2, Option.map_map]
    congr 1

theorem delimiter_none {t : Text} (h : ¬ [',', ' '] <:+: t) : delimiter t = none := by
  induction t with
  | nil => rfl
  | cons c t ih =>
    simp only [delimiter]
    have h1 : [',', ' '].isPrefixOf (c :: t) = false := by
      rw [Bool.eq_false_iff]
      intro hc
      exact h (List.isPrefixOf_iff_prefix.mp hc).isInfix
    rw [h1]
    simp only [Bool.false_eq_true, if_false]
    rw [ih (fun hc => h (hc.trans (List.suffix_cons c t).isInfix))]
    rfl

theorem delimiter_here (kv rest : Text) (h : delimiter kv = none) : delimiter (kv ++ ',' :: ' ' :: rest) = some kv.length := by
  induction kv with
  | nil => rfl
  | cons c kv ih =>
    simp only [delimiter] at h
    split at h
    · cases h
    · rename_i hp
      have h2 : delimiter kv = none := by simpa using h
      simp only [List.cons_append, delimiter]
      have h1 : [',', ' '].isPrefixOf (c :: (kv ++ ',' :: ' ' :: rest)) = false := by
        cases kv with
        | nil => simp [List.isPrefixOf]
        | cons d kv => simpa [List.isPrefixOf] using hp
      rw [h1]
      simp only [Bool.false_eq_true, if_false, ih h2, Option.map_some, List.length_cons]

theorem value_delimiter (f : Field) (h : f.Valid) : delimiter f.value.text = none := by
  obtain ⟨_, _, _, _, hv⟩ := h
  cases hval : f.value with
  | int z =>
    have : ∀ t : Text, ',' ∉ t → delimiter t = none := by
      intro t ht
      have := delimiter_skip t [] ht
      simpa [delimiter] using this
    apply this
    simp only [Value.text]
    split
    · simp only [List.mem_cons, not_or]
      exact ⟨by decide, not_mem_dec (by decide) _⟩
    · exact not_mem_dec (by decide) _
  | other t =>
    rw [hval] at hv
    exact delimiter_none hv.2.1

theorem field_delimiter (f : Field) (h : f.Valid) : delimiter f.text = none := by
  unfold Field.text
  have h1 : ',' ∉ f.key ++ [' ', '=', ' '] := by
    simp only [List.mem_append, not_or]
    exact ⟨h.2.2.1, by decide⟩
  rw [delimiter_skip _ _ h1, value_delimiter f h]
  rfl

theorem value_ne (f : Field) (h : f.Valid) : f.value.text ≠ [] := by
  obtain ⟨_, _, _, _, hv⟩ := h
  cases hval : f.value with
  | int z =>
    simp only [Value.text]
    split
    · simp
    · simp [dec, decimal_ne]
  | other t =>
    rw [hval] at hv
    obtain ⟨_, _, c, r, rfl, _⟩ := hv
    simp [Value.text]

theorem field_length (f : Field) (h : f.Valid) : 4 < f.text.length := by
  have h1 : f.key.length ≠ 0 := by simpa using h.1
  have h2 : f.value.text.length ≠ 0 := by simpa using value_ne f h
  unfold Field.text
  simp only [List.length_append, List.length_cons, List.length_nil]
  omega

/-- What a field does to the map. -/
def put (keyFirst : Bool) (m : IdMap) (f : Field) : IdMap :=
  match f.value with
  | .int z => assign m f.key (z % 2 ^ 64).toNat
  | .other _ => if keyFirst then (if (m.lookup f.key).isSome then m else assign m f.key 0) else m

theorem findIn_eq (key : Text) (v : Text) (h : ' ' ∉ key) : ∀ i, findIn [' ', '=', ' '] (key ++ ([' ', '=', ' '] ++ v)) i = i + key.length := by
  induction key with
  | nil => intro i; simp [findIn]
  | cons c key ih =>
    intro i
    simp only [List.mem_cons, not_or] at h
    simp only [List.cons_append, findIn]
    have : [' ', '=', ' '].isPrefixOf (c :: (key ++ ' ' :: '=' :: ' ' :: ([] ++ v))) = false := by simp [List.isPrefixOf, h.1]
    rw [this]
    simp only [Bool.false_eq_true, if_false, List.length_cons]
    have := ih h.2 (i + 1)
    simp only [List.cons_append] at this
    rw [this]
    omega

theorem keyValue_field (keyFirst : Bool) (m : IdMap) (f : Field) (h : f.Valid) (hl : f.text.length < 2 ^ 63) : keyValue keyFirst m f.text = .ok (put keyFirst m f) := by
  have hv := h.2.2.2.2
  have ht : f.text = f.key ++ ([' ', '=', ' '] ++ f.value.text) := by simp [Field.text]
  have hf : find f.text " = ".toList 0 = f.key.length := by
    unfold find
    rw [List.drop_zero, ht]
    have := findIn_eq f.key f.value.text h.2.1 0
    rw [Nat.zero_add] at this
    exact this
  have hlen : f.text.length = f.key.length + 3 + f.value.text.length := by rw [ht]; simp; omega
  unfold keyValue
  simp only [hf]
  rw [substr_mid (s := f.text) (pos := 0) [] f.key ([' ', '=', ' '] ++ f.value.text) (by rw [ht]; rfl) rfl rfl]
  simp only [Res.bind]
  rw [add_small (by omega)]
  have hs : substr f.text (f.key.length + 3) npos = .ok f.value.text := by
    unfold substr
    rw [if_neg (by omega)]
    have : f.text.drop (f.key.length + 3) = f.value.text := by
      rw [ht, ← List.append_assoc]
      have : f.key.length + 3 = (f.key ++ [' ', '=', ' ']).length := by simp
      rw [this, List.drop_left]
    rw [this, List.take_of_length_le]
    unfold npos
    omega
  rw [hs]
  simp only
  cases hval : f.value with
  | int z =>
    rw [hval] at hv
    simp only at hv
    simp only [Value.text, put, hval]
    by_cases hz : z < 0
    · rw [if_pos hz, stoull_neg _ (by omega)]
      simp only
      congr 2
      omega
    · rw [if_neg hz, stoull_dec _ (by omega)]
      simp only
      congr 2
      omega
  | other t =>
    rw [hval] at hv
    obtain ⟨_, _, c, r, rfl, h1, h2, h3, h4⟩ := hv
    simp only [Value.text, put, hval]
    rw [stoull_other h1 h2 h3 h4]

theorem process_body (keyFirst : Bool) (fs : List Field) : ∀ m, fs ≠ [] → (∀ f ∈ fs, f.Valid) → (body fs).length < 2 ^ 63 →
    processContext keyFirst m (body fs) = .ok (fs.foldl (put keyFirst) m) := by
  induction fs with
  | nil => intro m h; exact absurd rfl h
  | cons f fs ih =>
    intro m _ hv hl
    have hf := hv f List.mem_cons_self
    cases fs with
    | nil =>
      simp only [body] at hl ⊢
      unfold processContext
      rw [field_delimiter f hf]
      simp only
      rw [if_neg (by have := field_length f hf; omega), keyValue_field _ _ _ hf hl]
      rfl
    | cons g fs =>
      have hb : body (f :: g :: fs) = f.text ++ ',' :: ' ' :: body (g :: fs) := by simp [body]
      rw [hb] at hl ⊢
      simp only [List.length_append, List.length_cons] at hl
      unfold processContext
      rw [delimiter_here _ _ (field_delimiter f hf)]
      simp only
      have := field_length f hf
      rw [if_neg (by omega), if_neg (by simp), List.take_left, keyValue_field _ _ _ hf (by omega)]
      simp only [Res.bind]
      have hd : (f.text ++ ',' :: ' ' :: body (g :: fs)).drop (f.text.length + 2) = body (g :: fs) := by
        rw [← List.drop_drop, List.drop_left]
        rfl
      rw [hd, ih _ (by simp) (fun f hf => hv f (List.mem_cons_of_mem _ hf)) (by omega)]
      rfl

theorem process_empty (keyFirst : Bool) (post : Text) (h : post.length ≤ 3 ∧ delimiter post = none ∨ ∃ r, post = ',' :: ' ' :: r) :
    processContext keyFirst [] ('}' :: post) = .ok [] := by
  unfold processContext
  rcases h with ⟨h1, h2⟩ | ⟨r, rfl⟩
  · have : delimiter ('}' :: post) = none := by simp [delimiter, h2]
    rw [this]
    simp only
    rw [if_pos (by simp only [List.length_cons]; omega)]
  · have : delimiter ('}' :: ',' :: ' ' :: r) = some 1 := by simp [delimiter]
    rw [this]
    simp

theorem lookup_assign (m : IdMap) (k k' : Text) (v : Nat) : (assign m k v).lookup k' = if k' = k then some v else m.lookup k' := by
  unfold assign
  rw [Assoc.lookup_cons', Assoc.lookup_filter]
  by_cases h : k' = k <;> simp [h]

theorem holds_foldl (keyFirst : Bool) (fs : List Field) (hn : (fs.map Field.key).Nodup) : ∀ m : IdMap, (∀ f ∈ fs, m.lookup f.key = none) →
    ∀ k n, (fs.foldl (put keyFirst) m).lookup k = some n ↔ m.lookup k = some n ∨ ∃ f ∈ fs, f.key = k ∧ match f.value with
    | .int z => (n : Int) = z % 2 ^ 64
    | .other _ => keyFirst = true ∧ n = 0 := by
  induction fs with
  | nil => intro m _ k n; simp
  | cons f fs ih =>
    intro m hm k n
    simp only [List.map_cons, List.nodup_cons] at hn
    have hf := hm f List.mem_cons_self
    have hput : ∀ k, (put keyFirst m f).lookup k = if k = f.key then (match f.value with | .int z => some (z % 2 ^ 64).toNat | .other _ => if keyFirst then some 0 else none)
        else m.lookup k := by
      intro k
      unfold put
      cases f.value with
      | int z => exact lookup_assign m f.key k _
      | other t =>
        simp only [hf, Option.isSome_none, Bool.false_eq_true, if_false]
        by_cases hk : keyFirst = true
        · rw [if_pos hk, if_pos hk]; exact lookup_assign m f.key k 0
        · rw [if_neg hk, if_neg hk]
          by_cases hkk : k = f.key
          · rw [if_pos hkk, hkk, hf]
          · rw [if_neg hkk]
    rw [List.foldl_cons, ih hn.2 (put keyFirst m f) (by
      intro g hg
      rw [hput, if_neg (by intro hc; exact hn.1 (List.mem_map.mpr ⟨g, hg, hc⟩))]
      exact hm g (List.mem_cons_of_mem _ hg)) k n, hput]
    simp only [List.mem_cons, exists_eq_or_imp]
    by_cases hk : k = f.key
    · subst hk
      rw [if_pos rfl, hf]
      simp only [reduceCtorEq, false_or, true_and]
      cases f.value with
      | int z =>
        simp only [Option.some.injEq]
        have : (z % 2 ^ 64).toNat = n ↔ (n : Int) = z % 2 ^ 64 := by omega
        rw [this]
      | other t =>
        simp only
        by_cases hkf : keyFirst = true <;> simp [hkf, eq_comm]
    · rw [if_neg hk]
      have : f.key ≠ k := fun h => hk h.symm
      simp [this]

theorem body_no_brace : ∀ fs : List Field, (∀ f ∈ fs, f.Valid) → '}' ∉ body fs := by
  intro fs
  induction fs with
  | nil => intro _; simp [body]
  | cons f fs ih =>
    intro hv
    have h1 : '}' ∉ f.text := by
      have hf := hv f List.mem_cons_self
      unfold Field.text
      simp only [List.mem_append, not_or]
      refine ⟨⟨hf.2.2.2.1, by decide⟩, ?_⟩
      have hval := hf.2.2.2.2
      cases h : f.value with
      | int z =>
        simp only [Value.text]
        split
        · simp only [List.mem_cons, not_or]
          exact ⟨by decide, not_mem_dec (by decide) _⟩
        · exact not_mem_dec (by decide) _
      | other t =>
        rw [h] at hval
        exact hval.1
    have h2 := ih (fun f hf => hv f (List.mem_cons_of_mem _ hf))
    cases fs with
    | nil => exact h1
    | cons g fs =>
      simp only [body, List.mem_append, not_or]
      exact ⟨⟨h1, by decide⟩, h2⟩

/-- One context of the line. -/
theorem context_at (keyFirst : Bool) {s : Text} (pre mid : Text) (fs : List Field) (post : Text) (hs : s = pre ++ (mid ++ (braces fs ++ post))) (hm : '{' ∉ mid)
    (hv : ∀ f ∈ fs, f.Valid) (hk : (fs.map Field.key).Nodup) (hl : s.length < 2 ^ 63)
    (hp : post.length ≤ 3 ∧ delimiter post = none ∨ ∃ r, post = ',' :: ' ' :: r) :
    let start := find s ['{'] pre.length
    let stop := find s ['}'] (add start 1)
    start ≠ npos ∧ stop = pre.length + mid.length + (braces fs).length - 1 ∧ stop ≠ npos ∧
    ∃ text m, substr s (add start 2) (sub (sub (sub stop start) 1) 2) = .ok text ∧ processContext keyFirst [] text = .ok m ∧ Holds keyFirst m fs := by
  have hnb := body_no_brace
  obtain ⟨b, hb, hbb⟩ : ∃ b, braces fs = '{' :: (' ' :: b ++ ['}']) ∧ '}' ∉ b := by
    cases fs with
    | nil => exact ⟨[], rfl, by simp⟩
    | cons f fs =>
      refine ⟨body (f :: fs) ++ [' '], by simp [braces], ?_⟩
      simp only [List.mem_append, not_or]
      exact ⟨hnb _ hv, by decide⟩
  have hlen : s.length = pre.length + mid.length + (b.length + 3) + post.length := by
    rw [hs, hb]; simp; omega
  have hstart : find s ['{'] pre.length = pre.length + mid.length := find_char '{' pre mid (' ' :: b ++ ['}'] ++ post) (by rw [hs, hb]; simp) hm rfl
  have hstop : find s ['}'] (add (pre.length + mid.length) 1) = pre.length + mid.length + b.length + 2 := by
    rw [add_small (by omega)]
    rw [find_char '}' (pre ++ mid ++ ['{']) (' ' :: b) post (by rw [hs, hb]; simp) (by
      simp only [List.mem_cons, not_or]; exact ⟨by decide, hbb⟩) (by simp; omega)]
    simp; omega
  simp only [hstart, hstop]
  refine ⟨by unfold npos; omega, by rw [hb]; simp; omega, by unfold npos; omega, ?_⟩
  rw [sub_small (a := pre.length + mid.length + b.length + 2) (by omega) (by omega), sub_small (a := pre.length + mid.length + b.length + 2 - _) (by omega) (by omega), add_small (by omega)]
  cases fs with
  | nil =>
    have : b = [] := by
      have := congrArg List.length hb
      simpa [braces] using this
    subst this
    refine ⟨'}' :: post, [], ?_, process_empty keyFirst post hp, ?_⟩
    · unfold substr
      rw [if_neg (by omega)]
      have hd : s.drop (pre.length + mid.length + 2) = '}' :: post := by
        rw [hs, hb, ← List.append_assoc]
        have : pre.length + mid.length + 2 = (pre ++ mid).length + 2 := by simp
        rw [this, ← List.drop_drop, List.drop_left]
        rfl
      rw [hd, List.take_of_length_le]
      have : sub (pre.length + mid.length + ([] : Text).length + 2 - (pre.length + mid.length) - 1) 2 = 2 ^ 64 - 1 := by
        unfold sub
        simp only [List.length_nil]
        omega
      rw [this]
      simp only [List.length_cons]
      omega
    · intro k n; simp
  | cons f fs =>
    have hb' : b = body (f :: fs) ++ [' '] := by
      simp only [braces, List.cons_append, List.nil_append, List.cons.injEq, true_and] at hb
      have : body (f :: fs) ++ [' ', '}'] = (body (f :: fs) ++ [' ']) ++ ['}'] := by simp
      rw [this] at hb
      exact (List.append_cancel_right hb).symm
    have hbl : b.length = (body (f :: fs)).length + 1 := by rw [hb']; simp
    refine ⟨body (f :: fs), (f :: fs).foldl (put keyFirst) [], ?_, process_body keyFirst _ [] (by simp) hv (by omega), ?_⟩
    · rw [sub_small (by omega) (by omega)]
      exact substr_mid (pre ++ mid ++ ['{', ' ']) _ ([' ', '}'] ++ post) (by rw [hs]; simp [braces]) (by simp; omega) (by omega)
    · intro k n
      rw [holds_foldl keyFirst _ hk [] (by simp) k n]
      simp only [List.lookup_nil, reduceCtorEq, false_or]
      exact Iff.rfl

/-- A context of any text without a closing brace. -/
theorem context_raw {s : Text} (pre mid b : Text) (c : Char) (post : Text) (hs : s = pre ++ (mid ++ ('{' :: ' ' :: b ++ c :: '}' :: post))) (hm : '{' ∉ mid)
    (hb : '}' ∉ b) (hc : c ≠ '}') (hl : s.length < 2 ^ 63) :
    let start := find s ['{'] pre.length
    let stop := find s ['}'] (add start 1)
    start ≠ npos ∧ stop = pre.length + mid.length + b.length + 3 ∧ stop ≠ npos ∧ substr s (add start 2) (sub (sub (sub stop start) 1) 2) = .ok b := by
  have hlen : s.length = pre.length + mid.length + (b.length + 4) + post.length := by
    rw [hs]; simp; omega
  have hstart : find s ['{'] pre.length = pre.length + mid.length := find_char '{' pre mid (' ' :: b ++ c :: '}' :: post) (by rw [hs]; simp) hm rfl
  have hstop : find s ['}'] (add (pre.length + mid.length) 1) = pre.length + mid.length + b.length + 3 := by
    rw [add_small (by omega)]
    rw [find_char '}' (pre ++ mid ++ ['{']) (' ' :: b ++ [c]) post (by rw [hs]; simp) (by
      simp only [List.mem_cons, List.mem_append, not_or, List.not_mem_nil, not_false_eq_true, and_true, List.cons_append]
      exact ⟨by decide, hb, fun h => hc h.symm⟩) (by simp; omega)]
    simp; omega
  simp only [hstart, hstop]
  refine ⟨by unfold npos; omega, trivial, by unfold npos; omega, ?_⟩
  rw [sub_small (a := pre.length + mid.length + b.length + 3) (by omega) (by omega), sub_small (a := pre.length + mid.length + b.length + 3 - _) (by omega) (by omega), add_small (by omega),
    sub_small (by omega) (by omega)]
  exact substr_mid (pre ++ mid ++ ['{', ' ']) _ (c :: '}' :: post) (by rw [hs]; simp) (by simp; omega) (by omega)

/-- A context that the parser takes to end after `c`, because a closing brace follows. -/
theorem context_cut (keyFirst : Bool) {s : Text} (pre mid : Text) (fs : List Field) (c : Char) (post : Text) (hs : s = pre ++ (mid ++ ('{' :: ' ' :: body fs ++ c :: '}' :: post))) (hm : '{' ∉ mid)
    (hne : fs ≠ []) (hc : c ≠ '}') (hv : ∀ f ∈ fs, f.Valid) (hk : (fs.map Field.key).Nodup) (hl : s.length < 2 ^ 63) :
    let start := find s ['{'] pre.length
    let stop := find s ['}'] (add start 1)
    start ≠ npos ∧ stop = pre.length + mid.length + (body fs).length + 3 ∧ stop ≠ npos ∧
    ∃ text m, substr s (add start 2) (sub (sub (sub stop start) 1) 2) = .ok text ∧ processContext keyFirst [] text = .ok m ∧ Holds keyFirst m fs := by
  obtain ⟨h1, h2, h3, h4⟩ := context_raw pre mid (body fs) c post hs hm (body_no_brace fs hv) hc hl
  refine ⟨h1, h2, h3, body fs, fs.foldl (put keyFirst) [], h4, process_body keyFirst _ [] hne hv ?_, ?_⟩
  · have := congrArg List.length hs
    simp only [List.length_append, List.length_cons, List.cons_append] at this
    omega
  · intro k n
    rw [holds_foldl keyFirst _ hk [] (by simp) k n]
    simp only [List.lookup_nil, reduceCtorEq, false_or]
    exact Iff.rfl

/-- Fields, and then any text. -/
theorem process_append (keyFirst : Bool) (rest : Text) (fs : List Field) : ∀ m, fs ≠ [] → (∀ f ∈ fs, f.Valid) → (body fs).length < 2 ^ 63 →
    processContext keyFirst m (body fs ++ ',' :: ' ' :: rest) = processContext keyFirst (fs.foldl (put keyFirst) m) rest := by
  induction fs with
  | nil => intro m h; exact absurd rfl h
  | cons f fs ih =>
    intro m _ hv hl
    have hf := hv f List.mem_cons_self
    have := field_length f hf
    have hd : ∀ r : Text, (f.text ++ ',' :: ' ' :: r).drop (f.text.length + 2) = r := by
      intro r
      rw [← List.drop_drop, List.drop_left]
      rfl
    cases fs with
    | nil =>
      simp only [body] at hl ⊢
      conv => lhs; unfold processContext
      rw [delimiter_here _ _ (field_delimiter f hf)]
      simp only
      rw [if_neg (by omega), if_neg (by simp), List.take_left, keyValue_field _ _ _ hf (by omega)]
      simp only [Res.bind]
      rw [hd]
      rfl
    | cons g fs =>
      have hb : body (f :: g :: fs) = f.text ++ ',' :: ' ' :: body (g :: fs) := by simp [body]
      rw [hb] at hl ⊢
      simp only [List.length_append, List.length_cons] at hl
      simp only [List.append_assoc, List.cons_append]
      conv => lhs; unfold processContext
      rw [delimiter_here _ _ (field_delimiter f hf)]
      simp only
      rw [if_neg (by omega), if_neg (by simp), List.take_left, keyValue_field _ _ _ hf (by omega)]
      simp only [Res.bind]
      rw [hd, ih _ (by simp) (fun f hf => hv f (List.mem_cons_of_mem _ hf)) (by omega)]
      rfl

theorem stoull_quote (n : Nat) (h : n < 2 ^ 64) : stoull (dec n ++ ['"']) = .val n := by
  unfold stoull dec
  have h1 := head_dec (decimal n) (decimal_lt n) (decimal_ne n) ['"']
  have h2 := digits_append (decimal n) (decimal_lt n) ['"']
  have h3 : digits 10 ['"'] = ([], ['"']) := by decide
  rw [h3, List.append_nil] at h2
  rw [h1]
  simp only [h2]
  rw [if_neg (decimal_ne n), decimal_number, if_neg (by omega)]
  simp

/-- The end of a string in quotes that looks like a field. -/
theorem process_forged (keyFirst : Bool) (m : IdMap) (k : Text) (n : Nat) (hk : k ≠ []) (hk1 : ' ' ∉ k) (hk2 : ',' ∉ k) (hn : n < 2 ^ 64)
    (hl : (k ++ ([' ', '=', ' '] ++ (dec n ++ ['"']))).length < 2 ^ 63) :
    processContext keyFirst m (k ++ ([' ', '=', ' '] ++ (dec n ++ ['"']))) = .ok (assign m k n) := by
  have hdel : delimiter (k ++ ([' ', '=', ' '] ++ (dec n ++ ['"']))) = none := by
    have hc : ',' ∉ k ++ ([' ', '=', ' '] ++ (dec n ++ ['"'])) := by
      simp only [List.mem_append, not_or]
      exact ⟨hk2, by decide, not_mem_dec (by decide) n, by decide⟩
    have := delimiter_skip _ [] hc
    rw [List.append_nil] at this
    rw [this]
    rfl
  have hd : dec n ≠ [] := by
    unfold dec
    intro h
    exact decimal_ne n (List.map_eq_nil_iff.mp h)
  generalize hv : dec n ++ ['"'] = v at *
  have hvl : 2 ≤ v.length := by
    rw [← hv]
    have := List.length_pos_iff.mpr hd
    simp only [List.length_append, List.length_singleton]
    omega
  have hkl := List.length_pos_iff.mpr hk
  have hlen : (k ++ ([' ', '=', ' '] ++ v)).length = k.length + 3 + v.length := by simp; omega
  unfold processContext
  rw [hdel]
  simp only
  rw [if_neg (by omega)]
  have hf : find (k ++ ([' ', '=', ' '] ++ v)) " = ".toList 0 = k.length := by
    unfold find
    rw [List.drop_zero]
    have := findIn_eq k v hk1 0
    rw [Nat.zero_add] at this
    exact this
  unfold keyValue
  simp only [hf]
  rw [substr_mid (s := k ++ ([' ', '=', ' '] ++ v)) (pos := 0) [] k ([' ', '=', ' '] ++ v) rfl rfl rfl]
  simp only [Res.bind]
  rw [add_small (by omega)]
  have hs : substr (k ++ ([' ', '=', ' '] ++ v)) (k.length + 3) npos = .ok v := by
    unfold substr
    rw [if_neg (by omega)]
    have : (k ++ ([' ', '=', ' '] ++ v)).drop (k.length + 3) = v := by
      rw [← List.append_assoc]
      have : k.length + 3 = (k ++ [' ', '=', ' ']).length := by simp
      rw [this, List.drop_left]
    rw [this, List.take_of_length_le]
    unfold npos
    omega
  rw [hs, ← hv]
  simp only
  rw [stoull_quote n hn]

/-! ## Any text -/

theorem ok_bind {α β : Type} (x : α) (f : α → Res β) : (Res.ok x).bind f = f x := rfl

theorem findIn_spec (w : Text) (hw : w ≠ []) : ∀ (s : Text) (i : Nat), findIn w s i = npos ∨ i ≤ findIn w s i ∧ findIn w s i + w.length ≤ i + s.length := by
  intro s
  induction s with
  | nil => intro i; left; cases w with
    | nil => exact absurd rfl hw
    | cons c w => simp [findIn]
  | cons c s ih =>
    intro i
    simp only [findIn]
    split
    · rename_i h
      right
      have := (List.isPrefixOf_iff_prefix.mp h).length_le
      omega
    · rcases ih (i + 1) with h | h
      · exact .inl h
      · right
        simp only [List.length_cons]
        omega

theorem find_spec (w : Text) (hw : w ≠ []) (s : Text) (pos : Nat) : find s w pos = npos ∨ pos ≤ find s w pos ∧ find s w pos + w.length ≤ s.length := by
  unfold find
  rcases findIn_spec w hw (s.drop pos) pos with h | h
  · exact .inl h
  · have h1 : w.length ≠ 0 := by simpa using hw
    rw [List.length_drop] at h
    right
    omega

theorem substr_infix {s : Text} {pos len : Nat} (h : pos ≤ s.length) : ∃ t, substr s pos len = .ok t ∧ t <:+: s := by
  unfold substr
  rw [if_neg (by omega)]
  exact ⟨_, rfl, (List.take_prefix _ _).isInfix.trans (List.drop_suffix _ _).isInfix⟩

/-- The result, or the exception, is explained by the text: only numbers that are out of range throw. -/
def Fine {α : Type} (s : Text) (r : Res α) : Prop :=
  (∃ x, r = .ok x) ∨ r = .throws "out_of_range" ∧ ∃ t, t <:+: s ∧ (stod t = .range ∨ stoull t = .range)

theorem Fine.bind {α β : Type} {s : Text} {r : Res α} {f : α → Res β} (h : Fine s r) (hf : ∀ x, r = .ok x → Fine s (f x)) : Fine s (r.bind f) := by
  rcases h with ⟨x, h⟩ | ⟨h, hb⟩
  · rw [h]; exact hf x h
  · rw [h]; exact .inr ⟨rfl, hb⟩

theorem Fine.mono {α : Type} {s t : Text} {r : Res α} (h : Fine s r) (hi : s <:+: t) : Fine t r := by
  rcases h with h | ⟨h, u, hu, hb⟩
  · exact .inl h
  · exact .inr ⟨h, u, hu.trans hi, hb⟩

theorem Fine.sub {α : Type} {s : Text} {pos len : Nat} {f : Text → Res α} (h : pos ≤ s.length) (hf : ∀ t, t <:+: s → Fine s (f t)) : Fine s ((substr s pos len).bind f) := by
  obtain ⟨t, ht, hi⟩ := substr_infix (len := len) h
  rw [ht]
  exact hf t hi

theorem keyValue_fine (keyFirst : Bool) (m : IdMap) (kv : Text) (h : 4 < kv.length) (hl : kv.length < 2 ^ 63) : Fine kv (keyValue keyFirst m kv) := by
  unfold keyValue
  have hp := find_spec " = ".toList (by decide) kv 0
  apply Fine.sub (Nat.zero_le _)
  intro key _
  apply Fine.sub
  · rcases hp with hp | ⟨_, hp⟩
    · rw [hp]
      have : add npos 3 = 2 := by decide
      omega
    · have h3 : " = ".toList.length = 3 := rfl
      rw [add_small (by omega)]
      omega
  intro value hv
  cases hs : stoull value with
  | val n => exact .inl ⟨_, rfl⟩
  | invalid => exact .inl ⟨_, rfl⟩
  | range => exact .inr ⟨rfl, value, hv, .inr hs⟩

theorem delimiter_lt {t : Text} {i : Nat} (h : delimiter t = some i) : i < t.length := by
  induction t generalizing i with
  | nil => simp [delimiter] at h
  | cons c t ih =>
    simp only [delimiter] at h
    split at h
    · cases h; simp
    · cases hd : delimiter t with
      | none => rw [hd] at h; simp at h
      | some j =>
        rw [hd] at h
        simp only [Option.map_some, Option.some.injEq] at h
        have := ih hd
        simp only [List.length_cons]
        omega

theorem processContext_fine (keyFirst : Bool) (m : IdMap) (rest : Text) (hl : rest.length < 2 ^ 63) : Fine rest (processContext keyFirst m rest) := by
  induction hn : rest.length using Nat.strongRecOn generalizing rest m with
  | ind n ih =>
    unfold processContext
    cases hd : delimiter rest with
    | none =>
      simp only
      split
      · exact .inl ⟨_, rfl⟩
      · exact keyValue_fine keyFirst m rest (by omega) hl
    | some i =>
      have hi := delimiter_lt hd
      simp only
      split
      · exact .inl ⟨_, rfl⟩
      · rename_i h4
        rw [if_neg (by omega)]
        have ht : (rest.take i).length = i := by rw [List.length_take]; omega
        apply Fine.bind
        · exact (keyValue_fine keyFirst m (rest.take i) (by omega) (by omega)).mono (List.take_prefix _ _).isInfix
        · intro m' _
          exact (ih _ (by rw [List.length_drop]; omega) m' (rest.drop (i + 2)) (by rw [List.length_drop]; omega) rfl).mono (List.drop_suffix _ _).isInfix

theorem parse_fine (keyFirst : Bool) (line : Text) (hl : line.length < 2 ^ 63) : Fine line (parse keyFirst line) := by
  have one : ∀ c : Char, [c] ≠ [] := fun c => by simp
  have at1 : ∀ (c : Char) (pos : Nat), find line [c] pos ≠ npos → pos ≤ find line [c] pos ∧ find line [c] pos + 1 ≤ line.length := by
    intro c pos h
    rcases find_spec [c] (one c) line pos with h' | h'
    · exact absurd h' h
    · exact h'
  have ctx : ∀ pos : Nat, ¬ (find line ['{'] pos = npos ∨ find line ['}'] (add (find line ['{'] pos) 1) = npos) → add (find line ['{'] pos) 2 ≤ line.length := by
    intro pos h
    rw [not_or] at h
    have h1 := at1 _ _ h.1
    have h2 := at1 _ _ h.2
    rw [add_small (by omega)] at h2 ⊢
    omega
  unfold parse
  simp only
  split
  · exact .inl ⟨_, rfl⟩
  split
  · exact .inl ⟨_, rfl⟩
  rename_i h1
  rw [not_or] at h1
  have := at1 _ _ h1.1
  refine Fine.sub (by rw [add_small (by omega)]; omega) ?_
  intro ts hts
  cases hst : stod ts with
  | invalid => exact .inl ⟨_, rfl⟩
  | range => exact .inr ⟨rfl, ts, hts, .inl hst⟩
  | val t =>
  simp only
  split
  · exact .inl ⟨_, rfl⟩
  rename_i h2
  rw [not_or] at h2
  have := at1 _ _ h2.1
  refine Fine.sub (by rw [add_small (by omega)]; omega) ?_
  intro host _
  split
  · exact .inl ⟨_, rfl⟩
  rename_i h3
  rw [not_or] at h3
  have := at1 _ _ h3.1
  refine Fine.sub (by rw [add_small (by omega)]; omega) ?_
  intro point hpoint
  split
  · exact .inl ⟨_, rfl⟩
  rename_i h4
  have h4' : find point [':'] 0 + 1 ≤ point.length := by
    rcases find_spec [':'] (one _) point 0 with h' | h'
    · exact absurd h' h4
    · exact h'.2
  have h5 := hpoint.length_le
  obtain ⟨domain, hdom, _⟩ := substr_infix (s := point) (pos := 0) (len := find point [':'] 0) (Nat.zero_le _)
  rw [hdom, ok_bind]
  obtain ⟨name, hname, _⟩ := substr_infix (s := point) (pos := add (find point [':'] 0) 1) (len := sub point.length (find point [':'] 0)) (by rw [add_small (by omega)]; omega)
  rw [hname, ok_bind]
  split
  · exact .inl ⟨_, rfl⟩
  rename_i h6
  refine Fine.sub (ctx _ h6) ?_
  intro text1 ht1
  split
  · exact .inl ⟨_, rfl⟩
  rename_i h7
  refine Fine.sub (ctx _ h7) ?_
  intro text2 ht2
  split
  · exact .inl ⟨_, rfl⟩
  rename_i h8
  refine Fine.sub (ctx _ h8) ?_
  intro text3 ht3
  have hc : ∀ t, t <:+: line → Fine line (processContext keyFirst [] t) := fun t ht =>
    (processContext_fine keyFirst [] t (lt_of_le_of_lt ht.length_le hl)).mono ht
  refine Fine.bind (hc _ ht1) ?_
  intro stream _
  refine Fine.bind (hc _ ht2) ?_
  intro context _
  refine Fine.bind (hc _ ht3) ?_
  intro data _
  exact .inl ⟨_, rfl⟩

end Scalopus.Ctf
