import Verif.Model.Bson

/-!
# C126: queries and answers arrive as they were sent

What `to_bson` writes is read back by `from_bson` as the same value, whatever bytes its strings hold; what cannot be written is known, and neither a part of a message nor a message with something behind it is taken
for a message. The reader's stack bounds the nesting of what it can read.
-/

namespace Scalopus.C126

open Bson

/-! ## Specification -/

/-- What the writer takes: integers of 64 bits, names without zero bytes. -/
inductive Writable : Val → Prop where
  | null : Writable .null
  | bool (b : Bool) : Writable (.bool b)
  | int (n : Int) : -2 ^ 63 ≤ n → n < 2 ^ 63 → Writable (.int n)
  | dbl (d : UInt64) : Writable (.dbl d)
  | str (s : Bytes) : Writable (.str s)
  | arr (l : List Val) : (∀ v ∈ l, Writable v) → Writable (.arr l)
  | obj (l : List (Bytes × Val)) : (∀ p ∈ l, (0 : UInt8) ∉ p.1) → (∀ p ∈ l, Writable p.2) → Writable (.obj l)

/-- What arrives: values of at most `n` nested documents, with integers of 64 bits, strings of less than two gigabytes, and names that are different and without zero bytes. -/
inductive Plain : Nat → Val → Prop where
  | null (n : Nat) : Plain n .null
  | bool (n : Nat) (b : Bool) : Plain n (.bool b)
  | int (n : Nat) (i : Int) : -2 ^ 63 ≤ i → i < 2 ^ 63 → Plain n (.int i)
  | dbl (n : Nat) (d : UInt64) : Plain n (.dbl d)
  | str (n : Nat) (s : Bytes) : s.length + 1 < 2 ^ 31 → Plain n (.str s)
  | arr (n : Nat) (l : List Val) : (∀ v ∈ l, Plain n v) → Plain (n + 1) (.arr l)
  | obj (n : Nat) (l : List (Bytes × Val)) : (∀ p ∈ l, (0 : UInt8) ∉ p.1) → (l.map Prod.fst).Nodup → (∀ p ∈ l, Plain n p.2) → Plain (n + 1) (.obj l)

/-! ## Lemmas -/

theorem little_length (k n : Nat) : (little k n).length = k := by
  induction k generalizing n with
  | zero => rfl
  | succ k ih => simp [little, ih]

theorem ofLittle_little (k n : Nat) : ofLittle (little k n) = n % 256 ^ k := by
  induction k generalizing n with
  | zero => simp [little, ofLittle, Nat.mod_one]
  | succ k ih =>
    simp only [little, ofLittle, ih]
    have h : (UInt8.ofNat (n % 256)).toNat = n % 256 := by simp
    rw [h, Nat.pow_succ, Nat.mul_comm (256 ^ k) 256, Nat.mod_mul]

theorem ofSigned_signed4 (n : Int) (h1 : -2 ^ 31 ≤ n) (h2 : n < 2 ^ 31) : ofSigned (signed 4 n) = n := by
  unfold ofSigned signed
  rw [ofLittle_little, little_length]
  have e : (256 : Nat) ^ 4 = 4294967296 := by decide
  have e' : (256 : Int) ^ 4 = 4294967296 := by decide
  rw [e, e', Nat.mod_eq_of_lt (by omega)]
  split <;> omega

theorem ofSigned_signed8 (n : Int) (h1 : -2 ^ 63 ≤ n) (h2 : n < 2 ^ 63) : ofSigned (signed 8 n) = n := by
  unfold ofSigned signed
  rw [ofLittle_little, little_length]
  have e : (256 : Nat) ^ 8 = 18446744073709551616 := by decide
  have e' : (256 : Int) ^ 8 = 18446744073709551616 := by decide
  rw [e, e', Nat.mod_eq_of_lt (by omega)]
  split <;> omega

theorem take_append (a b : Bytes) (k : Nat) (h : a.length = k) : take k (a ++ b) = some (a, b) := by
  subst h
  simp [take]

theorem cstring_append (k b : Bytes) (h : (0 : UInt8) ∉ k) : cstring (k ++ 0 :: b) = some (k, b) := by
  induction k with
  | nil => simp [cstring]
  | cons x k ih =>
    have hx : x ≠ 0 := fun e => h (by simp [e])
    have hk : (0 : UInt8) ∉ k := fun e => h (by simp [e])
    simp [cstring, hx, ih hk]

theorem digitChar_toNat : ∀ n < 10, (Nat.digitChar n).toNat ≠ 0 ∧ (Nat.digitChar n).toNat < 256 := by decide

theorem toDigitsCore_good (fuel n : Nat) (acc : List Char) (h : ∀ c ∈ acc, c.toNat ≠ 0 ∧ c.toNat < 256) :
    ∀ c ∈ Nat.toDigitsCore 10 fuel n acc, c.toNat ≠ 0 ∧ c.toNat < 256 := by
  induction fuel generalizing n acc with
  | zero => simpa [Nat.toDigitsCore] using h
  | succ fuel ih =>
    have h' : ∀ c ∈ Nat.digitChar (n % 10) :: acc, c.toNat ≠ 0 ∧ c.toNat < 256 := by
      intro c hc
      rcases List.mem_cons.1 hc with hc | hc
      · rw [hc]; exact digitChar_toNat _ (Nat.mod_lt _ (by decide))
      · exact h c hc
    unfold Nat.toDigitsCore
    simp only
    split
    · exact h'
    · exact ih _ _ h'

theorem digits_good (n : Nat) : (0 : UInt8) ∉ digits n := by
  intro h
  simp only [digits, List.mem_map] at h
  obtain ⟨c, hc, h⟩ := h
  obtain ⟨h1, h2⟩ := toDigitsCore_good _ _ [] (by simp) c hc
  have := congrArg UInt8.toNat h
  simp at this
  omega

theorem little4_signed (n : Nat) (h : n < 2 ^ 31) : ofSigned (little 4 n) = n := by
  have := ofSigned_signed4 n (by omega) (by omega)
  unfold signed at this
  have e' : (256 : Int) ^ 4 = 4294967296 := by decide
  rw [e', show ((n : Int) % 4294967296).toNat = n by omega] at this
  exact this

/-! ## Reading back -/

/-- What reading one element at the front of a list does. -/
def One (n : Nat) (v : Val) : Prop :=
  ∀ (k : Bytes) (fuel : Nat) (rest : Bytes), (0 : UInt8) ∉ k → (value v).length ≤ fuel →
    list n (fuel + 1) (tag v :: (k ++ 0 :: (value v ++ rest))) =
      match list n fuel rest with
      | .ok (l, b) => .ok ((k, v) :: l, b)
      | r => r

theorem one_scalar (n : Nat) (v : Val) (ht : tag v ≠ 0) (h : ∀ rest : Bytes, scalar (tag v) (value v ++ rest) = some (some (v, rest))) : One n v := by
  intro k fuel rest hk _
  rw [list]
  simp only [ht, if_false, cstring_append k _ hk, h]
  rfl

theorem read_fields (n : Nat) (l : List (Bytes × Val)) (hk : ∀ p ∈ l, (0 : UInt8) ∉ p.1) (ih : ∀ p ∈ l, One n p.2) (fuel : Nat) (rest : Bytes)
    (hf : (fields l).length < fuel) : list n fuel (fields l ++ 0 :: rest) = .ok (l, rest) := by
  induction l generalizing fuel with
  | nil =>
    obtain ⟨f, rfl⟩ : ∃ f, fuel = f + 1 := ⟨fuel - 1, by simp [fields] at hf; omega⟩
    simp [fields, list]
  | cons p l ihl =>
    obtain ⟨k, v⟩ := p
    obtain ⟨f, rfl⟩ : ∃ f, fuel = f + 1 := ⟨fuel - 1, by omega⟩
    simp only [fields, List.length_append, List.length_cons] at hf
    have h := ih (k, v) (by simp) k f (fields l ++ 0 :: rest) (hk (k, v) (by simp)) (by simp only; omega)
    have e : fields ((k, v) :: l) ++ 0 :: rest = tag v :: (k ++ 0 :: (value v ++ (fields l ++ 0 :: rest))) := by simp [fields]
    rw [e, h, ihl (fun p hp => hk p (by simp [hp])) (fun p hp => ih p (by simp [hp])) f (by omega)]

theorem read_elements (n : Nat) (l : List Val) (ih : ∀ v ∈ l, One n v) (i : Nat) (fuel : Nat) (rest : Bytes)
    (hf : (elements i l).length < fuel) : ∃ inner, list n fuel (elements i l ++ 0 :: rest) = .ok (inner, rest) ∧ inner.map Prod.snd = l := by
  induction l generalizing fuel i with
  | nil =>
    obtain ⟨f, rfl⟩ : ∃ f, fuel = f + 1 := ⟨fuel - 1, by simp [elements] at hf; omega⟩
    exact ⟨[], by simp [elements, list], rfl⟩
  | cons v l ihl =>
    obtain ⟨f, rfl⟩ : ∃ f, fuel = f + 1 := ⟨fuel - 1, by omega⟩
    simp only [elements, List.length_append, List.length_cons] at hf
    have h := ih v (by simp) (digits i) f (elements (i + 1) l ++ 0 :: rest) (digits_good i) (by omega)
    obtain ⟨inner, h1, h2⟩ := ihl (fun p hp => ih p (by simp [hp])) (i + 1) f (by omega)
    have e : elements i (v :: l) ++ 0 :: rest = tag v :: (digits i ++ 0 :: (value v ++ (elements (i + 1) l ++ 0 :: rest))) := by simp [elements]
    rw [e, h, h1]
    exact ⟨(digits i, v) :: inner, rfl, by simp [h2]⟩

theorem put_new (acc : List (Bytes × Val)) (k : Bytes) (v : Val) (h : k ∉ acc.map Prod.fst) : put acc k v = acc ++ [(k, v)] := by
  induction acc with
  | nil => rfl
  | cons p acc ih =>
    obtain ⟨k', v'⟩ := p
    have h1 : k' ≠ k := fun e => h (by simp [e])
    have h2 : k ∉ acc.map Prod.fst := fun e => h (by rw [List.map_cons]; exact List.mem_cons_of_mem _ e)
    simp [put, h1, ih h2]

theorem putAll_distinct (l : List (Bytes × Val)) (h : (l.map Prod.fst).Nodup) : putAll l = l := by
  have key : ∀ (l acc : List (Bytes × Val)), ((acc ++ l).map Prod.fst).Nodup → l.foldl (fun m p => put m p.1 p.2) acc = acc ++ l := by
    intro l
    induction l with
    | nil => intro acc _; simp
    | cons p l ih =>
      intro acc h
      obtain ⟨k, v⟩ := p
      have hk : k ∉ acc.map Prod.fst := by
        rw [List.map_append, List.nodup_append] at h
        intro hm
        exact h.2.2 k hm k (by simp) rfl
      rw [List.foldl_cons, put_new acc k v hk, ih _ (by simpa using h)]
      simp
  simpa [putAll] using key l [] (by simpa using h)

theorem one (n : Nat) (v : Val) (h : Plain n v) : One n v := by
  induction h with
  | null n => exact one_scalar n _ (by simp [tag]) (fun rest => by simp [tag, value, scalar])
  | bool n b => exact one_scalar n _ (by simp [tag]) (fun rest => by
      cases b <;> simp [tag, value, scalar, take])
  | int n i h1 h2 =>
    apply one_scalar n
    · simp only [tag]; split <;> decide
    · intro rest
      simp only [tag, value]
      split
      · rename_i h
        simp [scalar, take_append (signed 4 i) rest 4 (by simp [signed, little_length]), ofSigned_signed4 i h.1 h.2]
      · simp [scalar, take_append (signed 8 i) rest 8 (by simp [signed, little_length]), ofSigned_signed8 i h1 h2]
  | dbl n d =>
    apply one_scalar n
    · simp [tag]
    · intro rest
      have h1 : d.toNat % 256 ^ 8 = d.toNat := Nat.mod_eq_of_lt (by have := d.toNat_lt; omega)
      simp [tag, value, scalar, take_append (little 8 d.toNat) rest 8 (little_length _ _), ofLittle_little, h1]
  | str n s h =>
    apply one_scalar n
    · simp [tag]
    · intro rest
      have e : value (.str s) ++ rest = little 4 (s.length + 1) ++ (s ++ ([0] ++ rest)) := by simp [value]
      have h2 : ¬ ((s.length + 1 : Nat) : Int) < 1 := by omega
      have h3 : ((s.length + 1 : Nat) : Int).toNat - 1 = s.length := by omega
      rw [e]
      simp only [tag, scalar]
      rw [take_append (little 4 (s.length + 1)) _ 4 (little_length _ _)]
      simp only [show ¬ ((2 : UInt8) = 1) by decide, if_false, if_true, Option.bind_some, little4_signed _ h, h2, h3]
      rw [take_append s _ _ rfl]
      simp only [Option.bind_some]
      rw [take_append [0] rest 1 rfl]
      rfl
  | arr n l h ih =>
    intro k fuel rest hk hf
    simp only [value, document, List.length_append, little_length] at hf
    obtain ⟨inner, h1, h2⟩ := read_elements n l ih 0 fuel rest (by omega)
    have e : value (.arr l) ++ rest = little 4 ((elements 0 l).length + 5) ++ (elements 0 l ++ 0 :: rest) := by simp [value, document]
    rw [e, list]
    simp only [tag, show ¬ ((4 : UInt8) = 0) by decide, if_false, cstring_append k _ hk, show ∀ b, scalar 4 b = none from fun b => by simp [scalar], or_true, if_true,
      take_append (little 4 ((elements 0 l).length + 5)) _ 4 (little_length _ _), h1, h2, show ¬ ((4 : UInt8) = 3) by decide]
    rfl
  | obj n l hk hn h ih =>
    intro k fuel rest hk' hf
    simp only [value, document, List.length_append, little_length] at hf
    have h1 := read_fields n l hk ih fuel rest (by omega)
    have e : value (.obj l) ++ rest = little 4 ((fields l).length + 5) ++ (fields l ++ 0 :: rest) := by simp [value, document]
    rw [e, list]
    simp only [tag, show ¬ ((3 : UInt8) = 0) by decide, if_false, cstring_append k _ hk', show ∀ b, scalar 3 b = none from fun b => by simp [scalar], true_or, if_true,
      take_append (little 4 ((fields l).length + 5)) _ 4 (little_length _ _), h1, putAll_distinct l hn]
    rfl

/-! ## Theorems about writing -/

mutual
theorem faulty_iff : ∀ v : Val, faulty v = false ↔ Writable v
  | .null => by simp [faulty, Writable.null]
  | .bool b => by simp [faulty, Writable.bool]
  | .dbl b => by simp [faulty, Writable.dbl]
  | .str b => by simp [faulty, Writable.str]
  | .int n => by
    constructor
    · intro h
      simp [faulty] at h
      exact .int n h.1 h.2
    · intro h
      cases h with
      | int _ h1 h2 => simp [faulty]; exact ⟨h1, h2⟩
  | .arr l => by
    rw [faulty, faultyElements_iff l]
    constructor
    · exact .arr l
    · intro h
      cases h with
      | arr _ h => exact h
  | .obj l => by
    rw [faulty, faultyFields_iff l]
    constructor
    · intro h
      exact .obj l (fun p hp => (h p hp).1) (fun p hp => (h p hp).2)
    · intro h
      cases h with
      | obj _ h1 h2 => exact fun p hp => ⟨h1 p hp, h2 p hp⟩
theorem faultyElements_iff : ∀ l : List Val, faultyElements l = false ↔ ∀ v ∈ l, Writable v
  | [] => by simp [faultyElements]
  | v :: l => by simp [faultyElements, faulty_iff v, faultyElements_iff l]
theorem faultyFields_iff : ∀ l : List (Bytes × Val), faultyFields l = false ↔ ∀ p ∈ l, (0 : UInt8) ∉ p.1 ∧ Writable p.2
  | [] => by simp [faultyFields]
  | (k, v) :: l => by
    simp [faultyFields, faulty_iff v, faultyFields_iff l, and_assoc]
end

theorem Plain.writable {n : Nat} {v : Val} (h : Plain n v) : Writable v := by
  induction h with
  | null => exact .null
  | bool _ b => exact .bool b
  | int _ i h1 h2 => exact .int i h1 h2
  | dbl _ d => exact .dbl d
  | str _ s _ => exact .str s
  | arr _ l _ ih => exact .arr l ih
  | obj _ l hk _ _ ih => exact .obj l hk ih

/-- Exactly the objects with integers of 64 bits and names without zero bytes can be written. -/
theorem written_iff (v : Val) : (∃ b, encode v = .ok b) ↔ Writable v ∧ ∃ l, v = .obj l := by
  constructor
  · rintro ⟨b, h⟩
    cases v with
    | obj l =>
      simp only [encode] at h
      cases hf : faultyFields l with
      | true => simp [hf] at h
      | false => exact ⟨(faulty_iff (.obj l)).1 (by simpa [faulty] using hf), l, rfl⟩
    | _ => simp [encode] at h
  · rintro ⟨h, l, rfl⟩
    have hf := (faulty_iff (.obj l)).2 h
    rw [faulty] at hf
    exact ⟨_, by simp [encode, hf]; rfl⟩

/-- What cannot be written is reported by an exception. -/
theorem refused (v : Val) (h : ¬ (Writable v ∧ ∃ l, v = .obj l)) : ∃ e, encode v = .throws e := by
  cases he : encode v with
  | ok b => exact absurd ((written_iff v).1 ⟨b, he⟩) h
  | throws e => exact ⟨e, rfl⟩
  | ub =>
    exfalso
    cases v with
    | obj l => simp only [encode] at he; split at he <;> cases he
    | _ => simp [encode] at he
  | terminate =>
    exfalso
    cases v with
    | obj l => simp only [encode] at he; split at he <;> cases he
    | _ => simp [encode] at he

/-! ## What was written is read back -/

/-- Every value whose nesting the reader's stack has room for is read back as it was written, whatever bytes its strings hold. -/
theorem read_back (stack : Nat) (v : Val) (h : Plain (stack + 1) v) (b : Bytes) (hb : encode v = .ok b) : decode stack b = .ok v := by
  obtain ⟨_, l, rfl⟩ := (written_iff v).1 ⟨b, hb⟩
  simp only [encode] at hb
  split at hb
  · cases hb
  · injection hb with hb
    subst hb
    cases h with
    | obj _ _ hk hn hp =>
      have e : document (fields l) = little 4 ((fields l).length + 5) ++ (fields l ++ [0]) := by simp [document]
      rw [decode, e, take_append _ _ 4 (little_length _ _)]
      simp only
      rw [read_fields stack l hk (fun p hm => one _ _ (hp p hm)) _ [] (by simp; omega)]
      simp only [putAll_distinct l hn]

/-- Different values have different encodings. -/
theorem injective (n : Nat) (v w : Val) (hv : Plain (n + 1) v) (hw : Plain (n + 1) w) (b : Bytes) (h1 : encode v = .ok b) (h2 : encode w = .ok b) : v = w := by
  have a := read_back n v hv b h1
  rw [read_back n w hw b h2] at a
  injection a with a
  exact a.symm

/-! ## Parts of messages, and messages with something behind them -/

theorem take_more {k : Nat} {b p q : Bytes} (x : Bytes) (h : take k b = some (p, q)) : take k (b ++ x) = some (p, q ++ x) := by
  unfold take at h ⊢
  split at h
  · cases h
  · rename_i hk
    injection h with h
    injection h with h1 h2
    have hk' : ¬ (b ++ x).length < k := by rw [List.length_append]; omega
    rw [if_neg hk', ← h1, ← h2, List.take_append_of_le_length (by omega), List.drop_append_of_le_length (by omega)]

theorem cstring_more {b p q : Bytes} (x : Bytes) (h : cstring b = some (p, q)) : cstring (b ++ x) = some (p, q ++ x) := by
  induction b generalizing p q with
  | nil => simp [cstring] at h
  | cons c b ih =>
    by_cases hc : c = 0
    · simp [cstring, hc] at h ⊢
      exact ⟨h.1, by rw [h.2]⟩
    · simp only [cstring, hc, if_false, List.cons_append] at h ⊢
      cases hr : cstring b with
      | none => simp [hr] at h
      | some r =>
        obtain ⟨r1, r2⟩ := r
        simp only [hr, Option.map_some, Option.some.injEq, Prod.mk.injEq] at h
        rw [ih hr]
        simp [h.1, h.2]

theorem scalar_none {t : UInt8} {b : Bytes} (x : Bytes) (h : scalar t b = none) : scalar t x = none := by
  unfold scalar at h ⊢
  repeat' split at h
  all_goals first | (simp at h; done) | simp [*]

theorem scalar_more {t : UInt8} {b q : Bytes} {v : Val} (x : Bytes) (h : scalar t b = some (some (v, q))) : scalar t (b ++ x) = some (some (v, q ++ x)) := by
  have one : ∀ (k : Nat) (f : Bytes → Val), (take k b).map (fun p => (f p.1, p.2)) = some (v, q) → (take k (b ++ x)).map (fun p => (f p.1, p.2)) = some (v, q ++ x) := by
    intro k f h
    cases hr : take k b with
    | none => simp [hr] at h
    | some r =>
      obtain ⟨r1, r2⟩ := r
      simp only [hr, Option.map_some, Option.some.injEq, Prod.mk.injEq] at h
      rw [take_more x hr]
      simp [h.1, h.2]
  unfold scalar at h ⊢
  repeat' split at h
  · rename_i h1
    rw [if_pos h1]
    injection h with h
    rw [one 8 (fun p => .dbl (UInt64.ofNat (ofLittle p))) h]
  · rename_i h1 h2
    rw [if_neg h1, if_pos h2]
    injection h with h
    congr 1
    cases hr : take 4 b with
    | none => simp [hr] at h
    | some r =>
      obtain ⟨r1, r2⟩ := r
      rw [take_more x hr]
      simp only [hr, Option.bind_some] at h ⊢
      split at h
      · cases h
      · rename_i hn
        rw [if_neg hn]
        cases hs : take ((ofSigned r1).toNat - 1) r2 with
        | none => simp [hs] at h
        | some s =>
          obtain ⟨s1, s2⟩ := s
          rw [take_more x hs]
          simp only [hs, Option.bind_some] at h ⊢
          cases hu : take 1 s2 with
          | none => simp [hu] at h
          | some u =>
            obtain ⟨u1, u2⟩ := u
            rw [take_more x hu]
            simp only [hu, Option.map_some, Option.some.injEq, Prod.mk.injEq] at h ⊢
            exact ⟨h.1, by rw [h.2]⟩
  · rename_i h1 h2 h3
    rw [if_neg h1, if_neg h2, if_pos h3]
    injection h with h
    rw [one 1 (fun p => .bool (p != [0])) h]
  · simp_all
  · rename_i h1 h2 h3 h4 h5
    rw [if_neg h1, if_neg h2, if_neg h3, if_neg h4, if_pos h5]
    injection h with h
    rw [one 4 (fun p => .int (ofSigned p)) h]
  · rename_i h1 h2 h3 h4 h5 h6
    rw [if_neg h1, if_neg h2, if_neg h3, if_neg h4, if_neg h5, if_pos h6]
    injection h with h
    rw [one 8 (fun p => .int (ofSigned p)) h]
  · cases h

theorem list_more (fuel : Nat) : ∀ (stack fuel' : Nat) (b x : Bytes), fuel ≤ fuel' →
    (∀ l r, list stack fuel b = .ok (l, r) → list stack fuel' (b ++ x) = .ok (l, r ++ x)) ∧ (list stack fuel b = .ub → list stack fuel' (b ++ x) = .ub) := by
  induction fuel with
  | zero => intro stack fuel' b x _; constructor <;> intros <;> simp_all [list]
  | succ fuel ih =>
    intro stack fuel' b x hf
    obtain ⟨f, rfl⟩ : ∃ f, fuel' = f + 1 := ⟨fuel' - 1, by omega⟩
    have ih := fun (s : Nat) (b : Bytes) => ih s f b x (by omega)
    cases b with
    | nil => constructor <;> intros <;> simp_all [list]
    | cons t b =>
      rw [List.cons_append, list, list]
      by_cases ht : t = 0
      · simp [ht]
      simp only [ht, if_false]
      cases hc : cstring b with
      | none => simp
      | some c =>
        obtain ⟨k, b1⟩ := c
        rw [cstring_more x hc]
        simp only
        cases hs : scalar t b1 with
        | none =>
          rw [scalar_none (b1 ++ x) hs]
          simp only
          by_cases hd : t = 3 ∨ t = 4
          · simp only [hd, if_true]
            cases stack with
            | zero => simp
            | succ stack =>
              simp only
              cases hk : take 4 b1 with
              | none => simp
              | some p =>
                obtain ⟨p1, b2⟩ := p
                rw [take_more x hk]
                simp only
                cases hi : list stack fuel b2 with
                | fail => simp
                | ub => simp [(ih stack b2).2 hi]
                | ok y =>
                  obtain ⟨inner, b3⟩ := y
                  rw [(ih stack b2).1 inner b3 hi]
                  simp only
                  cases hl : list (stack + 1) fuel b3 with
                  | fail => simp
                  | ub => simp [(ih (stack + 1) b3).2 hl]
                  | ok z =>
                    obtain ⟨l', b4⟩ := z
                    rw [(ih (stack + 1) b3).1 l' b4 hl]
                    simp
          · simp [hd]
        | some o =>
          cases o with
          | none => simp
          | some y =>
            obtain ⟨v, b2⟩ := y
            rw [scalar_more x hs]
            simp only
            cases hl : list stack fuel b2 with
            | fail => simp
            | ub => simp [(ih stack b2).2 hl]
            | ok z =>
              obtain ⟨l', b4⟩ := z
              rw [(ih stack b2).1 l' b4 hl]
              simp

/-- A message with something behind it is an error, whoever wrote it. -/
theorem longer_fails (stack : Nat) (b : Bytes) (v : Val) (h : decode stack b = .ok v) (x : Bytes) (hx : x ≠ []) : decode stack (b ++ x) = .fail := by
  unfold decode at h ⊢
  cases hk : take 4 b with
  | none => simp [hk] at h
  | some p =>
    obtain ⟨p1, r⟩ := p
    rw [take_more x hk]
    simp only [hk] at h ⊢
    cases hl : list stack (r.length + 1) r with
    | fail => simp [hl] at h
    | ub => simp [hl] at h
    | ok z =>
      obtain ⟨l, r'⟩ := z
      cases r' with
      | cons c r' => simp [hl] at h
      | nil =>
        rw [(list_more _ stack ((r ++ x).length + 1) r x (by simp)).1 l [] hl]
        cases x with
        | nil => exact absurd rfl hx
        | cons c x => rfl

/-- A part of a message is an error, and nothing worse, wherever it is cut off. -/
theorem shorter_fails (stack : Nat) (b x : Bytes) (v : Val) (h : decode stack (b ++ x) = .ok v) (hx : x ≠ []) : decode stack b = .fail := by
  cases hb : decode stack b with
  | fail => rfl
  | ok w => rw [longer_fails stack b w hb x hx] at h; cases h
  | ub =>
    exfalso
    unfold decode at h hb
    cases hk : take 4 b with
    | none => simp [hk] at hb
    | some p =>
      obtain ⟨p1, r⟩ := p
      rw [take_more x hk] at h
      simp only [hk] at h hb
      have : list stack (r.length + 1) r = .ub := by
        cases hl : list stack (r.length + 1) r with
        | ub => rfl
        | fail => simp [hl] at hb
        | ok z =>
          obtain ⟨l, r'⟩ := z
          cases r' <;> simp [hl] at hb
      rw [(list_more _ stack ((r ++ x).length + 1) r x (by simp)).2 this] at h
      cases h

/-- What was written arrives whole or is an error: no part of it but the whole, and nothing longer than it, is taken for a message. -/
theorem whole_or_error (stack : Nat) (v : Val) (h : Plain (stack + 1) v) (b : Bytes) (hb : encode v = .ok b) :
    decode stack b = .ok v ∧ (∀ k < b.length, decode stack (b.take k) = .fail) ∧ ∀ x, x ≠ [] → decode stack (b ++ x) = .fail := by
  have hr := read_back stack v h b hb
  refine ⟨hr, fun k hk => ?_, fun x hx => longer_fails stack b v hr x hx⟩
  refine shorter_fails stack (b.take k) (b.drop k) v (by rw [List.take_append_drop]; exact hr) ?_
  intro e
  have := congrArg List.length e
  simp at this
  omega

/-- Strings of two gigabytes and more are written, with a length that the reader takes for a negative one. -/
theorem long_strings_lost (stack : Nat) (k s : Bytes) (hk : (0 : UInt8) ∉ k) (h1 : 2 ^ 31 ≤ s.length + 1) (h2 : s.length + 1 < 2 ^ 32) :
    ∃ b, encode (.obj [(k, .str s)]) = .ok b ∧ decode stack b = .fail := by
  obtain ⟨b, hb⟩ := (written_iff (.obj [(k, .str s)])).2 ⟨.obj _ (by simpa using hk) (by simpa using .str s), _, rfl⟩
  refine ⟨b, hb, ?_⟩
  simp only [encode] at hb
  split at hb
  · cases hb
  · injection hb with hb
    subst hb
    have e : document (fields [(k, .str s)]) = little 4 ((fields [(k, .str s)]).length + 5) ++ (2 :: (k ++ 0 :: (little 4 (s.length + 1) ++ (s ++ [0, 0])))) := by
      simp [document, fields, tag, value]
    rw [decode, e, take_append _ _ 4 (little_length _ _)]
    have e' : (256 : Nat) ^ 4 = 4294967296 := by decide
    have hn : ofSigned (little 4 (s.length + 1)) < 1 := by
      unfold ofSigned
      rw [ofLittle_little, little_length, e', Nat.mod_eq_of_lt (by omega), if_neg (by omega)]
      have e2 : (256 : Int) ^ 4 = 4294967296 := by decide
      rw [e2]
      omega
    simp [list, cstring_append k _ hk, scalar, take_append _ _ 4 (little_length _ _), hn]

/-! ## Examples -/

/-- An object of an array with numbers and a string with a zero byte and bytes that are no text. -/
def sample : Val := .obj [([97], .arr [.int (-3), .int 5000000000, .str [0, 255], .null]), ([98], .obj [([], .bool true)])]

example : Plain 3 sample := by
  refine .obj 2 _ (by decide) (by decide) ?_
  intro p hp
  simp only [List.mem_cons, List.not_mem_nil, or_false] at hp
  rcases hp with rfl | rfl
  · refine .arr 1 _ ?_
    intro v hv
    simp only [List.mem_cons, List.not_mem_nil, or_false] at hv
    rcases hv with rfl | rfl | rfl | rfl
    · exact .int _ _ (by decide) (by decide)
    · exact .int _ _ (by decide) (by decide)
    · exact .str _ _ (by decide)
    · exact .null _
  · refine .obj 1 _ (by decide) (by decide) ?_
    intro p hp
    simp only [List.mem_cons, List.not_mem_nil, or_false] at hp
    rw [hp]
    exact .bool _ _

example : ∃ b, encode sample = .ok b ∧ b.length = 55 := ⟨_, rfl, by decide +kernel⟩

end Scalopus.C126
