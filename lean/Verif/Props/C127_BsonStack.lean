import Verif.Props.C126_Bson

/-!
# C127: no message makes the reader run out of stack

The reader of queries and answers calls itself for every nested document and has no limit for it: a message of six bytes for every level that the stack has room for ends the process, and no shorter one does.
-/

namespace Scalopus.C127

open Bson

/-! ## Specification -/

/-- Whatever the bytes: reading them yields a value or an error. -/
def NeverOverflows (stack : Nat) : Prop := ∀ b : Bytes, decode stack b ≠ .ub

/-! ## Lemmas -/

theorem take_length {k : Nat} {b p q : Bytes} (h : take k b = some (p, q)) : q.length + k = b.length := by
  unfold take at h
  split at h
  · cases h
  · injection h with h
    injection h with h1 h2
    rw [← h2, List.length_drop]
    omega

theorem cstring_length {b p q : Bytes} (h : cstring b = some (p, q)) : q.length + 1 ≤ b.length := by
  induction b generalizing p with
  | nil => simp [cstring] at h
  | cons c b ih =>
    by_cases hc : c = 0
    · simp [cstring, hc] at h
      simp [h.2]
    · simp only [cstring, hc, if_false] at h
      cases hr : cstring b with
      | none => simp [hr] at h
      | some r =>
        obtain ⟨r1, r2⟩ := r
        simp only [hr, Option.map_some, Option.some.injEq, Prod.mk.injEq] at h
        have := ih (p := r1) (by rw [hr, h.2])
        simp
        omega

theorem scalar_length {t : UInt8} {b q : Bytes} {v : Val} (h : scalar t b = some (some (v, q))) : q.length ≤ b.length := by
  have one : ∀ (k : Nat) (f : Bytes → Val), (take k b).map (fun p => (f p.1, p.2)) = some (v, q) → q.length ≤ b.length := by
    intro k f h
    cases hr : take k b with
    | none => simp [hr] at h
    | some r =>
      obtain ⟨r1, r2⟩ := r
      simp only [hr, Option.map_some, Option.some.injEq, Prod.mk.injEq] at h
      have := take_length hr
      rw [h.2] at this
      omega
  unfold scalar at h
  repeat' split at h
  · injection h with h
    exact one 8 (fun p => .dbl (UInt64.ofNat (ofLittle p))) h
  · injection h with h
    cases hr : take 4 b with
    | none => simp [hr] at h
    | some r =>
      obtain ⟨r1, r2⟩ := r
      simp only [hr, Option.bind_some] at h
      split at h
      · cases h
      · cases hs : take ((ofSigned r1).toNat - 1) r2 with
        | none => simp [hs] at h
        | some s =>
          obtain ⟨s1, s2⟩ := s
          simp only [hs, Option.bind_some] at h
          cases hu : take 1 s2 with
          | none => simp [hu] at h
          | some u =>
            obtain ⟨u1, u2⟩ := u
            simp only [hu, Option.map_some, Option.some.injEq, Prod.mk.injEq] at h
            have a1 := take_length hr
            have a2 := take_length hs
            have a3 := take_length hu
            rw [h.2] at a3
            omega
  · injection h with h
    exact one 1 (fun p => .bool (p != [0])) h
  · simp at h
    simp [h.2]
  · injection h with h
    exact one 4 (fun p => .int (ofSigned p)) h
  · injection h with h
    exact one 8 (fun p => .int (ofSigned p)) h
  · cases h

theorem list_length (fuel : Nat) : ∀ (stack : Nat) (b : Bytes),
    (∀ l r, list stack fuel b = .ok (l, r) → r.length < b.length) ∧ (list stack fuel b = .ub → 6 * stack + 2 ≤ b.length) := by
  induction fuel with
  | zero => intro stack b; constructor <;> intros <;> simp_all [list]
  | succ fuel ih =>
    intro stack b
    cases b with
    | nil => constructor <;> intros <;> simp_all [list]
    | cons t b =>
      rw [list]
      by_cases ht : t = 0
      · simp [ht]
      simp only [ht, if_false]
      cases hc : cstring b with
      | none => simp
      | some c =>
        obtain ⟨k, b1⟩ := c
        have c1 := cstring_length hc
        simp only [List.length_cons]
        cases hs : scalar t b1 with
        | none =>
          simp only
          by_cases hd : t = 3 ∨ t = 4
          · simp only [hd, if_true]
            cases stack with
            | zero => simp; omega
            | succ stack =>
              simp only
              cases hk : take 4 b1 with
              | none => simp
              | some p =>
                obtain ⟨p1, b2⟩ := p
                have c2 := take_length hk
                simp only
                cases hi : list stack fuel b2 with
                | fail => simp
                | ub =>
                  have := (ih stack b2).2 hi
                  simp
                  omega
                | ok y =>
                  obtain ⟨inner, b3⟩ := y
                  have c3 := (ih stack b2).1 inner b3 hi
                  simp only
                  cases hl : list (stack + 1) fuel b3 with
                  | fail => simp
                  | ub =>
                    have := (ih (stack + 1) b3).2 hl
                    simp
                    omega
                  | ok z =>
                    obtain ⟨l', b4⟩ := z
                    have := (ih (stack + 1) b3).1 l' b4 hl
                    simp
                    omega
          · simp [hd]
        | some o =>
          cases o with
          | none => simp
          | some y =>
            obtain ⟨v, b2⟩ := y
            have c2 := scalar_length hs
            simp only
            cases hl : list stack fuel b2 with
            | fail => simp
            | ub =>
              have := (ih stack b2).2 hl
              simp
              omega
            | ok z =>
              obtain ⟨l', b4⟩ := z
              have := (ih stack b2).1 l' b4 hl
              simp
              omega

/-- The fuel of the reader is no bound: more of it changes nothing. -/
theorem fuel_enough (f : Nat) : ∀ (f' stack : Nat) (b : Bytes), b.length < f → b.length < f' → list stack f b = list stack f' b := by
  induction f with
  | zero => intro f' stack b h; omega
  | succ f ih =>
    intro f' stack b h h'
    obtain ⟨f', rfl⟩ : ∃ g, f' = g + 1 := ⟨f' - 1, by omega⟩
    cases b with
    | nil => simp [list]
    | cons t b =>
      simp only [List.length_cons] at h h'
      rw [list, list]
      by_cases ht : t = 0
      · simp [ht]
      simp only [ht, if_false]
      cases hc : cstring b with
      | none => rfl
      | some c =>
        obtain ⟨k, b1⟩ := c
        have c1 := cstring_length hc
        simp only
        cases hs : scalar t b1 with
        | none =>
          simp only
          by_cases hd : t = 3 ∨ t = 4
          · simp only [hd, if_true]
            cases stack with
            | zero => rfl
            | succ stack =>
              simp only
              cases hk : take 4 b1 with
              | none => rfl
              | some p =>
                obtain ⟨p1, b2⟩ := p
                have c2 := take_length hk
                simp only
                rw [ih f' stack b2 (by omega) (by omega)]
                cases hi : list stack f' b2 with
                | fail => rfl
                | ub => rfl
                | ok y =>
                  obtain ⟨inner, b3⟩ := y
                  have c3 := (list_length f' stack b2).1 inner b3 hi
                  simp only
                  rw [ih f' (stack + 1) b3 (by omega) (by omega)]
          · simp [hd]
        | some o =>
          cases o with
          | none => rfl
          | some y =>
            obtain ⟨v, b2⟩ := y
            have c2 := scalar_length hs
            simp only
            rw [ih f' stack b2 (by omega) (by omega)]

/-- A message of nested documents. -/
def nest : Nat → Bytes
  | 0 => [3, 0]
  | n + 1 => [3, 0, 0, 0, 0, 0] ++ nest n

theorem nest_length (n : Nat) : (nest n).length = 6 * n + 2 := by
  induction n with
  | zero => rfl
  | succ n ih => simp [nest, ih]; omega

theorem nest_list (n fuel : Nat) (h : n < fuel) : list n fuel (nest n) = .ub := by
  induction n generalizing fuel with
  | zero =>
    obtain ⟨f, rfl⟩ : ∃ f, fuel = f + 1 := ⟨fuel - 1, by omega⟩
    simp [nest, list, cstring, scalar]
  | succ n ih =>
    obtain ⟨f, rfl⟩ : ∃ f, fuel = f + 1 := ⟨fuel - 1, by omega⟩
    have h4 : ¬ (nest n).length + 1 + 1 + 1 + 1 < 4 := by omega
    simp [nest, list, cstring, scalar, take, h4, ih f (by omega)]

/-! ## Theorems -/

/-- A message that is short for the stack is read, or is an error. -/
theorem short_is_safe_partial (stack : Nat) (b : Bytes) (h : b.length < 6 * (stack + 1)) : decode stack b ≠ .ub := by
  intro hu
  unfold decode at hu
  cases hk : take 4 b with
  | none => simp [hk] at hu
  | some p =>
    obtain ⟨p1, r⟩ := p
    have := take_length hk
    simp only [hk] at hu
    have hl : list stack (r.length + 1) r = .ub := by
      cases hl : list stack (r.length + 1) r with
      | ub => rfl
      | fail => simp [hl] at hu
      | ok z =>
        obtain ⟨l, r'⟩ := z
        cases r' <;> simp [hl] at hu
    have := (list_length _ stack r).2 hl
    omega

/-- One byte more is enough: for every stack there is a message of six bytes for each level that ends the process. -/
theorem deep_message_overflows (stack : Nat) : ∃ b : Bytes, b.length = 6 * (stack + 1) ∧ decode stack b = .ub := by
  refine ⟨[0, 0, 0, 0] ++ nest stack, by simp [nest_length]; omega, ?_⟩
  rw [decode, C126.take_append [0, 0, 0, 0] _ 4 rfl]
  simp only
  rw [nest_list stack _ (by rw [nest_length]; omega)]

/-- And everything behind it changes nothing: whatever a longer message goes on with. -/
theorem deep_prefix_overflows (stack : Nat) (b x : Bytes) (h : decode stack b = .ub) : decode stack (b ++ x) = .ub := by
  unfold decode at h ⊢
  cases hk : take 4 b with
  | none => simp [hk] at h
  | some p =>
    obtain ⟨p1, r⟩ := p
    rw [C126.take_more x hk]
    simp only [hk] at h ⊢
    have hl : list stack (r.length + 1) r = .ub := by
      cases hl : list stack (r.length + 1) r with
      | ub => rfl
      | fail => simp [hl] at h
      | ok z =>
        obtain ⟨l, r'⟩ := z
        cases r' <;> simp [hl] at h
    rw [(C126.list_more _ stack ((r ++ x).length + 1) r x (by simp)).2 hl]

/-- Values that are not nested too deeply never do it, however long they are. -/
theorem flat_is_safe (stack : Nat) (v : Val) (h : C126.Plain (stack + 1) v) (b : Bytes) (hb : encode v = .ok b) (k : Nat) : decode stack (b.take k) ≠ .ub := by
  obtain ⟨h1, h2, _⟩ := C126.whole_or_error stack v h b hb
  by_cases hk : k < b.length
  · rw [h2 k hk]; simp
  · rw [List.take_of_length_le (by omega), h1]; simp

/-- The full property fails for every stack. -/
theorem not_NeverOverflows (stack : Nat) : ¬ NeverOverflows stack := by
  intro h
  obtain ⟨b, _, hb⟩ := deep_message_overflows stack
  exact h b hb

example : decode 2 ([0, 0, 0, 0] ++ nest 2) = .ub := by simp [decode, take, nest, list, cstring, scalar]

end Scalopus.C127
