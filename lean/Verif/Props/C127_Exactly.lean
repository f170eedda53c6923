import Verif.Props.C127_BsonStack

/-!
# C127: exactly which messages make the reader run out of stack
-/

namespace Scalopus.C127

open Bson

/-! ## Specification: the grammar of messages -/

/-- The bytes `s` are a whole value of type `t`, other than a document or an array: a double, a string (its length with the final zero, its bytes and one more), a boolean, a null and two sizes of integers. -/
inductive Scalar : UInt8 → Bytes → Prop
  | double (s : Bytes) : s.length = 8 → Scalar 0x01 s
  | string (n s : Bytes) (z : UInt8) : n.length = 4 → 1 ≤ ofSigned n → s.length = (ofSigned n).toNat - 1 → Scalar 0x02 (n ++ s ++ [z])
  | bool (s : Bytes) : s.length = 1 → Scalar 0x08 s
  | null : Scalar 0x0A []
  | int32 (s : Bytes) : s.length = 4 → Scalar 0x10 s
  | int64 (s : Bytes) : s.length = 8 → Scalar 0x12 s

/-- The type of a document or an array. -/
def Nests (t : UInt8) : Prop := t = 0x03 ∨ t = 0x04

/-- The bytes, without their length, are a whole document: elements, each with its type and its name, and a zero. -/
inductive Doc : Bytes → Prop
  | done : Doc [0]
  | scalar (t : UInt8) (k s d : Bytes) : 0 ∉ k → Scalar t s → Doc d → Doc (t :: k ++ 0 :: s ++ d)
  | nested (t : UInt8) (k n e d : Bytes) : Nests t → 0 ∉ k → n.length = 4 → Doc e → Doc d → Doc (t :: k ++ 0 :: n ++ e ++ d)

/-- The bytes begin with whole elements, and then, in `n` documents each of which is begun within the one before and has whole elements before the next, the type and the name of another document. What follows does not matter. -/
inductive Opens : Nat → Bytes → Prop
  | here (t : UInt8) (k rest : Bytes) : Nests t → 0 ∉ k → Opens 0 (t :: k ++ 0 :: rest)
  | inside (m : Nat) (t : UInt8) (k n rest : Bytes) : Nests t → 0 ∉ k → n.length = 4 → Opens m rest → Opens (m + 1) (t :: k ++ 0 :: n ++ rest)
  | scalar (m : Nat) (t : UInt8) (k s rest : Bytes) : 0 ∉ k → Scalar t s → Opens m rest → Opens m (t :: k ++ 0 :: s ++ rest)
  | nested (m : Nat) (t : UInt8) (k n e rest : Bytes) : Nests t → 0 ∉ k → n.length = 4 → Doc e → Opens m rest → Opens m (t :: k ++ 0 :: n ++ e ++ rest)

/-! ## Lemmas -/

theorem take_some {k : Nat} {b p q : Bytes} (h : take k b = some (p, q)) : b = p ++ q ∧ p.length = k := by
  unfold take at h
  split at h
  · cases h
  · injection h with h
    injection h with h1 h2
    subst h1 h2
    simp only [List.take_append_drop, List.length_take, true_and]
    omega

theorem cstring_some {b p q : Bytes} (h : cstring b = some (p, q)) : b = p ++ 0 :: q ∧ 0 ∉ p := by
  induction b generalizing p with
  | nil => simp [cstring] at h
  | cons c b ih =>
    by_cases hc : c = 0
    · simp only [cstring, hc, if_true, Option.some.injEq, Prod.mk.injEq] at h
      obtain ⟨rfl, rfl⟩ := h
      simp [hc]
    · simp only [cstring, hc, if_false] at h
      cases hr : cstring b with
      | none => simp [hr] at h
      | some r =>
        obtain ⟨r1, r2⟩ := r
        simp only [hr, Option.map_some, Option.some.injEq, Prod.mk.injEq] at h
        obtain ⟨rfl, rfl⟩ := h
        have := ih hr
        refine ⟨by rw [this.1]; simp, ?_⟩
        simp only [List.mem_cons, not_or]
        exact ⟨fun e => hc e.symm, this.2⟩

theorem scalar_some {t : UInt8} {b q : Bytes} {v : Val} (h : scalar t b = some (some (v, q))) : ∃ s, b = s ++ q ∧ Scalar t s := by
  have one : ∀ (k : Nat) (f : Bytes → Val), (take k b).map (fun p => (f p.1, p.2)) = some (v, q) → ∃ s, b = s ++ q ∧ s.length = k := by
    intro k f h
    cases hr : take k b with
    | none => simp [hr] at h
    | some r =>
      obtain ⟨r1, r2⟩ := r
      simp only [hr, Option.map_some, Option.some.injEq, Prod.mk.injEq] at h
      obtain ⟨-, rfl⟩ := h
      exact ⟨r1, take_some hr⟩
  unfold Bson.scalar at h
  repeat' split at h
  · rename_i ht; subst ht
    injection h with h
    obtain ⟨s, h1, h2⟩ := one 8 (fun p => .dbl (UInt64.ofNat (ofLittle p))) h
    exact ⟨s, h1, .double s h2⟩
  · rename_i ht; subst ht
    injection h with h
    cases hr : take 4 b with
    | none => simp [hr] at h
    | some r =>
      obtain ⟨r1, r2⟩ := r
      simp only [hr, Option.bind_some] at h
      split at h
      · cases h
      · rename_i hn
        cases hs : take ((ofSigned r1).toNat - 1) r2 with
        | none => simp [hs] at h
        | some s =>
          obtain ⟨s1, s2⟩ := s
          simp only [hs, Option.bind_some] at h
          cases hu : take 1 s2 with
          | none => simp [hu] at h
          | some u =>
            obtain ⟨u1, u2⟩ := u
            simp only [hu, Option.map_some, Option.some.injEq, Prod.mk.injEq] at h
            obtain ⟨-, rfl⟩ := h
            obtain ⟨rfl, g1⟩ := take_some hr
            obtain ⟨rfl, g2⟩ := take_some hs
            obtain ⟨rfl, g3⟩ := take_some hu
            obtain ⟨z, rfl⟩ := List.length_eq_one_iff.mp g3
            exact ⟨r1 ++ s1 ++ [z], by simp, .string r1 s1 z g1 (by omega) g2⟩
  · rename_i ht; subst ht
    injection h with h
    obtain ⟨s, h1, h2⟩ := one 1 (fun p => .bool (p != [0])) h
    exact ⟨s, h1, .bool s h2⟩
  · rename_i ht; subst ht
    simp at h
    exact ⟨[], by simp [h.2], .null⟩
  · rename_i ht; subst ht
    injection h with h
    obtain ⟨s, h1, h2⟩ := one 4 (fun p => .int (ofSigned p)) h
    exact ⟨s, h1, .int32 s h2⟩
  · rename_i ht; subst ht
    injection h with h
    obtain ⟨s, h1, h2⟩ := one 8 (fun p => .int (ofSigned p)) h
    exact ⟨s, h1, .int64 s h2⟩
  · cases h

theorem scalar_reads {t : UInt8} {s : Bytes} (h : Scalar t s) (q : Bytes) : ∃ v, scalar t (s ++ q) = some (some (v, q)) := by
  cases h with
  | double _ h => exact ⟨_, by unfold Bson.scalar; rw [if_pos rfl, C126.take_append _ _ _ h]; rfl⟩
  | string n s z h1 h2 h3 =>
    refine ⟨.str s, ?_⟩
    unfold Bson.scalar
    rw [if_neg (by decide), if_pos rfl, List.append_assoc, List.append_assoc, C126.take_append _ _ _ h1]
    have : ¬ ofSigned n < 1 := by omega
    simp only [Option.bind_some, this, if_false]
    rw [C126.take_append _ _ _ h3]
    simp only [Option.bind_some]
    rw [C126.take_append [z] q 1 rfl]
    rfl
  | bool _ h => exact ⟨_, by unfold Bson.scalar; rw [if_neg (by decide), if_neg (by decide), if_pos rfl, C126.take_append _ _ _ h]; rfl⟩
  | null => exact ⟨_, by unfold Bson.scalar; rw [if_neg (by decide), if_neg (by decide), if_neg (by decide), if_pos rfl]; rfl⟩
  | int32 _ h => exact ⟨_, by unfold Bson.scalar; rw [if_neg (by decide), if_neg (by decide), if_neg (by decide), if_neg (by decide), if_pos rfl, C126.take_append _ _ _ h]; rfl⟩
  | int64 _ h =>
    exact ⟨_, by unfold Bson.scalar; rw [if_neg (by decide), if_neg (by decide), if_neg (by decide), if_neg (by decide), if_neg (by decide), if_pos rfl, C126.take_append _ _ _ h]; rfl⟩

theorem scalar_not_zero {t : UInt8} {s : Bytes} (h : Scalar t s) : t ≠ 0 := by cases h <;> decide

theorem nests_not_zero {t : UInt8} (h : Nests t) : t ≠ 0 := by rcases h with rfl | rfl <;> decide

theorem nests_no_scalar {t : UInt8} (h : Nests t) (b : Bytes) : scalar t b = none := by
  rcases h with rfl | rfl <;> (unfold Bson.scalar; repeat rw [if_neg (by decide)])

/-- What the reader read is a whole document; and it runs out of stack only if so many are open. -/
theorem list_spec (fuel : Nat) : ∀ (stack : Nat) (b : Bytes),
    (∀ l r, list stack fuel b = .ok (l, r) → ∃ d, b = d ++ r ∧ Doc d) ∧ (list stack fuel b = .ub → Opens stack b) := by
  induction fuel with
  | zero => intro stack b; constructor <;> intros <;> simp_all [list]
  | succ fuel ih =>
    intro stack b
    cases b with
    | nil => constructor <;> intros <;> simp_all [list]
    | cons t b =>
      rw [list]
      by_cases ht : t = 0
      · subst ht
        refine ⟨fun l r h => ?_, by simp⟩
        simp at h
        exact ⟨[0], by simp [h.2], .done⟩
      simp only [ht, if_false]
      cases hc : cstring b with
      | none => simp
      | some c =>
        obtain ⟨k, b1⟩ := c
        obtain ⟨rfl, hk0⟩ := cstring_some hc
        simp only
        cases hs : scalar t b1 with
        | none =>
          simp only
          by_cases hd : t = 3 ∨ t = 4
          · simp only [hd, if_true]
            cases stack with
            | zero => exact ⟨by simp, fun _ => .here t k b1 hd hk0⟩
            | succ stack =>
              simp only
              cases hk : take 4 b1 with
              | none => simp
              | some p =>
                obtain ⟨p1, b2⟩ := p
                obtain ⟨rfl, hp⟩ := take_some hk
                simp only
                cases hi : list stack fuel b2 with
                | fail => simp
                | ub =>
                  refine ⟨by simp, fun _ => ?_⟩
                  have := Opens.inside stack t k p1 b2 hd hk0 hp ((ih stack b2).2 hi)
                  simpa using this
                | ok y =>
                  obtain ⟨inner, b3⟩ := y
                  obtain ⟨d, rfl, hdoc⟩ := (ih stack b2).1 inner b3 hi
                  simp only
                  cases hl : list (stack + 1) fuel b3 with
                  | fail => simp
                  | ub =>
                    refine ⟨by simp, fun _ => ?_⟩
                    have := Opens.nested _ t k p1 d b3 hd hk0 hp hdoc ((ih (stack + 1) b3).2 hl)
                    simpa using this
                  | ok z =>
                    obtain ⟨l', b4⟩ := z
                    obtain ⟨d', rfl, hdoc'⟩ := (ih (stack + 1) b3).1 l' b4 hl
                    refine ⟨fun l r h => ?_, by simp⟩
                    simp only [Read.ok.injEq, Prod.mk.injEq] at h
                    obtain ⟨-, rfl⟩ := h
                    exact ⟨_, by simp, Doc.nested t k p1 d d' hd hk0 hp hdoc hdoc'⟩
          · simp [hd]
        | some o =>
          cases o with
          | none => simp
          | some y =>
            obtain ⟨v, b2⟩ := y
            obtain ⟨s, rfl, hsc⟩ := scalar_some hs
            simp only
            cases hl : list stack fuel b2 with
            | fail => simp
            | ub =>
              refine ⟨by simp, fun _ => ?_⟩
              have := Opens.scalar _ t k s b2 hk0 hsc ((ih stack b2).2 hl)
              simpa using this
            | ok z =>
              obtain ⟨l', b4⟩ := z
              obtain ⟨d', rfl, hdoc'⟩ := (ih stack b2).1 l' b4 hl
              refine ⟨fun l r h => ?_, by simp⟩
              simp only [Read.ok.injEq, Prod.mk.injEq] at h
              obtain ⟨-, rfl⟩ := h
              exact ⟨_, by simp, Doc.scalar t k s d' hk0 hsc hdoc'⟩

/-- A whole document is read, or the stack is too small for it. -/
theorem doc_reads {d : Bytes} (h : Doc d) : ∀ (stack fuel : Nat) (r : Bytes), (d ++ r).length < fuel → list stack fuel (d ++ r) = .ub ∨ ∃ l, list stack fuel (d ++ r) = .ok (l, r) := by
  induction h with
  | done =>
    intro stack fuel r hf
    obtain ⟨f, rfl⟩ : ∃ f, fuel = f + 1 := ⟨fuel - 1, by omega⟩
    exact .inr ⟨[], by simp [list]⟩
  | scalar t k s d hk hs _ ih =>
    intro stack fuel r hf
    obtain ⟨f, rfl⟩ : ∃ f, fuel = f + 1 := ⟨fuel - 1, by omega⟩
    simp only [List.append_assoc, List.cons_append] at hf ⊢
    obtain ⟨v, hv⟩ := scalar_reads hs (d ++ r)
    rw [list, if_neg (scalar_not_zero hs), C126.cstring_append _ _ hk]
    simp only [hv]
    simp only [List.length_append, List.length_cons] at hf
    rcases ih stack f r (by simp only [List.length_append]; omega) with h | ⟨l, h⟩
    · simp [h]
    · simp [h]
  | nested t k n e d ht hk hn _ _ ihe ihd =>
    intro stack fuel r hf
    obtain ⟨f, rfl⟩ : ∃ f, fuel = f + 1 := ⟨fuel - 1, by omega⟩
    simp only [List.append_assoc, List.cons_append] at hf ⊢
    rw [list, if_neg (nests_not_zero ht), C126.cstring_append _ _ hk]
    simp only [nests_no_scalar ht]
    have ht' : t = 3 ∨ t = 4 := ht
    simp only [ht', if_true]
    cases stack with
    | zero => simp
    | succ stack =>
      simp only [C126.take_append _ _ _ hn]
      simp only [List.length_append, List.length_cons] at hf
      rcases ihe stack f (d ++ r) (by simp only [List.length_append]; omega) with h | ⟨l, h⟩
      · simp [h]
      · simp only [h]
        rcases ihd (stack + 1) f r (by simp only [List.length_append]; omega) with h | ⟨l, h⟩
        · simp [h]
        · simp [h]

theorem opens_overflows {m : Nat} {b : Bytes} (h : Opens m b) : ∀ fuel, b.length < fuel → list m fuel b = .ub := by
  induction h with
  | here t k rest ht hk =>
    intro fuel hf
    obtain ⟨f, rfl⟩ : ∃ f, fuel = f + 1 := ⟨fuel - 1, by omega⟩
    have ht' : t = 3 ∨ t = 4 := ht
    rw [List.cons_append, list, if_neg (nests_not_zero ht), C126.cstring_append _ _ hk]
    simp only [nests_no_scalar ht, ht', if_true]
  | inside m t k n rest ht hk hn _ ih =>
    intro fuel hf
    obtain ⟨f, rfl⟩ : ∃ f, fuel = f + 1 := ⟨fuel - 1, by omega⟩
    have ht' : t = 3 ∨ t = 4 := ht
    simp only [List.append_assoc, List.cons_append] at hf ⊢
    rw [list, if_neg (nests_not_zero ht), C126.cstring_append _ _ hk]
    simp only [List.length_append, List.length_cons] at hf
    simp only [nests_no_scalar ht, ht', if_true, C126.take_append _ _ _ hn, ih f (by omega)]
  | scalar m t k s rest hk hs _ ih =>
    intro fuel hf
    obtain ⟨f, rfl⟩ : ∃ f, fuel = f + 1 := ⟨fuel - 1, by omega⟩
    simp only [List.append_assoc, List.cons_append] at hf ⊢
    obtain ⟨v, hv⟩ := scalar_reads hs rest
    rw [list, if_neg (scalar_not_zero hs), C126.cstring_append _ _ hk]
    simp only [List.length_append, List.length_cons] at hf
    simp only [hv, ih f (by omega)]
  | nested m t k n e rest ht hk hn he _ ih =>
    intro fuel hf
    obtain ⟨f, rfl⟩ : ∃ f, fuel = f + 1 := ⟨fuel - 1, by omega⟩
    have ht' : t = 3 ∨ t = 4 := ht
    simp only [List.append_assoc, List.cons_append] at hf ⊢
    rw [list, if_neg (nests_not_zero ht), C126.cstring_append _ _ hk]
    simp only [List.length_append, List.length_cons] at hf
    simp only [nests_no_scalar ht, ht', if_true]
    cases m with
    | zero => rfl
    | succ m =>
      simp only [C126.take_append _ _ _ hn]
      rcases doc_reads he m f rest (by simp only [List.length_append]; omega) with h | ⟨l, h⟩
      · simp [h]
      · simp [h, ih f (by omega)]

/-- **C127, exactly.** Reading a message runs out of the stack exactly if, after its length, it begins more documents inside one another than the stack has room for, with whole elements before each. -/
theorem overflows_iff (stack : Nat) (b : Bytes) : decode stack b = .ub ↔ ∃ n rest, b = n ++ rest ∧ n.length = 4 ∧ Opens stack rest := by
  constructor
  · intro h
    unfold decode at h
    cases hk : take 4 b with
    | none => simp [hk] at h
    | some p =>
      obtain ⟨n, r⟩ := p
      obtain ⟨rfl, hn⟩ := take_some hk
      simp only [hk] at h
      refine ⟨n, r, rfl, hn, (list_spec (r.length + 1) stack r).2 ?_⟩
      cases hl : list stack (r.length + 1) r with
      | ub => rfl
      | fail => simp [hl] at h
      | ok z =>
        obtain ⟨l, r'⟩ := z
        cases r' <;> simp [hl] at h
  · rintro ⟨n, r, rfl, hn, ho⟩
    unfold decode
    simp only [C126.take_append _ _ _ hn, opens_overflows ho (r.length + 1) (Nat.lt_succ_self _)]

/-- **C127, the other messages** yield a value or an error: a value only if they are a length and a whole document. -/
theorem value_only_if_whole (stack : Nat) (b : Bytes) (v : Val) (h : decode stack b = .ok v) : ∃ n d, b = n ++ d ∧ n.length = 4 ∧ Doc d := by
  unfold decode at h
  cases hk : take 4 b with
  | none => simp [hk] at h
  | some p =>
    obtain ⟨n, r⟩ := p
    obtain ⟨rfl, hn⟩ := take_some hk
    simp only [hk] at h
    cases hl : list stack (r.length + 1) r with
    | ub => simp [hl] at h
    | fail => simp [hl] at h
    | ok z =>
      obtain ⟨l, r'⟩ := z
      cases r' with
      | cons => simp [hl] at h
      | nil =>
        obtain ⟨d, hd, hdoc⟩ := (list_spec (r.length + 1) stack r).1 l [] hl
        rw [List.append_nil] at hd
        exact ⟨n, r, rfl, hn, hd ▸ hdoc⟩

/-- **C127, whole messages.** A length and a whole document yield a value exactly if the stack has room for what is nested in it. -/
theorem whole_read_iff (stack : Nat) (n d : Bytes) (hn : n.length = 4) (hd : Doc d) : (∃ v, decode stack (n ++ d) = .ok v) ↔ ¬ Opens stack d := by
  have h1 : decode stack (n ++ d) = .ub ↔ Opens stack d := by
    rw [overflows_iff]
    constructor
    · rintro ⟨n', r, h, hn', ho⟩
      obtain ⟨-, rfl⟩ := List.append_inj h (by rw [hn, hn'])
      exact ho
    · intro ho; exact ⟨n, d, rfl, hn, ho⟩
  rw [← h1]
  constructor
  · rintro ⟨v, hv⟩ h
    rw [hv] at h; cases h
  · intro h
    rcases doc_reads hd stack (d.length + 1) [] (by simp) with g | ⟨l, g⟩
    · rw [List.append_nil] at g
      exact absurd (by unfold decode; simp only [C126.take_append _ _ _ hn, g]) h
    · rw [List.append_nil] at g
      exact ⟨.obj (putAll l), by unfold decode; simp only [C126.take_append _ _ _ hn, g]⟩

/-- A document with a null, then one that holds a boolean and another document: with room for one level it is too much, with room for two it is read. -/
example : ∃ d, Doc d ∧ Opens 1 d ∧ ¬ Opens 2 d := by
  have e0 : Doc [0] := .done
  have e1 : Doc [0x03, 98, 0, 5, 0, 0, 0, 0, 0] := .nested 0x03 [98] [5, 0, 0, 0] [0] [0] (.inl rfl) (by decide) rfl e0 e0
  have e2 : Doc [0x08, 97, 0, 1, 0x03, 98, 0, 5, 0, 0, 0, 0, 0] := .scalar 0x08 [97] [1] _ (by decide) (.bool [1] rfl) e1
  have e3 : Doc [0x03, 99, 0, 17, 0, 0, 0, 0x08, 97, 0, 1, 0x03, 98, 0, 5, 0, 0, 0, 0, 0, 0] := .nested 0x03 [99] [17, 0, 0, 0] _ [0] (.inl rfl) (by decide) rfl e2 e0
  have e4 : Doc [0x0A, 100, 0, 0x03, 99, 0, 17, 0, 0, 0, 0x08, 97, 0, 1, 0x03, 98, 0, 5, 0, 0, 0, 0, 0, 0] := .scalar 0x0A [100] [] _ (by decide) .null e3
  refine ⟨_, e4, ?_, (whole_read_iff 2 [28, 0, 0, 0] _ rfl e4).mp ⟨_, rfl⟩⟩
  exact .scalar 1 0x0A [100] [] _ (by decide) .null (.inside 0 0x03 [99] [17, 0, 0, 0] _ (.inl rfl) (by decide) rfl
    (.scalar 0 0x08 [97] [1] _ (by decide) (.bool [1] rfl) (.here 0x03 [98] [5, 0, 0, 0, 0, 0, 0] (.inl rfl) (by decide))))

end Scalopus.C127
