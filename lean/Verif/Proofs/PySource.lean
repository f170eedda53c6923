import Verif.Model.PySource
import Verif.Spec.PySource
import Verif.Props.C54_PyJson
import Verif.Props.C37_Session

/-!
# Python values as a viewer sees them
-/

namespace Scalopus.PySource

open PyJson PyJson.Spec
open JsonText (J Text Clean numOk numChar)

theorem digit_char : ∀ n, n < 10 → JsonText.isDigit (digit n) = true ∧ ('0' ≤ digit n ∧ digit n ≤ '9') ∧ (digit n).toNat - '0'.toNat = n ∧ digit n ≠ '-' ∧ (digit n = '0' ↔ n = 0) := by decide

theorem natText_all (n : Nat) : ∀ c ∈ natText n, JsonText.isDigit c = true := by
  fun_induction natText n with
  | case1 n h => intro c hc; rw [List.mem_singleton] at hc; subst hc; exact (digit_char n h).1
  | case2 n h ih =>
    intro c hc
    rcases List.mem_append.mp hc with hc | hc
    · exact ih c hc
    · rw [List.mem_singleton] at hc; subst hc; exact (digit_char _ (by omega)).1

theorem natText_head (n : Nat) : ∃ c t, natText n = c :: t ∧ c ≠ '-' ∧ (c = '0' → n = 0 ∧ t = []) := by
  fun_induction natText n with
  | case1 n h =>
    have := digit_char n h
    exact ⟨digit n, [], rfl, this.2.2.2.1, fun hc => ⟨this.2.2.2.2.mp hc, rfl⟩⟩
  | case2 n h ih =>
    obtain ⟨c, t, e, h1, h2⟩ := ih
    refine ⟨c, t ++ [digit (n % 10)], by rw [e]; rfl, h1, fun hc => ?_⟩
    have := (h2 hc).1
    omega

theorem natValue_append (a : Text) (c : Char) : ∀ acc, natValue acc (a ++ [c]) = (natValue acc a).bind fun n => natValue n [c] := by
  induction a with
  | nil => intro acc; rfl
  | cons x a ih =>
    intro acc
    simp only [List.cons_append, natValue]
    split
    · exact ih _
    · rfl

theorem natText_value (n : Nat) : natValue 0 (natText n) = some n := by
  fun_induction natText n with
  | case1 n h =>
    have := digit_char n h
    simp only [natValue, this.2.1, and_self, if_true, this.2.2.1]
    simp
  | case2 n h ih =>
    have := digit_char (n % 10) (by omega)
    rw [natValue_append, ih]
    simp only [Option.bind, natValue, this.2.1, and_self, if_true, this.2.2.1, Option.some.injEq]
    omega

theorem intText_value (n : Int) : intValue (intText n) = some n := by
  obtain ⟨c, t, e, h1, _⟩ := natText_head n.natAbs
  have hv := natText_value n.natAbs
  unfold intText
  split
  · rw [e] at hv ⊢
    have : intValue ('-' :: c :: t) = (natValue 0 (c :: t)).map fun n => -(n : Int) := rfl
    rw [this, hv]
    show some (-(n.natAbs : Int)) = some n
    rw [Option.some.injEq]
    omega
  · rw [e] at hv ⊢
    have : intValue (c :: t) = (natValue 0 (c :: t)).map fun n => (n : Int) := by
      unfold intValue
      split
      · rename_i h; cases h
      · rename_i h; injection h with h _; exact absurd h h1
      · rename_i h; injection h with h _; exact absurd h h1
      · rfl
    rw [this, hv]
    show some (n.natAbs : Int) = some n
    rw [Option.some.injEq]
    omega

theorem dropWhile_all {p : Char → Bool} {l : Text} (h : ∀ c ∈ l, p c = true) : l.dropWhile p = [] := by
  induction l with
  | nil => rfl
  | cons c l ih => rw [List.dropWhile_cons_of_pos (h c (by simp))]; exact ih fun x hx => h x (by simp [hx])

theorem numOk_digits (c : Char) (t : Text) (h1 : c ≠ '-') (h0 : c = '0' → t = []) (hall : ∀ x ∈ c :: t, JsonText.isDigit x = true) :
    numOk (c :: t) = true ∧ numOk ('-' :: c :: t) = true := by
  by_cases hc : c = '0'
  · subst hc
    rw [h0 rfl]
    decide
  · have hd : JsonText.digits1 (c :: t) = some [] := by
      simp only [JsonText.digits1, hall c (by simp), if_true]
      rw [dropWhile_all fun x hx => hall x (by simp [hx])]
    simp [numOk, h1, hc, hd]

theorem intText_ok (n : Int) : numOk (intText n) = true := by
  obtain ⟨c, t, e, h1, h2⟩ := natText_head n.natAbs
  have hall := natText_all n.natAbs
  rw [e] at hall
  have := numOk_digits c t h1 (fun h => (h2 h).2) hall
  unfold intText
  rw [e]
  split
  · exact this.2
  · exact this.1

theorem intText_chars (n : Int) : (intText n).all numChar = true := by
  have h : ∀ c ∈ natText n.natAbs, numChar c = true := fun c hc => by simp [numChar, natText_all _ c hc]
  unfold intText
  rw [List.all_eq_true]
  split
  · intro c hc
    rcases List.mem_cons.mp hc with rfl | hc
    · decide
    · exact h c hc
  · exact h

mutual
/-- Whatever is converted can be written. -/
theorem clean_toText (fl : UInt64 → J) (hf : ∀ b, Clean (fl b)) : ∀ j : Json, Clean (toText fl j)
  | .null => .null
  | .bool b => .bool b
  | .int n => .num _ (intText_ok n) (intText_chars n)
  | .float f => hf f
  | .str s => .str _
  | .arr l => .arr _ (clean_toTextList fl hf l)
  | .obj l => .obj _ (fun m hm => (clean_toTextMembers fl hf l m hm).1) (fun m hm => (clean_toTextMembers fl hf l m hm).2)

theorem clean_toTextList (fl : UInt64 → J) (hf : ∀ b, Clean (fl b)) : ∀ (l : List Json), ∀ x ∈ toTextList fl l, Clean x
  | [], x, h => by simp [toTextList] at h
  | j :: l, x, h => by
    simp only [toTextList, List.mem_cons] at h
    rcases h with rfl | h
    · exact clean_toText fl hf j
    · exact clean_toTextList fl hf l x h

theorem clean_toTextMembers (fl : UInt64 → J) (hf : ∀ b, Clean (fl b)) : ∀ (l : List (String × Json)), ∀ x ∈ toTextMembers fl l, x.1.isSome = true ∧ Clean x.2
  | [], x, h => by simp [toTextMembers] at h
  | (k, j) :: l, x, h => by
    simp only [toTextMembers, List.mem_cons] at h
    rcases h with rfl | h
    · exact ⟨rfl, clean_toText fl hf j⟩
    · exact clean_toTextMembers fl hf l x h
end

theorem toTextList_map (fl : UInt64 → J) (l : List Json) : toTextList fl l = l.map (toText fl) := by
  induction l with
  | nil => rfl
  | cons j l ih => simp [toTextList, ih]

theorem toTextMembers_map (fl : UInt64 → J) (l : List (String × Json)) : toTextMembers fl l = l.map fun x => (some x.1.toList, toText fl x.2) := by
  induction l with
  | nil => rfl
  | cons x l ih => obtain ⟨k, j⟩ := x; simp [toTextMembers, ih]

/-- The elements of a list are converted one by one. -/
theorem list_shows (fl : UInt64 → J) {l : List Py} (h : ∀ v ∈ l, ∃ j, pyToJson v = .ok j ∧ Shows fl v (toText fl j)) :
    ∃ js, pyToJsonList l = .ok js ∧ List.Forall₂ (fun v j => Shows fl v (toText fl j)) l js := by
  induction l with
  | nil => exact ⟨[], rfl, .nil⟩
  | cons v l ih =>
    obtain ⟨j, h1, h2⟩ := h v (by simp)
    obtain ⟨js, h3, h4⟩ := ih fun x hx => h x (by simp [hx])
    exact ⟨j :: js, by simp only [pyToJsonList]; rw [h1, h3]; rfl, .cons h2 h4⟩

theorem items_shows (fl : UInt64 → J) {l : List (String × Py)} (hk : (l.map Prod.fst).Nodup) (h : ∀ x ∈ l, ∃ j, pyToJson x.2 = .ok j ∧ Shows fl x.2 (toText fl j))
    (m : List (String × Json)) (hm : ∀ k ∈ m.map Prod.fst, k ∉ l.map Prod.fst) (hmk : (m.map Prod.fst).Nodup) :
    ∃ js, pyToJsonItems (l.map fun x => (Py.str x.1, x.2)) m = .ok (.obj js) ∧ (js.map Prod.fst).Perm (m.map Prod.fst ++ l.map Prod.fst) ∧
      ∀ x ∈ js, x ∈ m ∨ ∃ v, (x.1, v) ∈ l ∧ Shows fl v (toText fl x.2) := by
  induction l generalizing m with
  | nil => exact ⟨m, by simp [pyToJsonItems], by simp, fun x hx => .inl hx⟩
  | cons x l ih =>
    obtain ⟨k, v⟩ := x
    obtain ⟨j, h1, h2⟩ := h (k, v) (by simp)
    simp only [List.map_cons, List.nodup_cons] at hk
    have hkm : k ∉ m.map Prod.fst := fun hc => hm k hc (by simp)
    have hp := mem_assign (v := j) hkm
    have hpk := hp.map Prod.fst
    obtain ⟨js, h3, h4, h5⟩ := ih hk.2 (fun x hx => h x (by simp [hx])) (PyJson.assign m k j) (by
      intro k' hk' hl
      have := hpk.mem_iff.mp hk'
      simp only [List.map_cons, List.mem_cons] at this
      rcases this with rfl | hk'
      · exact hk.1 hl
      · exact hm k' hk' (by simp [hl])) (by
      rw [hpk.nodup_iff]
      simp only [List.map_cons, List.nodup_cons]
      exact ⟨hkm, hmk⟩)
    refine ⟨js, ?_, ?_, ?_⟩
    · simp only [List.map_cons, pyToJsonItems]
      rw [h1]
      exact h3
    · refine h4.trans ((hpk.append_right _).trans ?_)
      simp only [List.map_cons, List.cons_append]
      exact List.perm_middle.symm
    · intro x hx
      rcases h5 x hx with hx | ⟨v', hv, hs⟩
      · rcases List.mem_cons.mp (hp.mem_iff.mp hx) with rfl | hx
        · exact .inr ⟨v, by simp, h2⟩
        · exact .inl hx
      · exact .inr ⟨v', by simp [hv], hs⟩

/-- A plain value is converted, and shown. -/
theorem plain_shows (fl : UInt64 → J) (v : Py) (h : Plain v) : ∃ j, pyToJson v = .ok j ∧ Shows fl v (toText fl j) := by
  induction h with
  | none => exact ⟨.null, rfl, .none⟩
  | bool b => exact ⟨.bool b, rfl, .bool b⟩
  | int n hn => exact ⟨.int n, by simp only [pyToJson]; rw [if_pos (show -(2 : Int) ^ 63 ≤ n ∧ n < 2 ^ 63 from hn)], .int n _ (intText_value n)⟩
  | float f => exact ⟨.float f, rfl, .float f⟩
  | str s => exact ⟨.str s, rfl, .str s⟩
  | list l _ ih =>
    obtain ⟨js, h1, h2⟩ := list_shows fl ih
    refine ⟨.arr js, by simp only [pyToJson]; rw [h1]; rfl, ?_⟩
    simp only [toText, toTextList_map]
    refine .list l _ (by simp [h2.length_eq]) ?_
    intro i v j hv hj
    rw [List.getElem?_map] at hj
    cases hjs : js[i]? with
    | none => rw [hjs] at hj; cases hj
    | some x =>
      rw [hjs] at hj
      simp only [Option.map_some, Option.some.injEq] at hj
      subst hj
      obtain ⟨hi1, e1⟩ := List.getElem?_eq_some_iff.mp hv
      obtain ⟨hi2, e2⟩ := List.getElem?_eq_some_iff.mp hjs
      have := h2.get hi1 hi2
      simpa [e1, e2] using this
  | dict l hk _ ih =>
    obtain ⟨js, h1, h2, h3⟩ := items_shows fl hk ih [] (by simp) (by simp)
    refine ⟨.obj js, by simp only [pyToJson]; rw [h1], ?_⟩
    simp only [toText, toTextMembers_map]
    refine .dict l _ ?_ ?_
    · have := h2.map fun k => (some k.toList : JsonText.Str)
      simpa [List.map_map, Function.comp_def] using this
    · intro k w j hw hj
      simp only [List.mem_map, Prod.mk.injEq, Prod.exists] at hj
      obtain ⟨k2, j2, hm2, hkk, rfl⟩ := hj
      have : k2 = k := by
        simp only [Option.some.injEq] at hkk
        exact String.toList_inj.mp hkk
      subst this
      rcases h3 _ hm2 with hc | ⟨v', hv', hs⟩
      · cases hc
      · rw [C73.nodup_unique hk hw hv']
        exact hs

/-! ## Which values are converted -/

theorem convertible_list {l : List Py} (h : ∀ v ∈ l, ∃ j, pyToJson v = .ok j) : ∃ js, pyToJsonList l = .ok js := by
  induction l with
  | nil => exact ⟨[], rfl⟩
  | cons v l ih =>
    obtain ⟨j, h1⟩ := h v (by simp)
    obtain ⟨js, h2⟩ := ih fun x hx => h x (by simp [hx])
    exact ⟨j :: js, by simp only [pyToJsonList]; rw [h1, h2]; rfl⟩

theorem convertible_items {l : List (Py × Py)} (hk : ∀ x ∈ l, ∃ k, x.1 = .str k) (h : ∀ x ∈ l, ∃ j, pyToJson x.2 = .ok j) : ∀ m, ∃ js, pyToJsonItems l m = .ok js := by
  induction l with
  | nil => exact fun m => ⟨.obj m, by rw [pyToJsonItems]⟩
  | cons x l ih =>
    intro m
    obtain ⟨a, v⟩ := x
    obtain ⟨k, rfl⟩ : ∃ k, a = .str k := hk (a, v) (by simp)
    obtain ⟨j, h1⟩ := h (.str k, v) (by simp)
    obtain ⟨js, h2⟩ := ih (fun x hx => hk x (by simp [hx])) (fun x hx => h x (by simp [hx])) (PyJson.assign m k j)
    exact ⟨js, by rw [pyToJsonItems, h1]; exact h2⟩

theorem ok_of_convertible (v : Py) (h : Convertible v) : ∃ j, pyToJson v = .ok j := by
  induction h with
  | none => exact ⟨_, rfl⟩
  | bool => exact ⟨_, rfl⟩
  | int n hn => exact ⟨.int n, by simp only [pyToJson]; rw [if_pos (show -(2 : Int) ^ 63 ≤ n ∧ n < 2 ^ 63 from hn)]⟩
  | float => exact ⟨_, rfl⟩
  | str => exact ⟨_, rfl⟩
  | bytes => exact ⟨_, rfl⟩
  | list l _ ih => obtain ⟨js, h⟩ := convertible_list ih; exact ⟨.arr js, by simp only [pyToJson]; rw [h]; rfl⟩
  | tuple l _ ih => obtain ⟨js, h⟩ := convertible_list ih; exact ⟨.arr js, by simp only [pyToJson]; rw [h]; rfl⟩
  | dict l hk _ ih => obtain ⟨js, h⟩ := convertible_items hk ih []; exact ⟨js, by simp only [pyToJson]; exact h⟩
  | set l _ hs ih => obtain ⟨js, h⟩ := convertible_list ih; exact ⟨_, by simp only [pyToJson]; rw [h]; simp only [Res.bind, hs js h, if_true]; rfl⟩
  | other => exact ⟨_, rfl⟩

mutual
theorem convertible_of_ok : ∀ (v : Py) (j : Json), pyToJson v = .ok j → Convertible v
  | .none, _, _ => .none
  | .bool b, _, _ => .bool b
  | .int n, j, h => by
    simp only [pyToJson] at h
    by_cases hn : -(2 : Int) ^ 63 ≤ n ∧ n < 2 ^ 63
    · exact .int n hn
    · rw [if_neg hn] at h; cases h
  | .float f, _, _ => .float f
  | .str s, _, _ => .str s
  | .bytes l, _, _ => .bytes l
  | .list l, j, h => by
    simp only [pyToJson] at h
    cases hl : pyToJsonList l with
    | ok js => exact .list l (convertible_of_list l js hl)
    | _ => rw [hl] at h; cases h
  | .tuple l, j, h => by
    simp only [pyToJson] at h
    cases hl : pyToJsonList l with
    | ok js => exact .tuple l (convertible_of_list l js hl)
    | _ => rw [hl] at h; cases h
  | .dict l, j, h => by
    simp only [pyToJson] at h
    exact .dict l (fun x hx => (convertible_of_items l [] j h x hx).1) (fun x hx => (convertible_of_items l [] j h x hx).2)
  | .set l, j, h => by
    simp only [pyToJson] at h
    cases hl : pyToJsonList l with
    | ok js =>
      rw [hl] at h
      simp only [Res.bind] at h
      refine .set l (convertible_of_list l js hl) fun js' h' => ?_
      rw [hl] at h'
      simp only [Res.ok.injEq] at h'
      subst h'
      by_cases ho : ordered js = true
      · exact ho
      · rw [if_neg ho] at h; cases h
    | _ => rw [hl] at h; cases h
  | .other, _, _ => .other

theorem convertible_of_list : ∀ (l : List Py) (js : List Json), pyToJsonList l = .ok js → ∀ v ∈ l, Convertible v
  | [], _, _, v, hv => by cases hv
  | x :: l, js, h, v, hv => by
    simp only [pyToJsonList] at h
    cases hx : pyToJson x with
    | ok j =>
      rw [hx] at h
      simp only [Res.bind] at h
      cases hl : pyToJsonList l with
      | ok js' =>
        rcases List.mem_cons.mp hv with e | hv
        · rw [e]; exact convertible_of_ok x j hx
        · exact convertible_of_list l js' hl v hv
      | _ => rw [hl] at h; cases h
    | _ => rw [hx] at h; cases h

theorem convertible_of_items : ∀ (l : List (Py × Py)) (m : List (String × Json)) (j : Json), pyToJsonItems l m = .ok j → ∀ x ∈ l, (∃ k, x.1 = .str k) ∧ Convertible x.2
  | [], _, _, _, x, hx => by cases hx
  | (.str k, v) :: l, m, j, h, x, hx => by
    rw [pyToJsonItems] at h
    cases hv : pyToJson v with
    | ok jv =>
      rw [hv] at h
      rcases List.mem_cons.mp hx with rfl | hx
      · exact ⟨⟨k, rfl⟩, convertible_of_ok v jv hv⟩
      · exact convertible_of_items l _ j h x hx
    | _ => rw [hv] at h; cases h
  | (.surrogates, v) :: l, m, j, h, x, hx => by
    rw [pyToJsonItems] at h
    cases hv : pyToJson v <;> rw [hv] at h <;> cases h
  | (.none, v) :: l, m, j, h, x, hx => by simp [pyToJsonItems] at h
  | (.bool _, v) :: l, m, j, h, x, hx => by simp [pyToJsonItems] at h
  | (.int _, v) :: l, m, j, h, x, hx => by simp [pyToJsonItems] at h
  | (.float _, v) :: l, m, j, h, x, hx => by simp [pyToJsonItems] at h
  | (.bytes _, v) :: l, m, j, h, x, hx => by simp [pyToJsonItems] at h
  | (.list _, v) :: l, m, j, h, x, hx => by simp [pyToJsonItems] at h
  | (.tuple _, v) :: l, m, j, h, x, hx => by simp [pyToJsonItems] at h
  | (.dict _, v) :: l, m, j, h, x, hx => by simp [pyToJsonItems] at h
  | (.set _, v) :: l, m, j, h, x, hx => by simp [pyToJsonItems] at h
  | (.other, v) :: l, m, j, h, x, hx => by simp [pyToJsonItems] at h
end

end Scalopus.PySource
