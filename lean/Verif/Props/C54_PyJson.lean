import Verif.Spec.PyJson
import Mathlib.Data.String.Basic
import Mathlib.Data.List.Nodup

/-!
# C54, C73: conversion between JSON and Python
-/

namespace Scalopus.PyJson

open Spec

/-- A key beyond all others goes to the end. -/
theorem assign_last {m : List (String × Json)} {k : String} {v : Json} (h : ∀ x ∈ m, x.1 < k) : assign m k v = m ++ [(k, v)] := by
  induction m with
  | nil => rfl
  | cons x m ih =>
    have hx := h x (by simp)
    unfold assign
    rw [if_neg (not_lt_of_gt hx), if_neg (ne_of_gt hx), ih fun y hy => h y (by simp [hy])]
    rfl

theorem mem_assign {m : List (String × Json)} {k : String} {v : Json} (h : k ∉ m.map Prod.fst) : (assign m k v).Perm ((k, v) :: m) := by
  induction m with
  | nil => exact .refl _
  | cons x m ih =>
    simp only [List.map_cons, List.mem_cons, not_or] at h
    unfold assign
    split
    · exact .refl _
    · rw [if_neg h.1]
      exact ((ih h.2).cons x).trans (.swap _ _ _)

mutual
theorem back_json : ∀ {j : Json}, Good Signed64 j → pyToJson (jsonToPy j) = .ok j
  | .null, _ => rfl
  | .bool _, _ => rfl
  | .int n, h => by
    cases h with
    | int _ hn =>
      simp only [jsonToPy, pyToJson]
      rw [if_pos (show -(2 : Int) ^ 63 ≤ n ∧ n < 2 ^ 63 from hn)]
  | .float _, _ => rfl
  | .str _, _ => rfl
  | .arr l, h => by
    cases h with
    | arr _ hl =>
      simp only [jsonToPy, pyToJson]
      rw [back_list l hl]
      rfl
  | .obj l, h => by
    cases h with
    | obj _ hk hl =>
      simp only [jsonToPy, pyToJson]
      rw [back_items l [] (by simpa using hk) hl]
      rfl

theorem back_list : ∀ (l : List Json), (∀ j ∈ l, Good Signed64 j) → pyToJsonList (jsonToPyList l) = .ok l
  | [], _ => rfl
  | j :: l, h => by
    simp only [jsonToPyList, pyToJsonList]
    rw [back_json (h j (by simp)), back_list l (fun x hx => h x (by simp [hx]))]
    rfl

theorem back_items : ∀ (l m : List (String × Json)), ((m ++ l).map Prod.fst).Pairwise (· < ·) → (∀ x ∈ l, Good Signed64 x.2) → pyToJsonItems (jsonToPyItems l) m = .ok (.obj (m ++ l))
  | [], m, _, _ => by simp [jsonToPyItems, pyToJsonItems]
  | (k, j) :: l, m, hk, h => by
    simp only [jsonToPyItems, pyToJsonItems]
    rw [back_json (h (k, j) (by simp))]
    simp only [Res.bind]
    have hkm : ∀ x ∈ m, x.1 < k := by
      simp only [List.map_append, List.map_cons] at hk
      intro x hx
      exact (List.pairwise_append.mp hk).2.2 x.1 (List.mem_map_of_mem hx) k (by simp)
    rw [assign_last hkm, back_items l _ (by simpa using hk) (fun x hx => h x (by simp [hx]))]
    simp
end

theorem items_map (l : List (String × Json)) : jsonToPyItems l = l.map fun x => (Py.str x.1, jsonToPy x.2) := by
  induction l with
  | nil => rfl
  | cons x l ih => obtain ⟨k, j⟩ := x; simp [jsonToPyItems, ih]

theorem list_map (l : List Json) : jsonToPyList l = l.map jsonToPy := by
  induction l with
  | nil => rfl
  | cons x l ih => simp [jsonToPyList, ih]

/-- A conversion that fails somewhere fails as a whole. -/
theorem list_fails {l : List Py} {v : Py} (hv : v ∈ l) (hf : ∀ j, pyToJson v ≠ .ok j) : ∀ js, pyToJsonList l ≠ .ok js := by
  induction l with
  | nil => cases hv
  | cons x l ih =>
    intro js h
    simp only [pyToJsonList] at h
    cases hx : pyToJson x with
    | ok j =>
      rw [hx] at h
      simp only [Res.bind] at h
      rcases List.mem_cons.mp hv with rfl | hv
      · exact hf j hx
      · cases hl : pyToJsonList l with
        | ok js' => exact ih hv js' hl
        | throws e => rw [hl] at h; cases h
        | ub => rw [hl] at h; cases h
        | terminate => rw [hl] at h; cases h
    | throws e => rw [hx] at h; cases h
    | ub => rw [hx] at h; cases h
    | terminate => rw [hx] at h; cases h

theorem items_fail {l : List (Py × Py)} {x : Py × Py} (hx : x ∈ l) (hf : (∀ k, x.1 ≠ .str k) ∨ ∀ j, pyToJson x.2 ≠ .ok j) :
    ∀ m js, pyToJsonItems l m ≠ .ok js := by
  induction l with
  | nil => cases hx
  | cons y l ih =>
    intro m js h
    obtain ⟨k, v⟩ := y
    by_cases hk : ∃ s, k = .str s
    · obtain ⟨s, rfl⟩ := hk
      simp only [pyToJsonItems] at h
      cases hv : pyToJson v with
      | ok j =>
        rw [hv] at h
        rcases List.mem_cons.mp hx with rfl | hx
        · rcases hf with hf | hf
          · exact hf s rfl
          · exact hf j hv
        · exact ih hx _ js h
      | throws e => rw [hv] at h; cases h
      | ub => rw [hv] at h; cases h
      | terminate => rw [hv] at h; cases h
    · cases k with
      | str s => exact hk ⟨s, rfl⟩
      | surrogates => simp only [pyToJsonItems] at h; cases hv : pyToJson v <;> rw [hv] at h <;> cases h
      | _ => simp only [pyToJsonItems] at h; cases h

end Scalopus.PyJson

namespace Scalopus.C54

open PyJson PyJson.Spec

/-- **C54** in full: a JSON value, with integers as JSON holds them, converts to Python and back. -/
def RoundTrip : Prop := ∀ j, Good Holds64 j → pyToJson (jsonToPy j) = .ok j

/-- **C54, partial.** It holds for values of any size and depth whose integers are signed 64 bit numbers. Missing: unsigned numbers of 2^63 and more. -/
theorem round_trip_partial (j : Json) (h : Good Signed64 j) : pyToJson (jsonToPy j) = .ok j := back_json h

/-- **C54 fails:** a value with such a number anywhere converts to Python, but never back. -/
theorem large_number_fails (n : Int) (hn : 2 ^ 63 ≤ n) (j : Json) (h : Occurs n j) (j' : Json) : pyToJson (jsonToPy j) ≠ .ok j' := by
  induction h generalizing j' with
  | here =>
    simp only [jsonToPy, pyToJson]
    rw [if_neg (by omega)]
    simp
  | arr l j hj _ ih =>
    simp only [jsonToPy, pyToJson]
    intro hc
    cases hl : pyToJsonList (jsonToPyList l) with
    | ok js => exact list_fails (v := jsonToPy j) (by rw [list_map]; exact List.mem_map_of_mem hj) ih js hl
    | throws e => rw [hl] at hc; cases hc
    | ub => rw [hl] at hc; cases hc
    | terminate => rw [hl] at hc; cases hc
  | obj l x hx _ ih =>
    simp only [jsonToPy, pyToJson]
    exact items_fail (x := (Py.str x.1, jsonToPy x.2)) (by rw [items_map]; exact List.mem_map_of_mem (f := fun x => (Py.str x.1, jsonToPy x.2)) hx) (.inr ih) [] j'

theorem not_round_trip : ¬ RoundTrip := fun h => large_number_fails (2 ^ 63) (Int.le_refl _) (.int (2 ^ 63)) .here _ (h _ (.int _ ⟨by decide, by decide⟩))

/-- **C54, exactly.** A JSON value converts to Python and back if and only if no number of 2^63 or more occurs in it. -/
theorem round_trip_iff (j : Json) (h : Good Holds64 j) : pyToJson (jsonToPy j) = .ok j ↔ ∀ n, Occurs n j → n < 2 ^ 63 := by
  constructor
  · intro hj n hn
    by_cases hc : n < 2 ^ 63
    · exact hc
    · exact absurd hj (large_number_fails n (by omega) j hn j)
  · intro hn
    apply back_json
    induction h with
    | null => exact .null
    | bool b => exact .bool b
    | float f => exact .float f
    | str t => exact .str t
    | int n hh => exact .int n ⟨hh.1, hn n .here⟩
    | arr l _ ih => exact .arr l fun j hj => ih j hj fun n ho => hn n (.arr l j hj ho)
    | obj l hk _ ih => exact .obj l hk fun x hx => ih x hx fun n ho => hn n (.obj l x hx ho)

/-- The largest number that is converted back, inside an array, and the next one. -/
example : Good Holds64 (.arr [.int (2 ^ 63 - 1)]) ∧ Good Holds64 (.arr [.int (2 ^ 63)]) ∧ Occurs (2 ^ 63) (.arr [.int (2 ^ 63)]) := by
  refine ⟨.arr _ ?_, .arr _ ?_, .arr _ _ (by simp) .here⟩ <;>
  · intro j hj
    simp only [List.mem_cons, List.not_mem_nil, or_false] at hj
    subst hj
    exact .int _ ⟨by decide, by decide⟩

/-- A nested value that meets the condition of `round_trip_partial`. -/
example : Good Signed64 (.obj [("a", .arr [.int (-5), .null, .str "x"]), ("b", .obj [("c", .bool true)])]) := by
  refine .obj _ (by decide) ?_
  intro x hx
  simp only [List.mem_cons, List.not_mem_nil, or_false] at hx
  rcases hx with rfl | rfl
  · refine .arr _ ?_
    intro j hj
    simp only [List.mem_cons, List.not_mem_nil, or_false] at hj
    rcases hj with rfl | rfl | rfl
    · exact .int _ ⟨by decide, by decide⟩
    · exact .null
    · exact .str _
  · refine .obj _ (by decide) ?_
    intro x hx
    simp only [List.mem_cons, List.not_mem_nil, or_false] at hx
    subst hx
    exact .bool _

end Scalopus.C54

namespace Scalopus.C73

open PyJson PyJson.Spec

theorem list_ok {l : List Py} (h : ∀ v ∈ l, ∃ j, pyToJson v = .ok j ∧ Same v (jsonToPy j)) : ∃ js, pyToJsonList l = .ok js ∧ Same (.list l) (.list (jsonToPyList js)) := by
  suffices ∃ js, pyToJsonList l = .ok js ∧ l.length = (jsonToPyList js).length ∧
      ∀ (i : Nat) (v v' : Py), l[i]? = some v → (jsonToPyList js)[i]? = some v' → Same v v' by
    obtain ⟨js, h1, h2, h3⟩ := this
    exact ⟨js, h1, .list _ _ h2 h3⟩
  induction l with
  | nil => exact ⟨[], rfl, rfl, by simp⟩
  | cons v l ih =>
    obtain ⟨j, h1, h2⟩ := h v (by simp)
    obtain ⟨js, h3, h4, h5⟩ := ih fun x hx => h x (by simp [hx])
    refine ⟨j :: js, by simp only [pyToJsonList]; rw [h1, h3]; rfl, by simp [jsonToPyList, h4], ?_⟩
    intro i w w' hw hw'
    cases i with
    | zero =>
      simp only [jsonToPyList, List.getElem?_cons_zero, Option.some.injEq] at hw hw'
      rw [← hw, ← hw']
      exact h2
    | succ i =>
      simp only [jsonToPyList, List.getElem?_cons_succ] at hw hw'
      exact h5 i w w' hw hw'

theorem items_ok {l : List (String × Py)} (hk : (l.map Prod.fst).Nodup) (h : ∀ x ∈ l, ∃ j, pyToJson x.2 = .ok j ∧ Same x.2 (jsonToPy j)) (m : List (String × Json))
    (hm : ∀ k ∈ m.map Prod.fst, k ∉ l.map Prod.fst) (hmk : (m.map Prod.fst).Nodup) :
    ∃ js, pyToJsonItems (l.map fun x => (Py.str x.1, x.2)) m = .ok (.obj js) ∧ (js.map Prod.fst).Perm (m.map Prod.fst ++ l.map Prod.fst) ∧
      ∀ x ∈ js, x ∈ m ∨ ∃ v, (x.1, v) ∈ l ∧ Same v (jsonToPy x.2) := by
  induction l generalizing m with
  | nil => exact ⟨m, by simp [pyToJsonItems], by simp, fun x hx => .inl hx⟩
  | cons x l ih =>
    obtain ⟨k, v⟩ := x
    obtain ⟨j, h1, h2⟩ := h (k, v) (by simp)
    simp only [List.map_cons, List.nodup_cons] at hk
    have hkm : k ∉ m.map Prod.fst := fun hc => hm k hc (by simp)
    have hp := mem_assign (v := j) hkm
    have hpk := hp.map Prod.fst
    obtain ⟨js, h3, h4, h5⟩ := ih hk.2 (fun x hx => h x (by simp [hx])) (assign m k j) (by
      intro k' hk' hl
      have := hpk.mem_iff.mp hk'
      simp only [List.map_cons, List.mem_cons] at this
      rcases this with rfl | hk'
      · exact hk.1 hl
      · exact hm k' hk' (by simp [hl])) (by
      rw [hpk.nodup_iff]
      simp only [List.map_cons, List.nodup_cons]
      exact ⟨hkm, hmk⟩)
    refine ⟨js, ?_, ?_, ?_⟩
    · simp only [List.map_cons, pyToJsonItems]
      rw [h1]
      exact h3
    · refine h4.trans ((hpk.append_right _).trans ?_)
      simp only [List.map_cons, List.cons_append]
      exact List.perm_middle.symm
    · intro x hx
      rcases h5 x hx with hx | ⟨v', hv, hs⟩
      · rcases List.mem_cons.mp (hp.mem_iff.mp hx) with rfl | hx
        · exact .inr ⟨v, by simp, h2⟩
        · exact .inl hx
      · exact .inr ⟨v', by simp [hv], hs⟩

theorem nodup_unique {l : List (String × Py)} (hk : (l.map Prod.fst).Nodup) {k : String} {v v' : Py} (h : (k, v) ∈ l) (h' : (k, v') ∈ l) : v = v' := by
  induction l with
  | nil => cases h
  | cons x l ih =>
    simp only [List.map_cons, List.nodup_cons] at hk
    rcases List.mem_cons.mp h with h1 | h1 <;> rcases List.mem_cons.mp h' with h2 | h2
    · rw [← h1] at h2
      exact (Prod.mk.inj h2).2.symm
    · exact absurd (List.mem_map_of_mem (f := Prod.fst) h2) (by rw [← h1] at hk; exact hk.1)
    · exact absurd (List.mem_map_of_mem (f := Prod.fst) h1) (by rw [← h2] at hk; exact hk.1)
    · exact ih hk.2 h1 h2

/-- **C73.** A plain Python value, of any size and depth, converts to JSON and back to an equal value. -/
theorem plain_round_trip (v : Py) (h : Plain v) : ∃ j, pyToJson v = .ok j ∧ Same v (jsonToPy j) := by
  induction h with
  | none => exact ⟨.null, rfl, .refl _⟩
  | bool b => exact ⟨.bool b, rfl, .refl _⟩
  | int n hn => exact ⟨.int n, by simp only [pyToJson]; rw [if_pos (show -(2 : Int) ^ 63 ≤ n ∧ n < 2 ^ 63 from hn)], .refl _⟩
  | float f => exact ⟨.float f, rfl, .refl _⟩
  | str s => exact ⟨.str s, rfl, .refl _⟩
  | list l _ ih =>
    obtain ⟨js, h1, h2⟩ := list_ok ih
    exact ⟨.arr js, by simp only [pyToJson]; rw [h1]; rfl, h2⟩
  | dict l hk _ ih =>
    obtain ⟨js, h1, h2, h3⟩ := items_ok hk ih [] (by simp) (by simp)
    refine ⟨.obj js, by simp only [pyToJson]; rw [h1], ?_⟩
    simp only [jsonToPy, items_map]
    refine .dict _ _ ?_ ?_
    · simp only [List.map_map]
      have := (h2.symm.map Py.str)
      simpa [List.map_map, Function.comp_def] using this
    · intro k w w' hw hw'
      simp only [List.mem_map, Prod.mk.injEq, Prod.exists] at hw hw'
      obtain ⟨k1, v1, hm1, rfl, rfl⟩ := hw
      obtain ⟨k2, j2, hm2, hkk, rfl⟩ := hw'
      cases hkk
      rcases h3 _ hm2 with hc | ⟨v', hv', hs⟩
      · cases hc
      · rw [nodup_unique hk hm1 hv']
        exact hs

/-- Tuples come back as lists. -/
theorem tuple_becomes_list (l : List Py) (h : ∀ v ∈ l, Plain v) : ∃ j, pyToJson (.tuple l) = .ok j ∧ Same (.list l) (jsonToPy j) := by
  obtain ⟨js, h1, h2⟩ := list_ok fun v hv => plain_round_trip v (h v hv)
  exact ⟨.arr js, by simp only [pyToJson]; rw [h1]; rfl, h2⟩

/-- A dict with a key that is not a string is refused. -/
theorem key_refused (l : List (Py × Py)) (x : Py × Py) (hx : x ∈ l) (hk : ∀ k, x.1 ≠ .str k) (j : Json) : pyToJson (.dict l) ≠ .ok j := by
  simp only [pyToJson]
  exact items_fail hx (.inl hk) [] j

/-- A dict or list that contains an int beyond 64 bits is refused. -/
theorem large_int_refused (l : List Py) (n : Int) (hn : ¬ Signed64 n) (h : .int n ∈ l) (j : Json) : pyToJson (.list l) ≠ .ok j := by
  simp only [pyToJson]
  intro hc
  have hf := list_fails (l := l) h fun j => by
    simp only [pyToJson]
    rw [if_neg (show ¬ (-(2 : Int) ^ 63 ≤ n ∧ n < 2 ^ 63) from hn)]
    simp
  cases hl : pyToJsonList l with
  | ok js => exact hf js hl
  | throws e => rw [hl] at hc; cases hc
  | ub => rw [hl] at hc; cases hc
  | terminate => rw [hl] at hc; cases hc

/-- A string with surrogates is refused, wherever it is in a list or a dict. -/
theorem surrogates_refused (l : List Py) (h : .surrogates ∈ l) (d : List (Py × Py)) (x : Py × Py) (hx : x ∈ d) (hs : x.1 = .surrogates ∨ x.2 = .surrogates) (j : Json) :
    pyToJson (.list l) ≠ .ok j ∧ pyToJson (.tuple l) ≠ .ok j ∧ pyToJson (.dict d) ≠ .ok j := by
  have hf := list_fails (l := l) h fun j => by simp [pyToJson]
  refine ⟨fun hc => ?_, fun hc => ?_, ?_⟩
  · simp only [pyToJson] at hc
    cases hl : pyToJsonList l with
    | ok js => exact hf js hl
    | throws e => rw [hl] at hc; cases hc
    | ub => rw [hl] at hc; cases hc
    | terminate => rw [hl] at hc; cases hc
  · simp only [pyToJson] at hc
    cases hl : pyToJsonList l with
    | ok js => exact hf js hl
    | throws e => rw [hl] at hc; cases hc
    | ub => rw [hl] at hc; cases hc
    | terminate => rw [hl] at hc; cases hc
  · simp only [pyToJson]
    refine items_fail hx ?_ [] j
    rcases hs with e | e
    · exact .inl fun k => by rw [e]; simp
    · exact .inr fun j => by rw [e]; simp [pyToJson]

/-- An object that cannot be represented is silently replaced by None, also inside a list. -/
theorem unknown_becomes_none (l : List Py) (h : ∀ v ∈ l, Plain v ∨ v = .other) (i : Nat) (hi : l[i]? = some .other) :
    ∃ js, pyToJson (.list l) = .ok (.arr js) ∧ js.length = l.length ∧ (jsonToPyList js)[i]? = some .none := by
  suffices ∃ js, pyToJsonList l = .ok js ∧ js.length = l.length ∧ (jsonToPyList js)[i]? = some .none by
    obtain ⟨js, h1, h2⟩ := this
    exact ⟨js, by simp only [pyToJson]; rw [h1]; rfl, h2⟩
  have all : ∀ l : List Py, (∀ v ∈ l, Plain v ∨ v = .other) → ∃ js, pyToJsonList l = .ok js ∧ js.length = l.length := by
    intro l
    induction l with
    | nil => exact fun _ => ⟨[], rfl, rfl⟩
    | cons v l ih =>
      intro h
      obtain ⟨js, h1, h2⟩ := ih fun x hx => h x (by simp [hx])
      have : ∃ j, pyToJson v = .ok j := by
        rcases h v (by simp) with hv | rfl
        · exact (plain_round_trip v hv).imp fun _ h => h.1
        · exact ⟨.null, rfl⟩
      obtain ⟨j, hj⟩ := this
      exact ⟨j :: js, by simp only [pyToJsonList]; rw [hj, h1]; rfl, by simp [h2]⟩
  induction l generalizing i with
  | nil => simp at hi
  | cons v l ih =>
    have hr : ∀ v ∈ l, Plain v ∨ v = .other := fun x hx => h x (by simp [hx])
    cases i with
    | zero =>
      simp only [List.getElem?_cons_zero, Option.some.injEq] at hi
      subst hi
      obtain ⟨js, h1, h2⟩ := all l hr
      exact ⟨.null :: js, by simp only [pyToJsonList, pyToJson]; rw [h1]; rfl, by simp [h2], rfl⟩
    | succ i =>
      simp only [List.getElem?_cons_succ] at hi
      obtain ⟨js, h1, h2, h3⟩ := ih hr i hi
      have : ∃ j, pyToJson v = .ok j := by
        rcases h v (by simp) with hv | rfl
        · exact (plain_round_trip v hv).imp fun _ h => h.1
        · exact ⟨.null, rfl⟩
      obtain ⟨j, hj⟩ := this
      exact ⟨j :: js, by simp only [pyToJsonList]; rw [hj, h1]; rfl, by simp [h2], by simpa [jsonToPyList] using h3⟩

/-- A nested value that is plain. -/
example : Plain (.dict ([("a", .list [.int 3, .none])].map fun x => (Py.str x.1, x.2))) := by
  refine .dict _ (by decide) ?_
  intro x hx
  simp only [List.mem_singleton] at hx
  subst hx
  refine .list _ ?_
  intro v hv
  simp only [List.mem_cons, List.not_mem_nil, or_false] at hv
  rcases hv with rfl | rfl
  · exact .int _ ⟨by decide, by decide⟩
  · exact .none

end Scalopus.C73
