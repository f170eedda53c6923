import Verif.Props.C54_PyJson

/-!
# C73: exactly which Python values are refused
-/

namespace Scalopus.C73

open PyJson

/-- The values with, at any depth, a string with surrogates, an int beyond 64 bits or a dict key that is not a string. -/
inductive Refused : Py → Prop where
  | surrogates : Refused .surrogates
  | int {n : Int} : ¬ (-(2 : Int) ^ 63 ≤ n ∧ n < 2 ^ 63) → Refused (.int n)
  | list {l : List Py} {v : Py} : v ∈ l → Refused v → Refused (.list l)
  | tuple {l : List Py} {v : Py} : v ∈ l → Refused v → Refused (.tuple l)
  | key {l : List (Py × Py)} {k v : Py} : (k, v) ∈ l → (∀ s, k ≠ .str s) → Refused (.dict l)
  | value {l : List (Py × Py)} {k v : Py} : (k, v) ∈ l → Refused v → Refused (.dict l)

/-- The values with a set, at any depth. (For sets see C157.) -/
inductive HasSet : Py → Prop where
  | set {l : List Py} : HasSet (.set l)
  | list {l : List Py} {v : Py} : v ∈ l → HasSet v → HasSet (.list l)
  | tuple {l : List Py} {v : Py} : v ∈ l → HasSet v → HasSet (.tuple l)
  | value {l : List (Py × Py)} {k v : Py} : (k, v) ∈ l → HasSet v → HasSet (.dict l)

theorem list_ok_iff {l : List Py} : (∃ js, pyToJsonList l = .ok js) ↔ ∀ v ∈ l, ∃ j, pyToJson v = .ok j := by
  induction l with
  | nil => simp [pyToJsonList]
  | cons v l ih =>
    simp only [pyToJsonList, List.mem_cons, forall_eq_or_imp, ← ih]
    cases h1 : pyToJson v with
    | ok j =>
      cases h2 : pyToJsonList l with
      | ok js => simp [Res.bind]
      | _ => simp [Res.bind]
    | _ => simp [Res.bind]

theorem items_ok_iff : ∀ (l : List (Py × Py)) (m : List (String × Json)), (∃ j, pyToJsonItems l m = .ok j) ↔ ∀ x ∈ l, (∃ s, x.1 = .str s) ∧ ∃ j, pyToJson x.2 = .ok j
  | [], m => by simp [pyToJsonItems]
  | (k, v) :: l, m => by
    simp only [List.mem_cons, forall_eq_or_imp]
    cases k with
    | str s =>
      simp only [pyToJsonItems]
      cases h1 : pyToJson v with
      | ok j => simp only [Res.bind, items_ok_iff l]; simp
      | _ => simp [Res.bind]
    | surrogates =>
      simp only [pyToJsonItems]
      cases h1 : pyToJson v <;> simp [Res.bind]
    | _ => simp [pyToJsonItems]

theorem refused_fails {v : Py} (h : Refused v) : ¬ ∃ j, pyToJson v = .ok j := by
  induction h with
  | surrogates => simp [pyToJson]
  | int hn => simp only [pyToJson, if_neg hn]; simp
  | @list l v hv _ ih =>
    rintro ⟨j, hj⟩
    simp only [pyToJson] at hj
    cases hl : pyToJsonList l with
    | ok js => exact ih (list_ok_iff.1 ⟨js, hl⟩ v hv)
    | _ => rw [hl] at hj; cases hj
  | @tuple l v hv _ ih =>
    rintro ⟨j, hj⟩
    simp only [pyToJson] at hj
    cases hl : pyToJsonList l with
    | ok js => exact ih (list_ok_iff.1 ⟨js, hl⟩ v hv)
    | _ => rw [hl] at hj; cases hj
  | @key l k v hx hk =>
    rintro ⟨j, hj⟩
    simp only [pyToJson] at hj
    obtain ⟨⟨s, hs⟩, -⟩ := (items_ok_iff l []).1 ⟨j, hj⟩ _ hx
    exact hk s hs
  | @value l k v hx _ ih =>
    rintro ⟨j, hj⟩
    simp only [pyToJson] at hj
    exact ih ((items_ok_iff l []).1 ⟨j, hj⟩ _ hx).2

theorem accepted : ∀ v : Py, ¬ HasSet v → ¬ Refused v → ∃ j, pyToJson v = .ok j
  | .none, _, _ => ⟨_, by rw [pyToJson]⟩
  | .bool b, _, _ => ⟨_, by rw [pyToJson]⟩
  | .int n, _, h => ⟨.int n, by rw [pyToJson, if_pos (Classical.byContradiction fun hn => h (.int hn))]⟩
  | .float f, _, _ => ⟨_, by rw [pyToJson]⟩
  | .str s, _, _ => ⟨_, by rw [pyToJson]⟩
  | .surrogates, _, h => absurd .surrogates h
  | .bytes l, _, _ => ⟨_, by rw [pyToJson]⟩
  | .list l, hs, h => by
    obtain ⟨js, hjs⟩ := list_ok_iff.2 fun v hv => accepted v (fun hx => hs (.list hv hx)) fun hx => h (.list hv hx)
    exact ⟨.arr js, by rw [pyToJson, hjs]; rfl⟩
  | .tuple l, hs, h => by
    obtain ⟨js, hjs⟩ := list_ok_iff.2 fun v hv => accepted v (fun hx => hs (.tuple hv hx)) fun hx => h (.tuple hv hx)
    exact ⟨.arr js, by rw [pyToJson, hjs]; rfl⟩
  | .dict l, hs, h => by
    obtain ⟨j, hj⟩ := (items_ok_iff l []).2 fun x hx =>
      ⟨Classical.byContradiction fun hk => h (.key (k := x.1) (v := x.2) hx fun s e => hk ⟨s, e⟩), accepted x.2 (fun hy => hs (.value (k := x.1) hx hy)) fun hy => h (.value (k := x.1) hx hy)⟩
    exact ⟨j, by rw [pyToJson, hj]⟩
  | .set l, hs, _ => absurd .set hs
  | .other, _, _ => ⟨_, by rw [pyToJson]⟩
termination_by v => sizeOf v
decreasing_by
  · have := List.sizeOf_lt_of_mem hv
    simp only [Py.list.sizeOf_spec]
    omega
  · have := List.sizeOf_lt_of_mem hv
    simp only [Py.tuple.sizeOf_spec]
    omega
  · have h1 := List.sizeOf_lt_of_mem hx
    have h2 : sizeOf x = 1 + sizeOf x.1 + sizeOf x.2 := by cases x; rfl
    simp only [Py.dict.sizeOf_spec]
    omega

/-- **C73, exactly.** A Python value without sets, of any size and depth, is refused exactly if it has somewhere a string with surrogates, an int beyond 64 bits or a key that is not a string.
    Every other value is accepted, also objects that JSON cannot hold. -/
theorem refused_iff (v : Py) (hs : ¬ HasSet v) : (∀ j, pyToJson v ≠ .ok j) ↔ Refused v := by
  constructor
  · intro h
    exact Classical.byContradiction fun hn => by
      obtain ⟨j, hj⟩ := accepted v hs hn
      exact h j hj
  · intro h j hj
    exact refused_fails h ⟨j, hj⟩

/-- With sets, too, such values are refused. -/
theorem refused_always {v : Py} (h : Refused v) (j : Json) : pyToJson v ≠ .ok j := fun hj => refused_fails h ⟨j, hj⟩

/-- A number deep in a value, and a value that only looks strange. -/
example : Refused (.dict [(.str "a", .list [.none, .tuple [.int (2 ^ 63)]])]) :=
  .value (k := .str "a") (v := .list [.none, .tuple [.int (2 ^ 63)]]) (by simp) (.list (v := .tuple [.int (2 ^ 63)]) (by simp) (.tuple (v := .int (2 ^ 63)) (by simp) (.int (by decide))))

example : ¬ HasSet (.list [.other, .dict []]) ∧ ∃ j, pyToJson (.list [.other, .dict []]) = .ok j := by
  refine ⟨fun h => ?_, .arr [.null, .obj []], by simp [pyToJson, pyToJsonList, pyToJsonItems, Res.bind]⟩
  cases h with
  | list hv h =>
    simp only [List.mem_cons, List.not_mem_nil, or_false] at hv
    rcases hv with rfl | rfl
    · cases h
    · cases h with
      | value hx _ => cases hx

end Scalopus.C73
