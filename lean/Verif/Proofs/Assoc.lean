/-!
# Lists of pairs as maps: lemmas about `List.lookup`
-/

namespace Scalopus.Assoc

variable {α β : Type} [BEq α] [LawfulBEq α] [DecidableEq α]

theorem lookup_cons' (a : α) (b : β) (l : List (α × β)) (k : α) :
    ((a, b) :: l).lookup k = if k = a then some b else l.lookup k := by
  simp only [List.lookup_cons]
  by_cases h : k = a
  · simp [h]
  · have : (k == a) = false := by simp [h]
    rw [this]
    simp [h]

theorem lookup_snoc (l : List (α × β)) (k k' : α) (v : β) :
    (l ++ [(k', v)]).lookup k = if (l.lookup k).isSome then l.lookup k else if k = k' then some v else none := by
  rw [List.lookup_append]
  cases h : l.lookup k <;> simp [lookup_cons']

theorem lookup_filter (l : List (α × β)) (k t : α) :
    (l.filter fun x => x.1 ≠ t).lookup k = if k = t then none else l.lookup k := by
  induction l with
  | nil => simp
  | cons x l ih =>
    obtain ⟨a, b⟩ := x
    simp only [List.filter_cons]
    by_cases h : a = t
    · subst h
      simp only [ne_eq, not_true_eq_false, decide_false, Bool.false_eq_true, ↓reduceIte, ih]
      by_cases hk : k = a
      · simp [hk]
      · simp [hk, lookup_cons']
    · simp only [ne_eq, h, not_false_eq_true, decide_true, ↓reduceIte, lookup_cons', ih]
      by_cases hk : k = a
      · subst hk; simp [h]
      · simp [hk]

theorem lookup_mem {l : List (α × β)} {k : α} {v : β} (h : l.lookup k = some v) : (k, v) ∈ l := by
  induction l with
  | nil => simp at h
  | cons x l ih =>
    obtain ⟨a, b⟩ := x
    simp only [lookup_cons'] at h
    by_cases hk : k = a
    · subst hk
      simp at h
      simp [h]
    · simp [hk] at h
      simp [ih h]

theorem lookup_none {l : List (α × β)} {k : α} : l.lookup k = none ↔ k ∉ l.map (·.1) := by
  induction l with
  | nil => simp
  | cons x l ih =>
    obtain ⟨a, b⟩ := x
    simp only [lookup_cons']
    by_cases hk : k = a
    · subst hk
      simp
    · simp [hk, ih]

theorem mem_lookup {l : List (α × β)} (hn : (l.map (·.1)).Nodup) {k : α} {v : β} (h : (k, v) ∈ l) : l.lookup k = some v := by
  induction l with
  | nil => simp at h
  | cons x l ih =>
    obtain ⟨a, b⟩ := x
    simp only [List.map_cons, List.nodup_cons] at hn
    simp only [lookup_cons']
    rcases List.mem_cons.mp h with h2 | h2
    · obtain ⟨rfl, rfl⟩ := Prod.mk.inj h2
      simp
    · have : k ≠ a := by
        rintro rfl
        exact hn.1 (List.mem_map.mpr ⟨(k, v), h2, rfl⟩)
      simp [this, ih hn.2 h2]

theorem modify_eq_set {γ : Type} {l : List γ} {i : Nat} {x : γ} (h : l[i]? = some x) (f : γ → γ) : l.modify i f = l.set i (f x) := by
  apply List.ext_getElem?
  intro j
  simp only [List.getElem?_modify, List.getElem?_set]
  by_cases hj : i = j
  · subst hj
    obtain ⟨hl, _⟩ := List.getElem?_eq_some_iff.mp h
    simp_all
  · simp [hj]

end Scalopus.Assoc
