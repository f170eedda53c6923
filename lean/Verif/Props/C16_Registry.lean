import Verif.Model.Registry

/-!
# C16: endpoint registry
-/

namespace Scalopus.C16

open Protocol Registry

/-- Specification: the endpoint added last to transport `t` under the name, found by looking through the history from its
    end. -/
def lastAdded (getName : Nat → Bytes) (h : List (Nat × Nat)) (t : Nat) (name : Bytes) : Option Nat :=
  (h.reverse.find? (fun a => a.1 = t && getName a.2 = name)).map (·.2)

/-- Specification: the transport to which endpoint `e` was added last. -/
def lastTransport (h : List (Nat × Nat)) (e : Nat) : Option Nat :=
  (h.reverse.find? (fun a => a.2 = e)).map (·.1)

theorem run_snoc (getName : Nat → Bytes) (h : List (Nat × Nat)) (a : Nat × Nat) :
    run getName (h ++ [a]) = addEndpoint getName (run getName h) a.1 a.2 := by simp [run]

theorem find_assign (m : List (Bytes × Nat)) (k k' : Bytes) (v : Nat) :
    ((assign m k v).find? (fun e => e.1 = k')).map (·.2) =
      if k = k' then some v else (m.find? (fun e => e.1 = k')).map (·.2) := by
  by_cases h : k = k'
  · simp [assign, h]
  · simp only [assign, List.find?_cons, h, decide_false, if_false]
    congr 1
    rw [List.find?_filter]
    congr 1
    funext e
    by_cases he : e.1 = k'
    · simp [he]; exact fun e => h e.symm
    · simp [he]

/-- A history read from its end, as an induction principle. -/
theorem snoc_induction {P : List (Nat × Nat) → Prop} (h0 : P []) (hs : ∀ h a, P h → P (h ++ [a])) : ∀ h, P h := by
  intro h
  rw [← List.reverse_reverse h]
  generalize h.reverse = r
  induction r with
  | nil => exact h0
  | cons a r ih => rw [List.reverse_cons]; exact hs _ _ ih

/-- **C16.** After any history of `addEndpoint` calls on any transports, `getEndpoint(name)` on a transport returns the endpoint
    added last to it under this name, or null if there is none. -/
theorem getEndpoint_last_added (getName : Nat → Bytes) (h : List (Nat × Nat)) (t : Nat) (name : Bytes) :
    getEndpoint (run getName h) t name = lastAdded getName h t name := by
  induction h using snoc_induction with
  | h0 => rfl
  | hs h a ih =>
    rw [run_snoc]
    unfold getEndpoint lastAdded at *
    simp only [List.reverse_append, List.reverse_cons, List.reverse_nil, List.nil_append, List.singleton_append,
      List.find?_cons, addEndpoint]
    by_cases ht : t = a.1
    · subst ht
      simp only [if_true, find_assign, decide_true, Bool.true_and]
      by_cases hn : getName a.2 = name
      · simp [hn]
      · simp [hn]; exact ih
    · have : ¬ a.1 = t := fun e => ht e.symm
      simp [ht, this]; exact ih

/-- **C16.** `endpoints()` of a transport lists exactly the names that were added to it, each once. -/
theorem endpoints_lists_added (getName : Nat → Bytes) (h : List (Nat × Nat)) (t : Nat) :
    (endpointNames (run getName h) t).Nodup ∧
    ∀ name, name ∈ endpointNames (run getName h) t ↔ ∃ e, (t, e) ∈ h ∧ getName e = name := by
  induction h using snoc_induction with
  | h0 => exact ⟨by simp [endpointNames, run], by simp [endpointNames, run]⟩
  | hs h a ih =>
    rw [run_snoc]
    unfold endpointNames at *
    by_cases ht : t = a.1
    · subst ht
      have hf : ∀ (m : List (Bytes × Nat)) k, (m.filter (fun e => e.1 ≠ k)).map (·.1) = (m.map (·.1)).filter (· ≠ k) := by
        intro m k
        induction m with
        | nil => rfl
        | cons x xs ihx => by_cases hx : x.1 = k <;> simp_all [List.filter_cons]
      simp only [addEndpoint, if_true, assign, List.map_cons, hf]
      constructor
      · rw [List.nodup_cons]
        exact ⟨by simp, List.Sublist.nodup List.filter_sublist ih.1⟩
      · intro name
        simp only [List.mem_cons, List.mem_filter, ih.2, List.mem_append, List.not_mem_nil, or_false]
        constructor
        · rintro (rfl | ⟨⟨e, he, rfl⟩, _⟩)
          · exact ⟨a.2, Or.inr rfl, rfl⟩
          · exact ⟨e, Or.inl he, rfl⟩
        · rintro ⟨e, he | he, rfl⟩
          · by_cases hn : getName e = getName a.2
            · exact Or.inl hn
            · exact Or.inr ⟨⟨e, he, rfl⟩, by simpa using hn⟩
          · left; rw [← he]
    · simp only [addEndpoint, ht, if_false]
      refine ⟨ih.1, ?_⟩
      intro name
      rw [ih.2]
      constructor
      · rintro ⟨e, he, rfl⟩; exact ⟨e, by simp [he], rfl⟩
      · rintro ⟨e, he, rfl⟩
        simp at he
        rcases he with he | he
        · exact ⟨e, he, rfl⟩
        · exact absurd (by rw [← he]) ht

/-- **C16.** An endpoint reaches the transport it was added to last, and none if it was never added. -/
theorem endpoint_reaches_transport (getName : Nat → Bytes) (h : List (Nat × Nat)) (e : Nat) :
    (run getName h).transport e = lastTransport h e := by
  induction h using snoc_induction with
  | h0 => rfl
  | hs h a ih =>
    rw [run_snoc]
    unfold lastTransport at *
    simp only [List.reverse_append, List.reverse_cons, List.reverse_nil, List.nil_append, List.singleton_append,
      List.find?_cons, addEndpoint]
    by_cases he : e = a.2
    · simp [he]
    · have : ¬ a.2 = e := fun x => he x.symm
      simp [he, this]; exact ih

/-- Two endpoints with the same name: the later one replaces the earlier one. -/
example :
    let n : Nat → Bytes := fun e => if e = 3 then [2] else [1]
    getEndpoint (run n [(0, 1), (0, 3), (0, 2), (7, 1)]) 0 [1] = some 2 ∧
    getEndpoint (run n [(0, 1), (0, 3), (0, 2), (7, 1)]) 0 [2] = some 3 ∧
    getEndpoint (run n [(0, 1), (0, 3), (0, 2), (7, 1)]) 0 [9] = none := by decide

end Scalopus.C16
