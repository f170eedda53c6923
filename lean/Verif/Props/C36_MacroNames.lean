import Verif.Props.C26_TraceId
import Verif.Props.C35_ScopeNames

/-!
# C36: the names that the counter macros register

The model of the ids (`Model/Crc`) works on bytes, that of the names (`Model/ScopeNames`) on strings; here both are brought together.
-/

namespace Scalopus.C36

open ScopeNames Crc

/-- The name from which the id of a counter is made is the one that is split when the counter is shown. -/
theorem counter_id_of_name (file : List UInt8) (line : Nat) (name series : String) :
    Site.id ⟨file, line, .countSeries (bytes name) (bytes series)⟩ = idString file (bytes (seriesName name series)) ∧
    Site.id ⟨file, line, .count (bytes name)⟩ = idString file (bytes (countName name)) := by
  have e : ∀ a b : String, bytes (a ++ "/" ++ b) = bytes a ++ [47] ++ bytes b := by
    intro a b
    simp [bytes]
  constructor
  · simp only [Site.id, Macro.registered, seriesName, e]
  · simp only [Site.id, Macro.registered, countName, seriesName, e]
    rfl

/-- **C36, from the macro to the viewer.** Two counters with a series in the same file whose names have no `/` and that have the same registered bytes are the same counter and series. -/
theorem same_registered {n₁ n₂ s₁ s₂ : List UInt8} (h₁ : (47 : UInt8) ∉ n₁) (h₂ : (47 : UInt8) ∉ n₂)
    (h : (Macro.countSeries n₁ s₁).registered = (Macro.countSeries n₂ s₂).registered) : n₁ = n₂ ∧ s₁ = s₂ := by
  simp only [Macro.registered, List.append_assoc, List.singleton_append] at h
  induction n₁ generalizing n₂ with
  | nil => cases n₂ with
    | nil => simpa using h
    | cons c n₂ => simp only [List.nil_append, List.cons_append, List.cons.injEq] at h; exact absurd h.1 (fun e => h₂ (by simp [e]))
  | cons c n₁ ih => cases n₂ with
    | nil => simp only [List.nil_append, List.cons_append, List.cons.injEq] at h; exact absurd h.1.symm (fun e => h₁ (by simp [e]))
    | cons d n₂ =>
      simp only [List.cons_append, List.cons.injEq] at h
      obtain ⟨e1, e2⟩ := ih (fun hm => h₁ (by simp [hm])) (fun hm => h₂ (by simp [hm])) h.2
      exact ⟨by rw [h.1, e1], e2⟩

example : (47 : UInt8) ∉ bytes "memory" := by decide

end Scalopus.C36
