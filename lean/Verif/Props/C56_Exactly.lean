import Verif.Props.C56_PyTracing

/-!
# C56: exactly which calls of one thread restore the state
-/

namespace Scalopus.C56

open PyTracing PyTracing.Spec

/-- **C56, exactly, for a thread on its own.** For every tree of calls of suppressed functions, in every state: after a call of `f` the tracing state is what it was if and only if `f` is not called again inside or tracing was off
    anyway. -/
theorem alone_restored_iff (s : State) (t f : Nat) (kids : List Tree) (hpc : (s.thr t).pc = .idle) :
    ∃ s', run s ((Tree.call f kids).acts t) = some s' ∧ ((s'.thr t).on = (s.thr t).on ↔ ¬ callsL f kids ∨ (s.thr t).on = false) := by
  by_cases hf : callsL f kids
  · obtain ⟨s', e, h, -⟩ := recursion_disables s t f kids hpc hf
    refine ⟨s', e, ?_⟩
    rw [h]
    constructor
    · intro h1; exact .inr h1.symm
    · rintro (h1 | h1)
      · exact absurd hf h1
      · exact h1.symm
  · obtain ⟨s', e, h, -⟩ := alone_restored s t f kids hpc hf
    exact ⟨s', e, by simp [h, hf]⟩

/-- A function that is called again by a function that it calls, at the start of a program. -/
example : (({} : State).thr 0).pc = .idle ∧ callsL 0 [.call 1 [.call 0 []]] ∧ ¬ callsL 0 [.call 1 [.call 2 []]] := by
  refine ⟨rfl, ?_, ?_⟩ <;> simp [callsL, Tree.Calls]

end Scalopus.C56
