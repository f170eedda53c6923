import Verif.Props.C131_PyConfig

/-!
# C131: exactly what a program with assignments to single entries sends
-/

namespace Scalopus.C131

open PyConfig

instance (x : Stmt) : Decidable (Item x) := by
  cases x <;> simp only [Item] <;> infer_instance

/-- Taking out all statements that change single entries changes nothing. -/
theorem run_without_items (p : List Stmt) : run {} p = run {} (p.filter fun x => ¬ Item x) := by
  suffices H : ∀ q : List Stmt, run {} (q ++ p) = run {} (q ++ p.filter fun x => ¬ Item x) from H []
  induction p with
  | nil => intro q; rfl
  | cons x p ih =>
    intro q
    by_cases hx : Item x
    · rw [items_lost q p x hx, List.filter_cons_of_neg (by simpa using hx)]
      exact ih q
    · rw [List.filter_cons_of_pos (by simpa using hx)]
      have := ih (q ++ [x])
      simpa using this

/-- **C131, exactly.** For every program: what it sends, and what its configurations are, is what the program says that is left when all assignments to, and deletions of, single entries of `thread_state` are taken out. -/
theorem as_written_without_items (p : List Stmt) (hp : ∀ x ∈ p, Proper x) :
    (run {} p).sent.map plain = (world (p.filter fun x => ¬ Item x)).sent ∧ (run {} p).confs.map plain = (world (p.filter fun x => ¬ Item x)).confs := by
  rw [run_without_items]
  exact as_written_partial _ (fun x hx => hp x (List.mem_filter.1 hx).1) (fun x hx => by simpa using (List.mem_filter.1 hx).2)

/-- So a program sends what it says if and only if its assignments to single entries make no difference to what it says. -/
theorem as_written_iff (p : List Stmt) (hp : ∀ x ∈ p, Proper x) :
    (run {} p).sent.map plain = (world p).sent ↔ (world (p.filter fun x => ¬ Item x)).sent = (world p).sent := by
  rw [(as_written_without_items p hp).1]

/-- A program that assigns to an entry and then sends. -/
example : ∀ x ∈ ([.new, .entry 0 5 (.bool true), .item 0 7 (.bool false), .send 0 {}] : List Stmt), Proper x := by
  intro x hx
  simp only [List.mem_cons, List.not_mem_nil, or_false] at hx
  rcases hx with rfl | rfl | rfl | rfl
  · trivial
  · exact ⟨⟨by decide, by decide⟩, by simp [Value]⟩
  · exact ⟨⟨by decide, by decide⟩, by simp [Value]⟩
  · exact ⟨by simp, by simp⟩

end Scalopus.C131
