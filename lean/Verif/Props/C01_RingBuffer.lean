import Verif.Proofs.RingBuffer

/-!
# C01: the ring buffer is a bounded FIFO queue
-/

namespace Scalopus.C01

open RingBuffer Spec.Queue

/-- Dispatch of a call to the modelled member function (spsc_ringbuffer.h:70-149). -/
def call (b : Ring α) : Op α → Res (Ring α × Out α)
  | .push v => (push b v).bind fun (b, r) => .ok (b, .accepted r)
  | .pop => (pop b).bind fun (b, r) => .ok (b, .popped r)
  | .popInto n => (popInto b n).bind fun (b, r) => .ok (b, .poppedMany r)
  | .size => .ok (b, .count (size b))
  | .empty => .ok (b, .isEmpty (empty b))

/-- The answers of the ring buffer to a sequence of calls. -/
def runRing (b : Ring α) : List (Op α) → Res (List (Out α))
  | [] => .ok []
  | o :: os => (call b o).bind fun (b, r) => (runRing b os).bind fun rs => .ok (r :: rs)

theorem call_rep {n : Nat} {b : Ring α} {q : List α} (h : Rep n b q) (o : Op α) :
    ∃ b', call b o = .ok (b', (step (n - 1) q o).2) ∧ Rep n b' (step (n - 1) q o).1 := by
  have hcap := h.hcap
  cases o with
  | push v =>
    by_cases hf : q.length + 1 = n
    · exact ⟨b, by simp [call, push_full h v hf, Res.bind, step, show ¬ q.length < n - 1 by omega],
        by simpa [step, show ¬ q.length < n - 1 by omega] using h⟩
    · obtain ⟨b', h1, h2⟩ := push_room h v (by omega)
      exact ⟨b', by simp [call, h1, Res.bind, step, show q.length < n - 1 by omega],
        by simpa [step, show q.length < n - 1 by omega] using h2⟩
  | pop =>
    cases q with
    | nil => exact ⟨b, by simp [call, pop_nil h, Res.bind, step], by simpa [step] using h⟩
    | cons v q =>
      obtain ⟨b', h1, h2⟩ := pop_cons h
      exact ⟨b', by simp [call, h1, Res.bind, step], by simpa [step] using h2⟩
  | popInto m =>
    obtain ⟨b', h1, h2⟩ := popInto_rep h m
    exact ⟨b', by simp [call, h1, Res.bind, step], by simpa [step] using h2⟩
  | size => exact ⟨b, by simp [call, step, size, available_rep h], by simpa [step] using h⟩
  | empty =>
    refine ⟨b, ?_, by simpa [step] using h⟩
    have := empty_rep h
    simp only [call, step, empty]
    congr 3
    rw [Bool.eq_iff_iff]
    simp [this]

theorem runRing_rep {n : Nat} (ops : List (Op α)) :
    ∀ {b : Ring α} {q : List α}, Rep n b q → runRing b ops = .ok (run (n - 1) q ops) := by
  induction ops with
  | nil => intros; rfl
  | cons o os ih =>
    intro b q h
    obtain ⟨b', h1, h2⟩ := call_rep h o
    simp [runRing, h1, Res.bind, ih h2, run]

/-- **C01.** For every size `n > 0`, a fresh ring buffer of size `n` answers every sequence of calls exactly as a
    FIFO queue of capacity `n - 1` does, and no call crashes or reads a value that was not pushed. -/
theorem ring_is_bounded_queue {n : Nat} (hn : 0 < n) (ops : List (Op α)) :
    ((mk α n).bind fun b => runRing b ops) = .ok (run (n - 1) [] ops) := by
  simp only [mk, if_neg (show ¬ n = 0 by omega), Res.bind]
  exact runRing_rep ops (rep_mk hn)

/-- **C01.** Size zero is refused by the constructor with an exception. -/
theorem ring_size_zero_refused : mk α 0 = .throws "std::runtime_error" := rfl

/-- **C01 (`available`).** For two positions in a buffer of size `n` it gives the number of places from the second on to the first, around the end: the only number below `n` that does. -/
theorem available_distance {n w r : Nat} (hw : w < n) (hr : r < n) :
    available n w r < n ∧ (r + available n w r) % n = w ∧ ∀ d < n, (r + d) % n = w → d = available n w r := by
  have hmod : ∀ x, x < 2 * n → x % n = if x < n then x else x - n := by
    intro x hx
    split
    · exact Nat.mod_eq_of_lt ‹_›
    · rw [Nat.mod_eq_sub_mod (by omega), Nat.mod_eq_of_lt (by omega)]
  simp only [available]
  split
  · refine ⟨by omega, ?_, ?_⟩
    · rw [hmod _ (by omega)]; split <;> omega
    · intro d hd h; rw [hmod _ (by omega)] at h; split at h <;> omega
  · refine ⟨by omega, ?_, ?_⟩
    · rw [hmod _ (by omega)]; split <;> omega
    · intro d hd h; rw [hmod _ (by omega)] at h; split at h <;> omega

/-- Around the end of a buffer of size 5. -/
example : available 5 1 3 = 3 := by decide

/-- A concrete case: size 3 holds two elements, wraps around, refuses the third. -/
example : ((mk Nat 3).bind fun b => runRing b
      [.push 1, .push 2, .push 3, .pop, .push 4, .popInto 5, .push 5, .size, .empty]) =
    .ok [.accepted true, .accepted true, .accepted false, .popped (some 1), .accepted true, .poppedMany [2, 4],
      .accepted true, .count 1, .isEmpty false] := by decide

end Scalopus.C01
