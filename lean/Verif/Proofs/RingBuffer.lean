import Verif.Model.RingBuffer
import Verif.Spec.Queue
import Verif.Proofs.ModArith

/-!
# The ring buffer represents a queue: helper lemmas
-/

namespace Scalopus.RingBuffer

/-- `b` is a buffer of size `n` that holds the elements of `q`, oldest first. -/
structure Rep (n : Nat) (b : Ring α) (q : List α) : Prop where
  hmax : b.maxSize = n
  hlen : b.slots.length = n
  hread : b.read < n
  hwrite : b.write = (b.read + q.length) % n
  hcap : q.length < n
  hslot : ∀ i (h : i < q.length), b.slots[(b.read + i) % n]? = some (some q[i])

theorem rep_mk {n : Nat} (hn : 0 < n) :
    Rep n ({ slots := List.replicate n none, write := 0, read := 0, maxSize := n } : Ring α) [] := by
  constructor <;> simp [hn]

theorem available_rep {n : Nat} {b : Ring α} {q : List α} (h : Rep n b q) :
    available b.maxSize b.write b.read = q.length := by
  have h1 := h.hread; have h2 := h.hcap
  rw [h.hwrite, h.hmax, add_mod_eq h1 (by omega)]
  unfold available
  split <;> split <;> omega

theorem empty_rep {n : Nat} {b : Ring α} {q : List α} (h : Rep n b q) :
    b.write = b.read ↔ q = [] := by
  have h1 := h.hread; have h2 := h.hcap
  rw [h.hwrite, add_mod_eq h1 (by omega)]
  rw [← List.length_eq_zero_iff]
  split <;> omega

theorem full_rep {n : Nat} {b : Ring α} {q : List α} (h : Rep n b q) :
    (b.write + 1) % b.maxSize = b.read ↔ q.length + 1 = n := by
  have h1 := h.hread; have h2 := h.hcap
  have hw : (b.write + 1) % n = (b.read + (q.length + 1)) % n := by
    rw [h.hwrite, Nat.mod_add_mod, Nat.add_assoc]
  rw [h.hmax, hw, add_mod_eq h1 (by omega)]
  split <;> omega

theorem push_full {n : Nat} {b : Ring α} {q : List α} (h : Rep n b q) (v : α) (hf : q.length + 1 = n) :
    push b v = .ok (b, false) := by
  unfold push
  simp only
  rw [if_pos ((full_rep h).2 hf)]

theorem push_room {n : Nat} {b : Ring α} {q : List α} (h : Rep n b q) (v : α) (hf : q.length + 1 < n) :
    ∃ b', push b v = .ok (b', true) ∧ Rep n b' (q ++ [v]) := by
  have h1 := h.hread; have h2 := h.hcap
  have hw : b.write < n := by
    rw [h.hwrite]; exact Nat.mod_lt _ (by omega)
  refine ⟨{ b with slots := b.slots.set b.write (some v), write := (b.write + 1) % b.maxSize }, ?_, ?_⟩
  · unfold push
    simp only
    rw [if_neg (fun hc => by have := (full_rep h).1 hc; omega), if_pos (by rw [h.hlen]; exact hw)]
  · refine ⟨h.hmax, ?_, h1, ?_, ?_, ?_⟩
    · simp [h.hlen]
    · simp [h.hwrite, h.hmax, Nat.add_assoc]
    · simp; omega
    · intro i hi
      simp only [List.length_append, List.length_cons, List.length_nil] at hi
      simp only
      rw [List.getElem?_set]
      by_cases hiq : i < q.length
      · have hne : b.write ≠ (b.read + i) % n := by
          rw [h.hwrite]; intro hc
          have := add_mod_inj h1 (by omega) (by omega) hc
          omega
        rw [if_neg hne, h.hslot i hiq]
        simp [List.getElem_append_left hiq]
      · have hi' : i = q.length := by omega
        subst hi'
        rw [if_pos h.hwrite]
        simp [hw, h.hlen]

theorem take_rep {slots : List (Option α)} {i : Nat} {v : α} (h : slots[i]? = some (some v)) :
    take slots i = .ok (v, slots.set i none) := by
  unfold take; rw [h]

/-- Taking `count` elements out of the slots that hold `q` from `read` on. -/
theorem takeMany_rep {n : Nat} (count : Nat) :
    ∀ (slots : List (Option α)) (read : Nat) (q : List α), 0 < n → slots.length = n → q.length < n → count ≤ q.length →
      (∀ i (h : i < q.length), slots[(read + i) % n]? = some (some q[i])) →
      ∃ slots', takeMany n slots read count = .ok (q.take count, slots') ∧ slots'.length = n ∧
        ∀ i (_ : i < (q.drop count).length),
          slots'[(read + count + i) % n]? = some (some (q.drop count)[i]) := by
  induction count with
  | zero =>
    intro slots read q hn hl hq hc hs
    exact ⟨slots, by simp [takeMany], hl, by simpa using hs⟩
  | succ c ih =>
    intro slots read q hn hl hq hc hs
    cases q with
    | nil => simp at hc
    | cons v q =>
      have h0 := hs 0 (by simp)
      simp only [Nat.add_zero, List.getElem_cons_zero] at h0
      have hlt : read % n < n := Nat.mod_lt _ hn
      simp only [List.length_cons] at hq hc
      obtain ⟨slots', h1, h2, h3⟩ := ih (slots.set (read % n) none) (read + 1) q hn (by simp [hl]) (by omega) (by omega) (by
        intro i hi
        rw [List.getElem?_set]
        have hne : read % n ≠ (read + 1 + i) % n := by
          intro hc
          have := mod_inj_of_lt (by omega) (by omega) hc
          omega
        rw [if_neg hne]
        have := hs (i + 1) (by simp; omega)
        simp only [List.getElem_cons_succ] at this
        rw [← this]
        congr 2; omega)
      refine ⟨slots', ?_, h2, ?_⟩
      · simp only [takeMany, take_rep h0, h1, List.take_succ_cons]
      · intro i hi
        simp only [List.drop_succ_cons] at hi ⊢
        rw [← h3 i hi]
        congr 2; omega

theorem popInto_rep {n : Nat} {b : Ring α} {q : List α} (h : Rep n b q) (m : Nat) :
    ∃ b', popInto b m = .ok (b', q.take m) ∧ Rep n b' (q.drop m) := by
  have h1 := h.hread; have h2 := h.hcap
  have hn : 0 < n := by omega
  have hmin : min q.length m ≤ q.length := Nat.min_le_left _ _
  obtain ⟨slots', e1, e2, e3⟩ := takeMany_rep (n := n) (min q.length m) b.slots b.read q hn h.hlen h2 hmin h.hslot
  have htake : q.take (min q.length m) = q.take m := by
    rw [Nat.min_comm, ← List.take_take, List.take_length]
  have hdrop : q.drop (min q.length m) = q.drop m := by
    by_cases hm : m ≤ q.length
    · rw [Nat.min_eq_right hm]
    · rw [Nat.min_eq_left (by omega), List.drop_eq_nil_of_le (by omega), List.drop_eq_nil_of_le (by omega)]
  rw [htake] at e1
  rw [hdrop] at e3
  refine ⟨{ b with slots := slots', read := (b.read + min q.length m) % n }, ?_, ?_⟩
  · unfold popInto
    simp only [available_rep h]
    rw [h.hmax, e1]
  · refine ⟨h.hmax, e2, Nat.mod_lt _ hn, ?_, ?_, ?_⟩
    · simp only [h.hwrite, List.length_drop]
      rw [Nat.mod_add_mod]
      congr 1
      omega
    · simp; omega
    · intro i hi
      simp only
      rw [Nat.mod_add_mod, e3 i hi]

theorem pop_nil {n : Nat} {b : Ring α} (h : Rep n b []) : pop b = .ok (b, none) := by
  unfold pop
  rw [if_pos ((empty_rep h).2 rfl)]

theorem pop_cons {n : Nat} {b : Ring α} {v : α} {q : List α} (h : Rep n b (v :: q)) :
    ∃ b', pop b = .ok (b', some v) ∧ Rep n b' q := by
  have h1 := h.hread; have h2 := h.hcap
  simp only [List.length_cons] at h2
  have h0 := h.hslot 0 (by simp)
  simp only [Nat.add_zero, List.getElem_cons_zero, Nat.mod_eq_of_lt h1] at h0
  refine ⟨{ b with slots := b.slots.set b.read none, read := (b.read + 1) % b.maxSize }, ?_, ?_⟩
  · unfold pop
    rw [if_neg (fun hc => by have := (empty_rep h).1 hc; simp at this), take_rep h0]
  · refine ⟨h.hmax, by simp [h.hlen], ?_, ?_, by omega, ?_⟩
    · simp only [h.hmax]; exact Nat.mod_lt _ (by omega)
    · simp only [h.hwrite, h.hmax, List.length_cons, Nat.mod_add_mod]
      congr 1; omega
    · intro i hi
      simp only [h.hmax, Nat.mod_add_mod]
      rw [List.getElem?_set]
      have hne : b.read ≠ (b.read + 1 + i) % n := by
        intro hc
        have hr : b.read % n = b.read := Nat.mod_eq_of_lt h1
        have := mod_inj_of_lt (n := n) (a := b.read) (b := b.read + 1 + i) (by omega) (by omega) (by rw [hr]; exact hc)
        omega
      rw [if_neg hne]
      have := h.hslot (i + 1) (by simp; omega)
      simp only [List.getElem_cons_succ] at this
      rw [← this]
      congr 2; omega

end Scalopus.RingBuffer
