import Verif.Props.C30_Cbor

/-!
# Readers only look at what they read

If a reader succeeds on some bytes, it succeeds in the same way on every extension of them; so the beginning of an encoded batch is never read as a batch.
-/

namespace Scalopus.Cbor

/-- The reader does the same when more bytes follow. -/
def Local {α : Type} (f : Bytes → Option (α × Bytes)) : Prop :=
  ∀ b c a r, f b = some (a, r) → f (b ++ c) = some (a, r ++ c)

theorem take_local (k : Nat) : Local (take k) := by
  intro b c a r h
  unfold take at h ⊢
  split at h
  · cases h
  · rename_i hk
    simp only [Option.some.injEq, Prod.mk.injEq] at h
    obtain ⟨h1, h2⟩ := h
    subst h1 h2
    rw [if_neg (by rw [List.length_append]; omega), List.take_append_of_le_length (by omega), List.drop_append_of_le_length (by omega)]

theorem readHead_local (b c : Bytes) (m n : Nat) (r : Bytes) (h : readHead b = some (m, n, r)) : readHead (b ++ c) = some (m, n, r ++ c) := by
  cases b with
  | nil => cases h
  | cons x b =>
    have wide : ∀ k, (take k b).map (fun p => (x.toNat / 32, ofBigEndian p.1, p.2)) = some (m, n, r) →
        (take k (b ++ c)).map (fun p => (x.toNat / 32, ofBigEndian p.1, p.2)) = some (m, n, r ++ c) := by
      intro k hk
      rw [Option.map_eq_some_iff] at hk ⊢
      obtain ⟨⟨p, q⟩, h1, h2⟩ := hk
      simp only [Prod.mk.injEq] at h2
      refine ⟨(p, q ++ c), take_local k b c p q h1, ?_⟩
      simp only [Prod.mk.injEq]
      exact ⟨h2.1, h2.2.1, by rw [h2.2.2]⟩
    simp only [readHead, List.cons_append] at h ⊢
    split
    · rename_i hi
      rw [if_pos hi] at h
      simp only [Option.some.injEq, Prod.mk.injEq] at h ⊢
      exact ⟨h.1, h.2.1, by rw [h.2.2]⟩
    · rename_i hi
      rw [if_neg hi] at h
      split
      · rename_i h1
        rw [if_pos h1] at h
        exact wide 1 h
      · rename_i h1
        rw [if_neg h1] at h
        split
        · rename_i h2
          rw [if_pos h2] at h
          exact wide 2 h
        · rename_i h2
          rw [if_neg h2] at h
          split
          · rename_i h3
            rw [if_pos h3] at h
            exact wide 4 h
          · rename_i h3
            rw [if_neg h3] at h
            split
            · rename_i h4
              rw [if_pos h4] at h
              exact wide 8 h
            · rename_i h4
              rw [if_neg h4] at h
              cases h

theorem expect_local (major : Nat) : Local (expect major) := by
  intro b c a r h
  unfold expect at h ⊢
  split at h
  · rename_i m n r' e
    rw [readHead_local b c m n r' e]
    simp only
    split at h
    · rename_i hm
      rw [if_pos hm]
      simp only [Option.some.injEq, Prod.mk.injEq] at h ⊢
      exact ⟨h.1, by rw [h.2]⟩
    · cases h
  · cases h

theorem readBytes_local (major : Nat) : Local (readBytes major) := by
  intro b c a r h
  unfold readBytes at h ⊢
  rw [Option.bind_eq_some_iff] at h
  obtain ⟨⟨n, q⟩, h1, h2⟩ := h
  rw [expect_local major b c n q h1, Option.bind_some]
  exact take_local n q c a r h2

theorem skip_local (fuel : Nat) : ∀ (k : Nat) (b c r : Bytes) (more : Nat), skip fuel k b = some r → skip (fuel + more) k (b ++ c) = some (r ++ c) := by
  induction fuel with
  | zero =>
    intro k b c r more h
    cases k with
    | zero =>
      simp only [skip, Option.some.injEq] at h ⊢
      rw [h]
    | succ k => simp [skip] at h
  | succ fuel ih =>
    intro k b c r more h
    cases k with
    | zero =>
      simp only [skip, Option.some.injEq] at h ⊢
      rw [h]
    | succ k =>
      rw [show fuel + 1 + more = (fuel + more) + 1 by omega]
      simp only [skip] at h ⊢
      split at h
      · cases h
      · rename_i major n q e
        rw [readHead_local b c major n q e]
        simp only
        split at h
        · rename_i hm
          rw [if_pos hm]
          rw [Option.bind_eq_some_iff] at h
          obtain ⟨⟨p, t⟩, h1, h2⟩ := h
          rw [take_local n q c p t h1, Option.bind_some]
          exact ih k t c r more h2
        · rename_i hm
          rw [if_neg hm]
          split at h
          · rename_i h4
            rw [if_pos h4]
            exact ih _ q c r more h
          · rename_i h4
            rw [if_neg h4]
            split at h
            · rename_i h5
              rw [if_pos h5]
              exact ih _ q c r more h
            · rename_i h5
              rw [if_neg h5]
              split at h
              · rename_i h6
                rw [if_pos h6]
                exact ih _ q c r more h
              · rename_i h6
                rw [if_neg h6]
                exact ih _ q c r more h

theorem readRaw_local : Local readRaw := by
  intro b c a r h
  unfold readRaw at h ⊢
  rw [Option.map_eq_some_iff] at h
  obtain ⟨r', h1, h2⟩ := h
  simp only [Prod.mk.injEq] at h2
  obtain ⟨h2, h3⟩ := h2
  subst h3
  rw [List.length_append, skip_local b.length 1 b c r' c.length h1, Option.map_some, List.length_append,
    show b.length + c.length - (r'.length + c.length) = b.length - r'.length by omega, List.take_append_of_le_length (by omega), h2]

theorem readEntry_local : Local readEntry := by
  intro b c a r h
  unfold readEntry at h ⊢
  rw [Option.bind_eq_some_iff] at h
  obtain ⟨⟨p, q⟩, h1, h2⟩ := h
  rw [readBytes_local 3 b c p q h1, Option.bind_some]
  simp only at h2 ⊢
  rw [Option.bind_eq_some_iff] at h2
  obtain ⟨⟨s, t⟩, h3, h4⟩ := h2
  rw [readRaw_local q c s t h3, Option.bind_some]
  simp only [Option.some.injEq, Prod.mk.injEq] at h4 ⊢
  exact ⟨h4.1, by rw [h4.2]⟩

theorem times_local {α : Type} {f : Bytes → Option (α × Bytes)} (hf : Local f) (n : Nat) : Local (times f n) := by
  induction n with
  | zero =>
    intro b c a r h
    simp only [times, Option.some.injEq, Prod.mk.injEq] at h ⊢
    exact ⟨h.1, by rw [h.2]⟩
  | succ n ih =>
    intro b c a r h
    simp only [times] at h ⊢
    rw [Option.bind_eq_some_iff] at h
    obtain ⟨⟨p, q⟩, h1, h2⟩ := h
    rw [hf b c p q h1, Option.bind_some]
    simp only at h2 ⊢
    rw [Option.bind_eq_some_iff] at h2
    obtain ⟨⟨s, t⟩, h3, h4⟩ := h2
    rw [ih q c s t h3, Option.bind_some]
    simp only [Option.some.injEq, Prod.mk.injEq] at h4 ⊢
    exact ⟨h4.1, by rw [h4.2]⟩

/-- The entries of an encoded batch, with nothing left. -/
theorem entries_encode (pid : Nat) (hp : pid < 2 ^ 31) (m : Threads) (h : ThreadsValid m) :
    ∃ q, expect 5 (encodeBatch pid m) = some (2, q) ∧ ∃ l, times readEntry 2 q = some (l, []) := by
  have e1 : expect 5 (encodeBatch pid m) = some (2, head 3 keyEvents.length ++ keyEvents ++ encodeThreads m ++ (head 3 keyPid.length ++ keyPid ++ head 0 pid)) := by
    unfold encodeBatch
    rw [List.append_assoc, expect_head 5 2 (by decide) (by decide)]
  have e2 : readEntry (head 3 keyEvents.length ++ keyEvents ++ encodeThreads m ++ (head 3 keyPid.length ++ keyPid ++ head 0 pid)) =
      some ((keyEvents, encodeThreads m), head 3 keyPid.length ++ keyPid ++ head 0 pid) := by
    unfold readEntry
    rw [List.append_assoc, readBytes_head 3 (by decide) keyEvents _ (by decide), Option.bind_some]
    simp only
    rw [readRaw_items (items_threads m h)]
    rfl
  have e3 : readEntry (head 3 keyPid.length ++ keyPid ++ head 0 pid) = some ((keyPid, head 0 pid), []) := by
    unfold readEntry
    rw [readBytes_head 3 (by decide) keyPid _ (by decide), Option.bind_some]
    simp only
    have := readRaw_items (items_num (n := pid) (by omega)) []
    rw [List.append_nil] at this
    rw [this]
    rfl
  exact ⟨_, e1, [(keyEvents, encodeThreads m), (keyPid, head 0 pid)], by simp only [times, e2, e3, Option.bind_some]⟩

/-- The beginning of an encoded batch is refused, wherever it ends. -/
theorem decodeBatch_take (pid : Nat) (hp : pid < 2 ^ 31) (m : Threads) (h : ThreadsValid m) (d : Nat) (hd : d < (encodeBatch pid m).length) :
    decodeBatch ((encodeBatch pid m).take d) = .error .cbor := by
  obtain ⟨q, h1, l, h2⟩ := entries_encode pid hp m h
  have split := List.take_append_drop d (encodeBatch pid m)
  have ne : (encodeBatch pid m).drop d ≠ [] := by
    intro e
    have := congrArg List.length e
    rw [List.length_drop, List.length_nil] at this
    omega
  unfold decodeBatch
  cases e : expect 5 ((encodeBatch pid m).take d) with
  | none => rfl
  | some p =>
    obtain ⟨n, q'⟩ := p
    have e' := expect_local 5 _ ((encodeBatch pid m).drop d) n q' e
    rw [split, h1] at e'
    simp only [Option.some.injEq, Prod.mk.injEq] at e'
    obtain ⟨rfl, rfl⟩ := e'
    cases t : times readEntry 2 q' with
    | none => simp only [orBad, t, bind, Except.bind]
    | some x =>
      exfalso
      obtain ⟨l', r⟩ := x
      have t' := times_local readEntry_local 2 q' ((encodeBatch pid m).drop d) l' r t
      rw [h2] at t'
      simp only [Option.some.injEq, Prod.mk.injEq] at t'
      exact ne (List.append_eq_nil_iff.1 t'.2.symm).2

end Scalopus.Cbor
