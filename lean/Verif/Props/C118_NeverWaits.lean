import Verif.Proofs.RingBufferConc

/-!
# C118: Tracing and collecting do not wait for each other

A tracepoint of a thread that has its buffer already is a push onto that buffer, and the sender collects with `size` and `pop_into`. Every memory access is one step (`Model/RingBufferConc.lean`). A call
that needs another thread to go on would, in some schedule, have no step to take, or take steps without end. Here: in every reachable state a thread that is in a call has a step to take, and whatever
steps the other thread takes in between, if any, the call has ended after a fixed number of its own steps.
-/

namespace Scalopus.C118

open RingConc Spec.QueueConc

/-- Steps of the thread that pushes. -/
def ofProducer : Act α → Bool
  | .pBegin _ | .pLoadR _ | .pWriteSlot | .pStoreW => true
  | _ => false

/-- Steps of the thread that pops. -/
def ofConsumer (a : Act α) : Bool := !ofProducer a

/-- How many steps a push still takes. -/
def pLeft : PPc α → Nat
  | .idle => 0
  | .gotWrite _ _ => 3
  | .checked _ _ => 2
  | .stored _ _ => 1

/-- How many steps a call of the consumer may still take. -/
def cLeft (n : Nat) : CPc α → Nat
  | .idle => 0
  | .popW _ => 3
  | .popGo _ => 2
  | .popGot _ _ => 1
  | .intoW _ _ => n + 1
  | .intoLoop _ _ l _ => l + 1
  | .sizeW _ => 1

theorem producer_step {s s' : St α} {a : Act α} (h : step s a = some s') :
    (ofProducer a = false → s'.pPc = s.pPc ∧ s'.pLog = s.pLog) ∧
    (ofProducer a = true → s.pPc ≠ .idle → (s'.pPc ≠ .idle ∧ s'.pLog = s.pLog ∧ pLeft s'.pPc + 1 = pLeft s.pPc) ∨ s'.pLog.length = s.pLog.length + 1) ∧ s.pLog.length ≤ s'.pLog.length := by
  cases a with
  | pBegin v =>
    simp only [step] at h
    split at h
    · rename_i hp
      cases h
      exact ⟨fun c => (by cases c), fun _ c => absurd hp c, Nat.le_refl _⟩
    · cases h
  | pLoadR k =>
    simp only [step] at h
    split at h
    · rename_i v w hp
      split at h
      · split at h
        · split at h
          · cases h
            exact ⟨fun c => (by cases c), fun _ _ => .inr (by simp), by simp⟩
          · cases h
            exact ⟨fun c => (by cases c), fun _ _ => .inl ⟨by simp, rfl, by simp [pLeft, hp]⟩, Nat.le_refl _⟩
        · cases h
      · cases h
    · cases h
  | pWriteSlot =>
    simp only [step] at h
    split at h
    · rename_i v w hp
      cases h
      have hl : ∀ (t : St α) i v, (pAccess t i v).pLog = t.pLog := by
        intro t i v; unfold pAccess; split <;> rfl
      refine ⟨fun c => (by cases c), fun _ _ => .inl ⟨by simp, hl _ _ _, by simp [pLeft, hp]⟩, ?_⟩
      change _ ≤ (pAccess _ _ _).pLog.length
      rw [hl]; exact Nat.le_refl _
    · cases h
  | pStoreW =>
    simp only [step] at h
    split at h
    · cases h
      exact ⟨fun c => (by cases c), fun _ _ => .inr (by simp), by simp⟩
    · cases h
  | cBeginPop k =>
    simp only [step, cAcquireW] at h
    repeat' split at h
    all_goals grind [ofProducer]
  | cBeginInto m k =>
    simp only [step, cAcquireW] at h
    repeat' split at h
    all_goals grind [ofProducer]
  | cBeginSize k =>
    simp only [step, cAcquireW] at h
    repeat' split at h
    all_goals grind [ofProducer]
  | cLoadR =>
    simp only [step] at h
    repeat' split at h
    all_goals grind [ofProducer]
  | cTake =>
    simp only [step, cAccess] at h
    repeat' split at h
    all_goals grind [ofProducer]
  | cStoreR =>
    simp only [step] at h
    repeat' split at h
    all_goals grind [ofProducer]

/-- **C118, a push never waits.** A push can begin whenever the thread is not in one. In every reachable state in which a push is under way, it has a step to take, and after three steps of its thread,
among any steps of the consumer, it has returned. -/
theorem push_never_waits {n : Nat} (hn : 0 < n) (acts : List (Act α)) (s : St α) (h : run (init α n) acts = some s) :
    (s.pPc = .idle → ∀ v, ∃ s', step s (.pBegin v) = some s') ∧
    (s.pPc ≠ .idle → (∃ a s', ofProducer a = true ∧ step s a = some s') ∧
      ∀ acts' s', run s acts' = some s' → 3 ≤ acts'.countP ofProducer → s.pLog.length < s'.pLog.length) := by
  have hi := run_inv acts (inv_init hn) h
  refine ⟨fun hp v => (by simp only [step, hp]; exact ⟨_, rfl⟩), fun hp => ⟨?_, ?_⟩⟩
  · cases hpc : s.pPc with
    | idle => exact absurd hpc hp
    | gotWrite v w =>
      obtain ⟨m, hm, _⟩ := hi.hpSeen
      refine ⟨.pLoadR s.pSeen, ?_⟩
      simp only [step, hpc, Nat.le_refl, if_true, hm]
      split
      · exact ⟨_, rfl, rfl⟩
      · exact ⟨_, rfl, rfl⟩
    | checked v w => exact ⟨.pWriteSlot, by simp only [step, hpc]; exact ⟨_, rfl, rfl⟩⟩
    | stored v w => exact ⟨.pStoreW, by simp only [step, hpc]; exact ⟨_, rfl, rfl⟩⟩
  · have key : ∀ (acts' : List (Act α)) (s s' : St α), run s acts' = some s' → s.pPc ≠ .idle →
        s.pLog.length < s'.pLog.length ∨ (s'.pPc ≠ .idle ∧ s'.pLog.length = s.pLog.length ∧ acts'.countP ofProducer + pLeft s'.pPc = pLeft s.pPc) := by
      intro acts'
      induction acts' with
      | nil => intro s s' e hp; cases e; exact .inr ⟨hp, rfl, by simp⟩
      | cons a as ih =>
        intro s s' e hp
        obtain ⟨t, h1, h2⟩ := Option.bind_eq_some_iff.1 e
        have hst := producer_step h1
        have mono : ∀ (as : List (Act α)) (t t' : St α), run t as = some t' → t.pLog.length ≤ t'.pLog.length := by
          intro as
          induction as with
          | nil => intro t t' e; cases e; exact Nat.le_refl _
          | cons a as ih =>
            intro t t' e
            obtain ⟨u, h1, h2⟩ := Option.bind_eq_some_iff.1 e
            exact Nat.le_trans (producer_step h1).2.2 (ih u t' h2)
        cases ha : ofProducer a with
        | false =>
          have := hst.1 ha
          rcases ih t s' h2 (by rw [this.1]; exact hp) with q | ⟨q1, q2, q3⟩
          · left; rw [← this.2]; exact q
          · refine .inr ⟨q1, by rw [q2, this.2], ?_⟩
            rw [List.countP_cons_of_neg (by simp [ha]), q3, this.1]
        | true =>
          rcases hst.2.1 ha hp with ⟨r1, r2, r3⟩ | r
          · rcases ih t s' h2 r1 with q | ⟨q1, q2, q3⟩
            · left; rw [← r2]; exact q
            · refine .inr ⟨q1, by rw [q2, r2], ?_⟩
              rw [List.countP_cons_of_pos ha]
              omega
          · left
            have := mono as t s' h2
            omega
    intro acts' s' e h3
    rcases key acts' s s' e hp with q | ⟨q1, q2, q3⟩
    · exact q
    · exfalso
      have h1 : pLeft s.pPc ≤ 3 := by cases s.pPc <;> simp [pLeft]
      have h2 : 0 < pLeft s'.pPc := by
        revert q1
        cases s'.pPc <;> simp [pLeft]
      omega

theorem available_lt {n w r : Nat} (hw : w < n) (hr : r < n) : available n w r < n := by
  unfold available
  split <;> omega

theorem consumer_step {s s' : St α} {a : Act α} (hi : Inv s) (h : step s a = some s') :
    (ofConsumer a = false → s'.cPc = s.cPc ∧ s'.cLog = s.cLog) ∧
    (ofConsumer a = true → s.cPc ≠ .idle → (s'.cPc ≠ .idle ∧ s'.cLog = s.cLog ∧ cLeft s.n s'.cPc + 1 ≤ cLeft s.n s.cPc) ∨ s'.cLog.length = s.cLog.length + 1) ∧ s.cLog.length ≤ s'.cLog.length := by
  have hi' := step_inv hi a h
  cases a with
  | pBegin v =>
    simp only [step] at h
    repeat' split at h
    all_goals grind [ofProducer, ofConsumer]
  | pLoadR k =>
    simp only [step] at h
    repeat' split at h
    all_goals grind [ofProducer, ofConsumer]
  | pWriteSlot =>
    simp only [step, pAccess] at h
    repeat' split at h
    all_goals first | (cases h; done) | (simp only [Option.some.injEq] at h; subst h; exact ⟨fun _ => ⟨rfl, rfl⟩, fun c => (by cases c), Nat.le_refl _⟩)
  | pStoreW =>
    simp only [step] at h
    repeat' split at h
    all_goals grind [ofProducer, ofConsumer]
  | cBeginPop k =>
    simp only [step, cAcquireW] at h
    repeat' split at h
    all_goals grind [ofProducer, ofConsumer]
  | cBeginInto m k =>
    simp only [step, cAcquireW] at h
    repeat' split at h
    all_goals grind [ofProducer, ofConsumer]
  | cBeginSize k =>
    simp only [step, cAcquireW] at h
    repeat' split at h
    all_goals grind [ofProducer, ofConsumer]
  | cLoadR =>
    have hr : (lastMsg s.histR).value < s.n := by
      obtain ⟨m, h1, h2, _⟩ := inv_lastR hi
      rw [h1, h2]; exact Nat.mod_lt _ hi.hn
    simp only [step] at h
    split at h
    · rename_i w hp
      split at h
      · cases h; exact ⟨fun c => (by cases c), fun _ _ => .inr (by simp), by simp⟩
      · cases h; exact ⟨fun c => (by cases c), fun _ _ => .inl ⟨by simp, rfl, by simp [cLeft, hp]⟩, Nat.le_refl _⟩
    · rename_i mx w hp
      have hw : w < s.n := by
        have := hi.hcc
        simp only [CInv, hp] at this
        rw [this]; exact Nat.mod_lt _ hi.hn
      have := available_lt hw hr
      cases h
      refine ⟨fun c => (by cases c), fun _ _ => .inl ⟨by simp, rfl, ?_⟩, Nat.le_refl _⟩
      simp only [cLeft, hp]
      omega
    · cases h; exact ⟨fun c => (by cases c), fun _ _ => .inr (by simp), by simp⟩
    · cases h
  | cTake =>
    have bad := hi'.hrace
    have bad2 := hi'.hgarb
    simp only [step, cAccess] at h
    split at h
    · rename_i r hp
      split at h
      · rename_i t v hq
        cases h
        split at hq
        · cases hq
        · simp only [Prod.mk.injEq] at hq
          obtain ⟨rfl, _⟩ := hq
          exact ⟨fun c => (by cases c), fun _ _ => .inl ⟨by simp, rfl, by simp [cLeft, hp]⟩, Nat.le_refl _⟩
      · rename_i t hq
        cases h
        split at hq
        · cases hq; cases bad
        · rename_i sl _
          simp only [Prod.mk.injEq] at hq
          obtain ⟨rfl, hq2⟩ := hq
          simp only [hq2, Option.isNone_none, Bool.or_true] at bad2
          cases bad2
    · rename_i r count left got hp
      split at h
      · rename_i t v hq
        cases h
        split at hq
        · cases hq
        · simp only [Prod.mk.injEq] at hq
          obtain ⟨rfl, _⟩ := hq
          exact ⟨fun c => (by cases c), fun _ _ => .inl ⟨by simp, rfl, by simp [cLeft, hp]⟩, Nat.le_refl _⟩
      · rename_i t hq
        cases h
        split at hq
        · cases hq; cases bad
        · rename_i sl _
          simp only [Prod.mk.injEq] at hq
          obtain ⟨rfl, hq2⟩ := hq
          simp only [hq2, Option.isNone_none, Bool.or_true] at bad2
          cases bad2
    · cases h
  | cStoreR =>
    simp only [step] at h
    split at h
    · cases h; exact ⟨fun c => (by cases c), fun _ _ => .inr (by simp), by simp⟩
    · cases h; exact ⟨fun c => (by cases c), fun _ _ => .inr (by simp), by simp⟩
    · cases h

/-- **C118, collecting never waits.** The consumer's calls can begin whenever its thread is not in one. In every reachable state in which one is under way, it has a step to take, and after `n + 2` steps of
its thread, `n` being the size of the buffer, among any steps of the producer, it has returned. -/
theorem pop_never_waits {n : Nat} (hn : 0 < n) (acts : List (Act α)) (s : St α) (h : run (init α n) acts = some s) :
    (s.cPc = .idle → (∃ k s', step s (.cBeginPop k) = some s') ∧ (∀ m, ∃ k s', step s (.cBeginInto m k) = some s') ∧ ∃ k s', step s (.cBeginSize k) = some s') ∧
    (s.cPc ≠ .idle → (∃ a s', ofConsumer a = true ∧ step s a = some s') ∧
      ∀ acts' s', run s acts' = some s' → n + 2 ≤ acts'.countP ofConsumer → s.cLog.length < s'.cLog.length) := by
  have hi := run_inv acts (inv_init hn) h
  have hsn : s.n = n := run_n acts h
  refine ⟨fun hp => ?_, fun hp => ⟨?_, ?_⟩⟩
  · obtain ⟨m, hm, _⟩ := hi.hcSeen
    have hq : ∃ t, cAcquireW s s.cSeen = some (t, m.value) := (by simp only [cAcquireW, Nat.le_refl, if_true, hm]; exact ⟨_, rfl⟩)
    obtain ⟨t, ht⟩ := hq
    exact ⟨⟨s.cSeen, by simp only [step, hp, ht]; exact ⟨_, rfl⟩⟩, fun mx => ⟨s.cSeen, by simp only [step, hp, ht]; exact ⟨_, rfl⟩⟩, ⟨s.cSeen, by simp only [step, hp, ht]; exact ⟨_, rfl⟩⟩⟩
  · cases hpc : s.cPc with
    | idle => exact absurd hpc hp
    | popW w =>
      refine ⟨.cLoadR, ?_⟩
      simp only [step, hpc]
      split
      · exact ⟨_, rfl, rfl⟩
      · exact ⟨_, rfl, rfl⟩
    | popGo r =>
      refine ⟨.cTake, ?_⟩
      simp only [step, hpc]
      split
      · exact ⟨_, rfl, rfl⟩
      · exact ⟨_, rfl, rfl⟩
    | popGot r v => exact ⟨.cStoreR, by simp only [step, hpc]; exact ⟨_, rfl, rfl⟩⟩
    | intoW mx w => exact ⟨.cLoadR, by simp only [step, hpc]; exact ⟨_, rfl, rfl⟩⟩
    | intoLoop r c l got =>
      cases l with
      | zero => exact ⟨.cStoreR, by simp only [step, hpc]; exact ⟨_, rfl, rfl⟩⟩
      | succ l =>
        refine ⟨.cTake, ?_⟩
        simp only [step, hpc]
        split
        · exact ⟨_, rfl, rfl⟩
        · exact ⟨_, rfl, rfl⟩
    | sizeW w => exact ⟨.cLoadR, by simp only [step, hpc]; exact ⟨_, rfl, rfl⟩⟩
  · have mono : ∀ (as : List (Act α)) (t t' : St α), Inv t → run t as = some t' → t.cLog.length ≤ t'.cLog.length := by
      intro as
      induction as with
      | nil => intro t t' _ e; cases e; exact Nat.le_refl _
      | cons a as ih =>
        intro t t' hi e
        obtain ⟨u, h1, h2⟩ := Option.bind_eq_some_iff.1 e
        exact Nat.le_trans (consumer_step hi h1).2.2 (ih u t' (step_inv hi a h1) h2)
    have key : ∀ (acts' : List (Act α)) (s s' : St α), Inv s → run s acts' = some s' → s.cPc ≠ .idle →
        s.cLog.length < s'.cLog.length ∨ (s'.cPc ≠ .idle ∧ s'.cLog.length = s.cLog.length ∧ acts'.countP ofConsumer + cLeft s.n s'.cPc ≤ cLeft s.n s.cPc) := by
      intro acts'
      induction acts' with
      | nil => intro s s' _ e hp; cases e; exact .inr ⟨hp, rfl, by simp⟩
      | cons a as ih =>
        intro s s' hi e hp
        obtain ⟨t, h1, h2⟩ := Option.bind_eq_some_iff.1 e
        have hst := consumer_step hi h1
        have hit := step_inv hi a h1
        have htn := step_n a h1
        cases ha : ofConsumer a with
        | false =>
          have := hst.1 ha
          rcases ih t s' hit h2 (by rw [this.1]; exact hp) with q | ⟨q1, q2, q3⟩
          · left; rw [← this.2]; exact q
          · refine .inr ⟨q1, by rw [q2, this.2], ?_⟩
            rw [List.countP_cons_of_neg (by simp [ha])]
            rw [this.1, htn] at q3
            exact q3
        | true =>
          rcases hst.2.1 ha hp with ⟨r1, r2, r3⟩ | r
          · rcases ih t s' hit h2 r1 with q | ⟨q1, q2, q3⟩
            · left; rw [← r2]; exact q
            · refine .inr ⟨q1, by rw [q2, r2], ?_⟩
              rw [List.countP_cons_of_pos ha]
              rw [htn] at q3
              omega
          · left
            have := mono as t s' hit h2
            omega
    intro acts' s' e h3
    rcases key acts' s s' hi e hp with q | ⟨q1, q2, q3⟩
    · exact q
    · exfalso
      have h1 : cLeft s.n s.cPc ≤ n + 2 := by
        have hcc := hi.hcc
        have hcs := inv_seen_le hi
        have hroom := inv_room hi
        cases hpc : s.cPc with
        | intoLoop r c l got =>
          simp only [CInv, hpc] at hcc
          simp only [cLeft]; omega
        | _ => simp only [cLeft]; omega
      have h2 : 0 < cLeft s.n s'.cPc := by
        revert q1
        cases s'.cPc <;> simp [cLeft]
      omega

/-- The consumer is suspended after it has moved one of two elements out; meanwhile the producer pushes. -/
example : ∃ s, run (init Nat 4) [.pBegin 7, .pLoadR 0, .pWriteSlot, .pStoreW, .pBegin 8, .pLoadR 0, .pWriteSlot, .pStoreW, .cBeginInto 5 2, .cLoadR, .cTake, .pBegin 9, .pLoadR 0] = some s ∧
    s.cPc ≠ .idle ∧ s.pPc ≠ .idle := ⟨_, rfl, by decide, by decide⟩

end Scalopus.C118
