import Verif.Spec.QueueConc
import Verif.Proofs.ModArith

/-!
# Invariant of the concurrent ring buffer
-/

namespace Scalopus.RingConc

open Spec.QueueConc

theorem accepted_append (l l' : List (Ret α)) : accepted (l ++ l') = accepted l ++ accepted l' := by
  induction l with
  | nil => rfl
  | cons r l ih => cases r <;> simp [accepted, ih]

theorem popped_append (l l' : List (Ret α)) : popped (l ++ l') = popped l ++ popped l' := by
  induction l with
  | nil => rfl
  | cons r l ih => cases r <;> simp [popped, ih]

/-- Elements taken out of the container by a call that has not published them yet. -/
def inFlight : CPc α → Nat
  | .popGot _ _ => 1
  | .intoLoop _ c l _ => c - l
  | _ => 0

/-- 1 while the producer has written the slot but not published it. -/
def inStore : PPc α → Nat
  | .stored _ _ => 1
  | _ => 0

/-- Facts about the producer's program counter. `a` is the number of accepted pushes. -/
def PInv (s : St α) (a : Nat) : Prop :=
  match s.pPc with
  | .idle => True
  | .gotWrite _ w => w = a % s.n
  | .checked _ w => w = a % s.n ∧ ∃ m, s.histR[s.pSeen]? = some m ∧ a + 1 < m.count + s.n
  | .stored v w => w = a % s.n ∧ (∃ m, s.histR[s.pSeen]? = some m ∧ a + 1 < m.count + s.n) ∧
      ∃ sl, s.slots[a % s.n]? = some sl ∧ sl.content = some v

/-- Facts about the consumer's program counter. `b` is the number of elements handed out. -/
def CInv (s : St α) (acc : List α) (b : Nat) : Prop :=
  match s.cPc with
  | .idle => True
  | .popW w => w = s.cSeen % s.n
  | .popGo r => r = b % s.n ∧ b < s.cSeen
  | .popGot r v => r = b % s.n ∧ b < s.cSeen ∧ acc[b]? = some v
  | .intoW _ w => w = s.cSeen % s.n
  | .intoLoop r c l got => r = b % s.n ∧ l ≤ c ∧ b + c ≤ s.cSeen ∧ got = (acc.drop b).take (c - l)
  | .sizeW w => w = s.cSeen % s.n

/-- The invariant. -/
structure Inv (s : St α) : Prop where
  hn : 0 < s.n
  hlen : s.slots.length = s.n
  hrace : s.race = false
  hgarb : s.garbage = false
  hWlen : s.histW.length = (accepted s.pLog).length + 1
  hW : ∀ (k : Nat) (m : Msg), s.histW[k]? = some m → m.value = k % s.n ∧ m.count = k ∧ m.clock ≤ s.pClock
  hR : ∀ (k : Nat) (m : Msg), s.histR[k]? = some m →
    m.value = m.count % s.n ∧ m.count ≤ (popped s.cLog).length ∧ m.clock ≤ s.cClock
  hRlast : ∃ m : Msg, s.histR[s.histR.length - 1]? = some m ∧ m.count = (popped s.cLog).length
  hRmono : ∀ (k k' : Nat) (m m' : Msg), k ≤ k' → s.histR[k]? = some m → s.histR[k']? = some m' → m.count ≤ m'.count
  hpSeen : ∃ m : Msg, s.histR[s.pSeen]? = some m ∧ m.clock ≤ s.pKnows ∧ (accepted s.pLog).length < m.count + s.n
  hcSeen : ∃ m : Msg, s.histW[s.cSeen]? = some m ∧ m.clock ≤ s.cKnows
  hle : (popped s.cLog).length + inFlight s.cPc ≤ s.cSeen
  hpre : popped s.cLog = (accepted s.pLog).take (popped s.cLog).length
  hslot : ∀ (j : Nat) (v : α), (popped s.cLog).length + inFlight s.cPc ≤ j → (accepted s.pLog)[j]? = some v →
    ∃ sl : Slot α, s.slots[j % s.n]? = some sl ∧ sl.content = some v
  hC : ∀ (i : Nat) (sl : Slot α), s.slots[i]? = some sl → sl.lastC ≤ s.cClock ∧ (sl.lastC = 0 ∨
    ∃ j : Nat, j < (popped s.cLog).length + inFlight s.cPc ∧ j % s.n = i ∧
      ∀ (k : Nat) (m : Msg), s.histR[k]? = some m → j < m.count → sl.lastC ≤ m.clock)
  hP : ∀ (i : Nat) (sl : Slot α), s.slots[i]? = some sl → sl.lastP ≤ s.pClock ∧ (sl.lastP = 0 ∨
    ∃ j : Nat, j < (accepted s.pLog).length + inStore s.pPc ∧ j % s.n = i ∧
      ∀ (k : Nat) (m : Msg), s.histW[k]? = some m → j < m.count → sl.lastP ≤ m.clock)
  hpc : PInv s (accepted s.pLog).length
  hcc : CInv s (accepted s.pLog) (popped s.cLog).length

theorem inv_init {n : Nat} (hn : 0 < n) : Inv (init α n) := by
  constructor <;> try simp [init, accepted, popped, inFlight, inStore, hn, PInv, CInv]
  · intro k m hk
    cases k <;> simp_all
    subst hk; simp
  · intro k m hk
    cases k <;> simp_all
    subst hk; simp
  · intro k k' m m' _ h1 h2
    cases k <;> cases k' <;> simp_all
  · intro i sl h; simp [List.getElem?_replicate] at h; simp [← h.2]
  · intro i sl h; simp [List.getElem?_replicate] at h; simp [← h.2]

theorem lastMsg_eq (h : List Msg) (m : Msg) (hm : h[h.length - 1]? = some m) : lastMsg h = m := by
  unfold lastMsg
  rw [List.getLast?_eq_getElem?, hm]; rfl

theorem inv_lastW {s : St α} (h : Inv s) : ∃ m, lastMsg s.histW = m ∧ m.value = (accepted s.pLog).length % s.n ∧
    m.count = (accepted s.pLog).length ∧ s.histW[(accepted s.pLog).length]? = some m := by
  have hl := h.hWlen
  have hlt : (accepted s.pLog).length < s.histW.length := by omega
  have hg := List.getElem?_eq_getElem hlt
  have := h.hW _ _ hg
  refine ⟨_, lastMsg_eq _ _ (by rw [show s.histW.length - 1 = (accepted s.pLog).length by omega]; exact hg), ?_, ?_, hg⟩
  · exact this.1
  · exact this.2.1

theorem inv_lastR {s : St α} (h : Inv s) : ∃ m, lastMsg s.histR = m ∧ m.value = (popped s.cLog).length % s.n ∧
    m.count = (popped s.cLog).length ∧ s.histR[s.histR.length - 1]? = some m := by
  obtain ⟨m, h1, h2⟩ := h.hRlast
  refine ⟨m, lastMsg_eq _ _ h1, ?_, h2, h1⟩
  rw [(h.hR _ _ h1).1, h2]

theorem inv_seen_le {s : St α} (h : Inv s) : s.cSeen ≤ (accepted s.pLog).length := by
  obtain ⟨m, hm, _⟩ := h.hcSeen
  have := (List.getElem?_eq_some_iff.1 hm).1
  have := h.hWlen
  omega

/-- Room left: what is accepted and not handed out fits with one slot to spare. -/
theorem inv_room {s : St α} (h : Inv s) : (accepted s.pLog).length < (popped s.cLog).length + s.n := by
  obtain ⟨m, hm, _, h3⟩ := h.hpSeen
  have := (h.hR _ _ hm).2.1
  omega

theorem step_pBegin {s s' : St α} (h : Inv s) (v : α) (hs : step s (.pBegin v) = some s') : Inv s' := by
  obtain ⟨m, hm, hv, _⟩ := inv_lastW h
  simp only [step] at hs
  split at hs
  · rename_i hpc
    simp only [Option.some.injEq] at hs
    subst hs
    have := h.hP
    rw [hpc] at this
    exact { h with
      hW := fun k m hk => by have := h.hW k m hk; simp only; omega
      hP := fun i sl hi => ⟨by have := (h.hP i sl hi).1; simp only; omega, by simpa [inStore] using (this i sl hi).2⟩
      hpc := by simp [PInv, hm, hv]
      hcc := h.hcc }
  · simp at hs

theorem step_pLoadR {s s' : St α} (h : Inv s) (k : Nat) (hs : step s (.pLoadR k) = some s') : Inv s' := by
  simp only [step] at hs
  split at hs
  · rename_i v w hpc
    split at hs
    · rename_i hk
      split at hs
      · rename_i m hm
        obtain ⟨m0, hm0, hk0, ha0⟩ := h.hpSeen
        have hmono := h.hRmono _ _ _ _ hk hm0 hm
        have hmR := h.hR _ _ hm
        have hP := h.hP
        rw [hpc] at hP
        have hw : w = (accepted s.pLog).length % s.n := by have := h.hpc; simpa [PInv, hpc] using this
        have hroom := inv_room h
        split at hs
        · simp only [Option.some.injEq] at hs
          subst hs
          have hacc : accepted (s.pLog ++ [.refused v]) = accepted s.pLog := by simp [accepted_append, accepted]
          exact { hn := h.hn, hlen := h.hlen, hrace := h.hrace, hgarb := h.hgarb
                  hWlen := by simp only [hacc]; exact h.hWlen
                  hW := fun k m hk => by have := h.hW k m hk; simp only; omega
                  hR := h.hR, hRlast := h.hRlast, hRmono := h.hRmono
                  hpSeen := ⟨m, hm, by simp only; omega, by simp only [hacc]; omega⟩
                  hcSeen := h.hcSeen, hle := h.hle
                  hpre := by simp only [hacc]; exact h.hpre
                  hslot := by simp only [hacc]; exact h.hslot
                  hC := h.hC
                  hP := fun i sl hi => ⟨by have := (h.hP i sl hi).1; simp only; omega, by simp only [hacc]; simpa [inStore] using (hP i sl hi).2⟩
                  hpc := by simp [PInv]
                  hcc := by simp only [hacc]; exact h.hcc }
        · rename_i hne
          simp only [Option.some.injEq] at hs
          subst hs
          exact { h with
            hW := fun k m hk => by have := h.hW k m hk; simp only; omega
            hpSeen := ⟨m, hm, by simp only; omega, by simp only; omega⟩
            hP := fun i sl hi => ⟨by have := (h.hP i sl hi).1; simp only; omega, by simpa [inStore] using (hP i sl hi).2⟩
            hpc := by
              simp only [PInv]
              refine ⟨hw, m, hm, ?_⟩
              rw [hw, hmR.1, Nat.mod_add_mod] at hne
              have hle := h.hle
              have hsl := inv_seen_le h
              have : (accepted s.pLog).length + 1 ≠ m.count + s.n := by
                intro hc; apply hne; rw [hc]; simp
              omega
            hcc := h.hcc }
      · simp at hs
    · simp at hs
  · simp at hs

theorem step_pWriteSlot {s s' : St α} (h : Inv s) (hs : step s .pWriteSlot = some s') : Inv s' := by
  simp only [step] at hs
  split at hs
  · rename_i v w hpc
    have hp := h.hpc
    simp only [PInv, hpc] at hp
    obtain ⟨hw, m, hm, hlt⟩ := hp
    simp only [Option.some.injEq] at hs
    have hwn : w < s.n := by rw [hw]; exact Nat.mod_lt _ h.hn
    have hsl : ∃ sl, s.slots[w]? = some sl := ⟨_, List.getElem?_eq_getElem (by rw [h.hlen]; exact hwn)⟩
    obtain ⟨sl, hsl⟩ := hsl
    have hroom := inv_room h
    have hmR := h.hR _ _ hm
    have hle := h.hle
    have hseen := inv_seen_le h
    obtain ⟨m', hm', hkn, _⟩ := h.hpSeen
    rw [hm] at hm'; cases hm'
    have hPo := h.hP
    rw [hpc] at hPo
    -- no race
    have hnr : ¬ s.pKnows < sl.lastC := by
      rcases (h.hC w sl hsl).2 with h0 | ⟨j, hj1, hj2, hj3⟩
      · omega
      · have hjm : j < m.count := by
          false_or_by_contra
          rename_i hc
          rw [hw] at hj2
          have := mod_inj_of_lt (a := j) (b := (accepted s.pLog).length) (by omega) (by omega) hj2
          omega
        have := hj3 _ _ hm hjm
        omega
    have hsame : ∀ i, (s.slots.set w ⟨some v, s.pClock + 1, sl.lastC⟩)[i]? =
        if w = i then some ⟨some v, s.pClock + 1, sl.lastC⟩ else s.slots[i]? := by
      intro i
      rw [List.getElem?_set]
      split
      · simp [h.hlen, hwn]
      · rfl
    simp only [pAccess, hsl] at hs
    subst hs
    exact { h with
      hlen := by simp [h.hlen]
      hrace := by simp [h.hrace]; omega
      hW := fun k m hk => by have := h.hW k m hk; simp only; omega
      hslot := by
        intro j u hj1 hj2
        simp only at hj1 hj2 ⊢
        have hja : j < (accepted s.pLog).length := (List.getElem?_eq_some_iff.1 hj2).1
        rw [hsame, if_neg]
        · exact h.hslot j u hj1 hj2
        · intro hc
          rw [hw] at hc
          have := mod_inj_of_lt (a := j) (b := (accepted s.pLog).length) (by omega) (by omega) hc.symm
          omega
      hC := by
        intro i sl' hi
        simp only at hi ⊢
        rw [hsame] at hi
        split at hi
        · rename_i hwi
          simp only [Option.some.injEq] at hi
          subst hi; subst hwi
          simpa using h.hC w sl hsl
        · exact h.hC i sl' hi
      hP := by
        intro i sl' hi
        simp only at hi ⊢
        rw [hsame] at hi
        split at hi
        · rename_i hwi
          simp only [Option.some.injEq] at hi
          subst hi; subst hwi
          refine ⟨by simp, Or.inr ⟨(accepted s.pLog).length, by simp [inStore], hw.symm, ?_⟩⟩
          intro k m hk hc
          have := h.hW k m hk
          have := (List.getElem?_eq_some_iff.1 hk).1
          have := h.hWlen
          omega
        · refine ⟨by have := (h.hP i sl' hi).1; omega, ?_⟩
          rcases (hPo i sl' hi).2 with h0 | ⟨j, hj1, hj2, hj3⟩
          · exact Or.inl h0
          · exact Or.inr ⟨j, by simp only [inStore] at hj1 ⊢; omega, hj2, hj3⟩
      hpc := by
        simp only [PInv]
        refine ⟨hw, ⟨m, hm, hlt⟩, ?_⟩
        rw [hsame, ← hw, if_pos rfl]
        exact ⟨_, rfl, rfl⟩
      hcc := h.hcc }
  · simp at hs

theorem step_pStoreW {s s' : St α} (h : Inv s) (hs : step s .pStoreW = some s') : Inv s' := by
  simp only [step] at hs
  split at hs
  · rename_i v w hpc
    have hp := h.hpc
    simp only [PInv, hpc] at hp
    obtain ⟨hw, ⟨m, hm, hlt⟩, sl, hsl, hcont⟩ := hp
    obtain ⟨lm, hlm, _, hlmc, _⟩ := inv_lastW h
    simp only [Option.some.injEq] at hs
    have hacc : accepted (s.pLog ++ [.pushed v]) = accepted s.pLog ++ [v] := by simp [accepted_append, accepted]
    have hseen := inv_seen_le h
    have hle := h.hle
    have hWlen := h.hWlen
    have hPo := h.hP
    rw [hpc] at hPo
    have hget : ∀ (k : Nat) (m' : Msg), (s.histW ++ [(⟨(w + 1) % s.n, s.pClock + 1, (lastMsg s.histW).count + 1⟩ : Msg)])[k]? = some m' →
        s.histW[k]? = some m' ∨ (k = (accepted s.pLog).length + 1 ∧
          m' = ⟨(w + 1) % s.n, s.pClock + 1, (lastMsg s.histW).count + 1⟩) := by
      intro k m' hk
      by_cases hkl : k < s.histW.length
      · rw [List.getElem?_append_left hkl] at hk; exact Or.inl hk
      · rw [List.getElem?_append_right (by omega)] at hk
        by_cases hk0 : k - s.histW.length = 0
        · rw [hk0] at hk; simp at hk; exact Or.inr ⟨by omega, hk.symm⟩
        · rw [List.getElem?_eq_none (by simp; omega)] at hk; simp at hk
    have hold : ∀ (k : Nat) (m' : Msg), s.histW[k]? = some m' →
        (s.histW ++ [(⟨(w + 1) % s.n, s.pClock + 1, (lastMsg s.histW).count + 1⟩ : Msg)])[k]? = some m' := by
      intro k m' hk
      rw [List.getElem?_append_left (List.getElem?_eq_some_iff.1 hk).1]; exact hk
    subst hs
    exact { hn := h.hn, hlen := h.hlen, hrace := h.hrace, hgarb := h.hgarb
            hWlen := by simp [hacc, hWlen]
            hW := by
              intro k m' hk
              rcases hget k m' hk with hk | ⟨hk1, hk2⟩
              · have := h.hW k m' hk; simp only; omega
              · subst hk2; subst hk1
                simp only [hlm, hlmc, hw, Nat.mod_add_mod]; simp
            hR := h.hR, hRlast := h.hRlast, hRmono := h.hRmono
            hpSeen := by
              obtain ⟨m', hm', hkn, _⟩ := h.hpSeen
              rw [hm] at hm'; cases hm'
              refine ⟨m, hm, hkn, ?_⟩
              simp only [hacc, List.length_append, List.length_cons, List.length_nil]; omega
            hcSeen := by
              obtain ⟨m', h1, h2⟩ := h.hcSeen
              exact ⟨m', hold _ _ h1, h2⟩
            hle := h.hle
            hpre := by
              simp only [hacc]
              rw [List.take_append_of_le_length (by omega)]
              exact h.hpre
            hslot := by
              intro j u hj1 hj2
              simp only [hacc] at hj1 hj2 ⊢
              by_cases hj : j < (accepted s.pLog).length
              · rw [List.getElem?_append_left hj] at hj2
                exact h.hslot j u hj1 hj2
              · have hj' : j = (accepted s.pLog).length := by
                  have := (List.getElem?_eq_some_iff.1 hj2).1
                  simp at this; omega
                subst hj'
                simp at hj2
                subst hj2
                exact ⟨sl, hsl, hcont⟩
            hC := h.hC
            hP := by
              intro i sl' hi
              have hi1 := (h.hP i sl' hi).1
              refine ⟨by simp only; omega, ?_⟩
              rcases (hPo i sl' hi).2 with h0 | ⟨j, hj1, hj2, hj3⟩
              · exact Or.inl h0
              · refine Or.inr ⟨j, ?_, hj2, ?_⟩
                · simp only [hacc, inStore, List.length_append, List.length_cons, List.length_nil] at hj1 ⊢; omega
                · intro k m' hk hc
                  rcases hget k m' hk with hk | ⟨hk1, hk2⟩
                  · exact hj3 k m' hk hc
                  · subst hk2; simp only; omega
            hpc := by simp [PInv]
            hcc := by
              have := h.hcc
              simp only [hacc]
              cases hcp : s.cPc with
              | popGot r v' =>
                simp only [CInv, hcp] at this ⊢
                exact ⟨this.1, this.2.1, by rw [List.getElem?_append_left (by omega)]; exact this.2.2⟩
              | intoLoop r c l got =>
                simp only [CInv, hcp] at this ⊢
                have hin : inFlight s.cPc = c - l := by rw [hcp]; rfl
                refine ⟨this.1, this.2.1, this.2.2.1, ?_⟩
                rw [List.drop_append_of_le_length (by omega), List.take_append_of_le_length (by simp; omega)]
                exact this.2.2.2
              | _ => simpa [CInv, hcp] using this }
  · simp at hs

theorem inv_acquireW {s s' : St α} {w k : Nat} (h : Inv s) (hidle : s.cPc = .idle)
    (hs : cAcquireW s k = some (s', w)) (pc : CPc α) (hf : inFlight pc = 0)
    (hpc : CInv { s' with cPc := pc, cClock := s'.cClock + 1 } (accepted s.pLog) (popped s.cLog).length) :
    Inv { s' with cPc := pc, cClock := s'.cClock + 1 } := by
  unfold cAcquireW at hs
  split at hs
  · rename_i hk
    split at hs
    · rename_i m hm
      simp only [Option.some.injEq, Prod.mk.injEq] at hs
      obtain ⟨rfl, rfl⟩ := hs
      have hle := h.hle
      have hslot := h.hslot
      have hC := h.hC
      rw [hidle] at hle hslot hC
      simp only [inFlight] at hle hslot hC
      exact { h with
        hR := fun k m hk => by have := h.hR k m hk; simp only; omega
        hcSeen := ⟨m, hm, by simp only; omega⟩
        hle := by simp only [hf]; omega
        hslot := by simp only [hf]; exact hslot
        hC := fun i sl hi => ⟨by have := (hC i sl hi).1; simp only; omega, by simp only [hf]; exact (hC i sl hi).2⟩
        hpc := h.hpc
        hcc := hpc }
    · simp at hs
  · simp at hs

theorem acquireW_val {s s' : St α} {w k : Nat} (h : Inv s) (hs : cAcquireW s k = some (s', w)) :
    w = s'.cSeen % s'.n := by
  unfold cAcquireW at hs
  split at hs
  · split at hs
    · rename_i m hm
      simp only [Option.some.injEq, Prod.mk.injEq] at hs
      obtain ⟨rfl, rfl⟩ := hs
      exact (h.hW _ _ hm).1
    · simp at hs
  · simp at hs

theorem step_cBegin {s s' : St α} (h : Inv s) (a : Act α)
    (ha : (∃ k, a = .cBeginPop k) ∨ (∃ mx k, a = .cBeginInto mx k) ∨ (∃ k, a = .cBeginSize k))
    (hs : step s a = some s') : Inv s' := by
  rcases ha with ⟨k, rfl⟩ | ⟨mx, k, rfl⟩ | ⟨k, rfl⟩ <;>
  · simp only [step] at hs
    split at hs
    · rename_i hidle
      split at hs
      · rename_i p s1 w hacq
        simp only [Option.some.injEq] at hs
        subst hs
        exact inv_acquireW h hidle hacq _ rfl (by simp [CInv, acquireW_val h hacq])
      · simp at hs
    · simp at hs

/-- A consumer step that only moves its program counter. -/
theorem inv_cMove {s : St α} (h : Inv s) (pc : CPc α) (log : List (Ret α)) (hlog : popped log = popped s.cLog)
    (hf : inFlight pc = inFlight s.cPc)
    (hpc : CInv { s with cPc := pc, cClock := s.cClock + 1, cLog := log } (accepted s.pLog) (popped s.cLog).length) :
    Inv { s with cPc := pc, cClock := s.cClock + 1, cLog := log } := by
  exact { h with
    hR := fun k m hk => by have := h.hR k m hk; simp only [hlog]; omega
    hRlast := by simp only [hlog]; exact h.hRlast
    hle := by simp only [hf, hlog]; exact h.hle
    hpre := by simp only [hlog]; exact h.hpre
    hslot := by simp only [hf, hlog]; exact h.hslot
    hC := fun i sl hi => ⟨by have := (h.hC i sl hi).1; simp only; omega, by simp only [hf, hlog]; exact (h.hC i sl hi).2⟩
    hpc := h.hpc
    hcc := by simp only [hlog]; exact hpc }

theorem available_val {n a b : Nat} (hn : 0 < n) (hab : a ≤ b) (hlt : b - a < n) :
    available n (b % n) (a % n) = b - a := by
  have hb : b % n = (a % n + (b - a)) % n := by
    rw [Nat.mod_add_mod]; congr 1; omega
  have := Nat.mod_lt a hn
  rw [hb, add_mod_eq this (by omega)]
  unfold available
  split <;> split <;> omega

theorem step_cLoadR {s s' : St α} (h : Inv s) (hs : step s .cLoadR = some s') : Inv s' := by
  obtain ⟨m, hm, hv, _⟩ := inv_lastR h
  have hle := h.hle
  have hseen := inv_seen_le h
  have hroom := inv_room h
  have hcc := h.hcc
  simp only [step, hm, hv] at hs
  split at hs
  · rename_i w hpc
    simp only [CInv, hpc] at hcc
    split at hs
    · simp only [Option.some.injEq] at hs
      subst hs
      exact inv_cMove h .idle _ (by simp [popped_append, popped]) (by simp [inFlight, hpc]) (by simp [CInv])
    · rename_i hne
      simp only [Option.some.injEq] at hs
      subst hs
      refine inv_cMove h (.popGo _) s.cLog rfl (by simp [inFlight, hpc]) ?_
      simp only [CInv]
      refine ⟨trivial, ?_⟩
      rw [hcc] at hne
      have : (popped s.cLog).length ≠ s.cSeen := fun hc => hne (by rw [hc])
      omega
  · rename_i mx w hpc
    simp only [CInv, hpc] at hcc
    simp only [Option.some.injEq] at hs
    subst hs
    refine inv_cMove h (.intoLoop _ _ _ _) s.cLog rfl (by simp [inFlight, hpc]) ?_
    simp only [CInv]
    have hav := available_val h.hn (show (popped s.cLog).length ≤ s.cSeen by omega) (by omega)
    rw [hcc, hav]
    refine ⟨trivial, Nat.le_refl _, ?_, by simp⟩
    have := Nat.min_le_left (s.cSeen - (popped s.cLog).length) mx
    omega
  · rename_i w hpc
    simp only [Option.some.injEq] at hs
    subst hs
    exact inv_cMove h .idle _ (by simp [popped_append, popped]) (by simp [inFlight, hpc]) (by simp [CInv])
  · simp at hs

/-- The consumer takes the element number `e` (the next one) out of its slot. -/
theorem inv_take {s : St α} (h : Inv s) (i : Nat)
    (hi : i = ((popped s.cLog).length + inFlight s.cPc) % s.n)
    (he : (popped s.cLog).length + inFlight s.cPc < s.cSeen) :
    ∃ v sl, s.slots[i]? = some sl ∧ sl.content = some v ∧ ¬ s.cKnows < sl.lastP ∧
      (accepted s.pLog)[(popped s.cLog).length + inFlight s.cPc]? = some v := by
  have hseen := inv_seen_le h
  have hroom := inv_room h
  obtain ⟨m, hm, hkn⟩ := h.hcSeen
  have hmW := h.hW _ _ hm
  have hlt : (popped s.cLog).length + inFlight s.cPc < (accepted s.pLog).length := by omega
  have hg := List.getElem?_eq_getElem hlt
  obtain ⟨sl, h1, h2⟩ := h.hslot _ _ (Nat.le_refl _) hg
  rw [← hi] at h1
  refine ⟨_, sl, h1, h2, ?_, hg⟩
  rcases (h.hP i sl h1).2 with h0 | ⟨j, hj1, hj2, hj3⟩
  · omega
  · have hin : inStore s.pPc = 1 → (accepted s.pLog).length + 1 < (popped s.cLog).length + s.n := by
      intro hc
      have := h.hpc
      unfold PInv at this
      unfold inStore at hc
      split at hc <;> simp_all
      obtain ⟨_, ⟨m', hm', hlt'⟩, _⟩ := this
      have := (h.hR _ _ hm').2.1
      omega
    have hin2 : inStore s.pPc ≤ 1 := by unfold inStore; split <;> simp
    have hje : j ≤ (popped s.cLog).length + inFlight s.cPc := by
      false_or_by_contra
      rename_i hc
      have := mod_inj_of_lt (n := s.n) (a := (popped s.cLog).length + inFlight s.cPc) (b := j) (by omega)
        (by by_cases hst : inStore s.pPc = 1
            · have := hin hst; omega
            · omega) (by rw [hj2, hi])
      omega
    have := hj3 _ _ hm (by omega)
    omega

/-- State after taking. -/
theorem inv_afterTake {s : St α} (h : Inv s) (i : Nat) (sl : Slot α) (v : α)
    (hi : i = ((popped s.cLog).length + inFlight s.cPc) % s.n)
    (he : (popped s.cLog).length + inFlight s.cPc < s.cSeen)
    (hsl : s.slots[i]? = some sl) (hnr : ¬ s.cKnows < sl.lastP) (hcont : sl.content = some v)
    (pc : CPc α) (hf : inFlight pc = inFlight s.cPc + 1)
    (s' : St α)
    (hs' : s' = { s with cClock := s.cClock + 1, slots := s.slots.set i ⟨none, sl.lastP, s.cClock + 1⟩,
                         race := s.race || decide (s.cKnows < sl.lastP), garbage := s.garbage || sl.content.isNone,
                         cPc := pc })
    (hpc : CInv s' (accepted s.pLog) (popped s.cLog).length) :
    Inv s' := by
  have hseen := inv_seen_le h
  have hroom := inv_room h
  have hin : i < s.n := by rw [hi]; exact Nat.mod_lt _ h.hn
  have hsame : ∀ i', (s.slots.set i ⟨none, sl.lastP, s.cClock + 1⟩)[i']? =
      if i = i' then some ⟨none, sl.lastP, s.cClock + 1⟩ else s.slots[i']? := by
    intro i'
    rw [List.getElem?_set]
    split
    · simp [h.hlen, hin]
    · rfl
  subst hs'
  exact { h with
    hlen := by simp [h.hlen]
    hrace := by simp [h.hrace]; omega
    hgarb := by simp [h.hgarb, hcont]
    hR := fun k m hk => by have := h.hR k m hk; simp only; omega
    hle := by simp only [hf]; omega
    hslot := by
      intro j u hj1 hj2
      simp only [hf] at hj1 hj2 ⊢
      rw [hsame, if_neg]
      · exact h.hslot j u (by omega) hj2
      · intro hc
        have hja : j < (accepted s.pLog).length := (List.getElem?_eq_some_iff.1 hj2).1
        rw [hi] at hc
        have := mod_inj_of_lt (n := s.n) (by omega) (by omega) hc
        omega
    hC := by
      intro i' sl' hi'
      simp only [hf] at hi' ⊢
      rw [hsame] at hi'
      split at hi'
      · rename_i hii
        simp only [Option.some.injEq] at hi'
        subst hi'; subst hii
        refine ⟨by simp, Or.inr ⟨(popped s.cLog).length + inFlight s.cPc, by omega, hi.symm, ?_⟩⟩
        intro k m hk hc
        have := (h.hR k m hk).2.1
        omega
      · refine ⟨by have := (h.hC i' sl' hi').1; omega, ?_⟩
        rcases (h.hC i' sl' hi').2 with h0 | ⟨j, hj1, hj2, hj3⟩
        · exact Or.inl h0
        · exact Or.inr ⟨j, by omega, hj2, hj3⟩
    hP := by
      intro i' sl' hi'
      simp only at hi' ⊢
      rw [hsame] at hi'
      split at hi'
      · rename_i hii
        simp only [Option.some.injEq] at hi'
        subst hi'; subst hii
        simpa using h.hP i sl hsl
      · exact h.hP i' sl' hi'
    hpc := by
      have := h.hpc
      cases hpp : s.pPc with
      | stored v' w' =>
        simp only [PInv, hpp] at this ⊢
        obtain ⟨hw', ⟨m', hm', hlt'⟩, hsl'⟩ := this
        refine ⟨hw', ⟨m', hm', hlt'⟩, ?_⟩
        rw [hsame, if_neg]
        · exact hsl'
        · intro hc
          have hR := (h.hR _ _ hm').2.1
          rw [hi] at hc
          have := mod_inj_of_lt (n := s.n) (by omega) (by omega) hc
          omega
      | _ => simpa [PInv, hpp] using this
    hcc := hpc }

theorem step_cTake {s s' : St α} (h : Inv s) (hs : step s .cTake = some s') : Inv s' := by
  have hcc := h.hcc
  have hseen := inv_seen_le h
  have hroom := inv_room h
  simp only [step] at hs
  split at hs
  · rename_i r hpc
    simp only [CInv, hpc] at hcc
    have hfl : inFlight s.cPc = 0 := by rw [hpc]; rfl
    obtain ⟨v, sl, h1, h2, h3, h4⟩ := inv_take h r (by rw [hfl]; exact hcc.1) (by omega)
    simp only [cAccess, h1, h2, Option.some.injEq] at hs
    refine inv_afterTake h r sl v (by rw [hfl]; exact hcc.1) (by omega) h1 h3 h2 (.popGot r v) (by simp [inFlight, hpc]) s'
      (by rw [← hs]; simp [h2]) ?_
    rw [← hs]
    simp only [CInv]
    exact ⟨hcc.1, hcc.2, by rw [hfl] at h4; exact h4⟩
  · rename_i r c l got hpc
    simp only [CInv, hpc] at hcc
    obtain ⟨hr, hl, hb, hg⟩ := hcc
    have hfl : inFlight s.cPc = c - (l + 1) := by rw [hpc]; rfl
    have hidx : (r + (c - (l + 1))) % s.n = ((popped s.cLog).length + inFlight s.cPc) % s.n := by
      rw [hfl, hr, Nat.mod_add_mod]
    obtain ⟨v, sl, h1, h2, h3, h4⟩ := inv_take h _ hidx (by omega)
    simp only [cAccess, h1, h2, Option.some.injEq] at hs
    refine inv_afterTake h _ sl v hidx (by omega) h1 h3 h2 (.intoLoop r c l (got ++ [v])) (by simp [inFlight, hpc]; omega) s'
      (by rw [← hs]; simp [h2]) ?_
    rw [← hs]
    simp only [CInv]
    refine ⟨hr, by omega, hb, ?_⟩
    rw [hg, show c - l = (c - (l + 1)) + 1 by omega, List.take_add_one]
    congr 1
    rw [List.getElem?_drop, ← hfl, h4]
    rfl
  · simp at hs

/-- The consumer publishes `d` more handed out elements. -/
theorem inv_publish {s : St α} (h : Inv s) (d : Nat) (hd : inFlight s.cPc = d) (log : List (Ret α)) (vs : List α)
    (hvs : vs = ((accepted s.pLog).drop (popped s.cLog).length).take d) (hlog : popped log = popped s.cLog ++ vs)
    (val : Nat) (hval : val = ((popped s.cLog).length + d) % s.n) :
    Inv { s with cClock := s.cClock + 1, cPc := .idle, cLog := log,
                 histR := s.histR ++ [⟨val, s.cClock + 1, (lastMsg s.histR).count + d⟩] } := by
  have hseen := inv_seen_le h
  have hroom := inv_room h
  have hle := h.hle
  obtain ⟨lm, hlm, _, hlmc, hlmg⟩ := inv_lastR h
  have hvl : vs.length = d := by rw [hvs]; simp; omega
  have hpl : (popped log).length = (popped s.cLog).length + d := by rw [hlog]; simp [hvl]
  have hget : ∀ (k : Nat) (m' : Msg), (s.histR ++ [(⟨val, s.cClock + 1, (lastMsg s.histR).count + d⟩ : Msg)])[k]? = some m' →
      s.histR[k]? = some m' ∨ (k = s.histR.length ∧ m' = ⟨val, s.cClock + 1, (lastMsg s.histR).count + d⟩) := by
    intro k m' hk
    by_cases hkl : k < s.histR.length
    · rw [List.getElem?_append_left hkl] at hk; exact Or.inl hk
    · rw [List.getElem?_append_right (by omega)] at hk
      by_cases hk0 : k - s.histR.length = 0
      · rw [hk0] at hk; simp at hk; exact Or.inr ⟨by omega, hk.symm⟩
      · rw [List.getElem?_eq_none (by simp; omega)] at hk; simp at hk
  have hold : ∀ (k : Nat) (m' : Msg), s.histR[k]? = some m' →
      (s.histR ++ [(⟨val, s.cClock + 1, (lastMsg s.histR).count + d⟩ : Msg)])[k]? = some m' := by
    intro k m' hk
    rw [List.getElem?_append_left (List.getElem?_eq_some_iff.1 hk).1]; exact hk
  exact { h with
    hR := by
      intro k m' hk
      rcases hget k m' hk with hk | ⟨_, hk2⟩
      · have := h.hR k m' hk; simp only [hpl]; omega
      · subst hk2; simp only [hpl, hlm, hlmc, hval]; simp
    hRlast := by
      refine ⟨_, by simp; rfl, ?_⟩
      simp only [hpl, hlm, hlmc]
    hRmono := by
      intro k k' m1 m2 hkk h1 h2
      rcases hget k m1 h1 with h1 | ⟨h1a, h1b⟩
      · rcases hget k' m2 h2 with h2 | ⟨_, h2b⟩
        · exact h.hRmono k k' m1 m2 hkk h1 h2
        · subst h2b
          have := (h.hR k m1 h1).2.1
          simp only [hlm, hlmc]; omega
      · rcases hget k' m2 h2 with h2 | ⟨_, h2b⟩
        · have := (List.getElem?_eq_some_iff.1 h2).1
          omega
        · rw [h1b, h2b]; exact Nat.le_refl _
    hpSeen := by
      obtain ⟨m', h1, h2⟩ := h.hpSeen
      exact ⟨m', hold _ _ h1, h2⟩
    hle := by simp only [inFlight, hpl]; omega
    hpre := by
      simp only [hpl]
      rw [hlog, hvs, List.take_add, ← h.hpre]
    hslot := by
      intro j u hj1 hj2
      simp only [inFlight, hpl] at hj1
      exact h.hslot j u (by omega) hj2
    hC := by
      intro i sl hi
      have := h.hC i sl hi
      refine ⟨by simp only; omega, ?_⟩
      rcases this.2 with h0 | ⟨j, hj1, hj2, hj3⟩
      · exact Or.inl h0
      · refine Or.inr ⟨j, by simp only [inFlight, hpl]; omega, hj2, ?_⟩
        intro k m' hk hc
        rcases hget k m' hk with hk | ⟨_, hk2⟩
        · exact hj3 k m' hk hc
        · subst hk2; simp only; omega
    hpc := by
      have := h.hpc
      unfold PInv at this ⊢
      simp only
      split <;> simp_all
      · obtain ⟨_, m', hm', hlt'⟩ := this
        exact ⟨m', hold _ _ hm', hlt'⟩
      · obtain ⟨_, ⟨m', hm', hlt'⟩, _⟩ := this
        exact ⟨m', hold _ _ hm', hlt'⟩
    hcc := by simp [CInv] }

theorem step_cStoreR {s s' : St α} (h : Inv s) (hs : step s .cStoreR = some s') : Inv s' := by
  have hcc := h.hcc
  have hseen := inv_seen_le h
  simp only [step] at hs
  split at hs
  · rename_i r v hpc
    simp only [CInv, hpc] at hcc
    simp only [Option.some.injEq] at hs
    subst hs
    refine inv_publish h 1 (by rw [hpc]; rfl) _ [v] ?_ (by simp [popped_append, popped]) _ ?_
    · have := List.getElem?_eq_some_iff.1 hcc.2.2
      obtain ⟨h1, h2⟩ := this
      rw [List.drop_eq_getElem_cons h1, h2]; rfl
    · rw [hcc.1, Nat.mod_add_mod]
  · rename_i r c got hpc
    simp only [CInv, hpc] at hcc
    simp only [Option.some.injEq] at hs
    subst hs
    refine inv_publish h c (by rw [hpc]; rfl) _ got ?_ (by simp [popped_append, popped]) _ ?_
    · simpa using hcc.2.2.2
    · rw [hcc.1, Nat.mod_add_mod]
  · simp at hs

theorem step_inv {s s' : St α} (h : Inv s) (a : Act α) (hs : step s a = some s') : Inv s' := by
  cases a with
  | pBegin v => exact step_pBegin h v hs
  | pLoadR k => exact step_pLoadR h k hs
  | pWriteSlot => exact step_pWriteSlot h hs
  | pStoreW => exact step_pStoreW h hs
  | cBeginPop k => exact step_cBegin h _ (Or.inl ⟨k, rfl⟩) hs
  | cBeginInto mx k => exact step_cBegin h _ (Or.inr (Or.inl ⟨mx, k, rfl⟩)) hs
  | cBeginSize k => exact step_cBegin h _ (Or.inr (Or.inr ⟨k, rfl⟩)) hs
  | cLoadR => exact step_cLoadR h hs
  | cTake => exact step_cTake h hs
  | cStoreR => exact step_cStoreR h hs

theorem run_inv (as : List (Act α)) : ∀ {s s' : St α}, Inv s → run s as = some s' → Inv s' := by
  induction as with
  | nil => intro s s' h hs; simp [run] at hs; exact hs ▸ h
  | cons a as ih =>
    intro s s' h hs
    simp only [run, Option.bind_eq_some_iff] at hs
    obtain ⟨s1, h1, h2⟩ := hs
    exact ih (step_inv h a h1) h2

theorem step_n {s s' : St α} (a : Act α) (h : step s a = some s') : s'.n = s.n := by
  cases a <;> simp only [step, cAcquireW, pAccess, cAccess] at h <;> grind

theorem run_n (as : List (Act α)) : ∀ {s s' : St α}, run s as = some s' → s'.n = s.n := by
  induction as with
  | nil => intro s s' h; simp [run] at h; rw [h]
  | cons a as ih =>
    intro s s' h
    simp only [run, Option.bind_eq_some_iff] at h
    obtain ⟨s1, h1, h2⟩ := h
    rw [ih h2, step_n a h1]

theorem run_append {as bs : List (Act α)} : ∀ {s s1 s2 : St α}, run s as = some s1 → run s1 bs = some s2 →
    run s (as ++ bs) = some s2 := by
  induction as with
  | nil => intro s s1 s2 h1 h2; simp [run] at h1; subst h1; exact h2
  | cons a as ih =>
    intro s s1 s2 h1 h2
    simp only [run, Option.bind_eq_some_iff, List.cons_append] at h1 ⊢
    obtain ⟨s3, h3, h4⟩ := h1
    exact ⟨s3, h3, ih h4 h2⟩

end Scalopus.RingConc
