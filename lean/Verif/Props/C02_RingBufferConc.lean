import Verif.Proofs.RingBufferConc

/-!
# C02: the ring buffer with one producer and one consumer

All statements quantify over every schedule `acts`: every interleaving of the memory accesses of the two threads and
every choice of (possibly stale) messages read by the acquire loads.
-/

namespace Scalopus.C02

open RingConc Spec.QueueConc

/-- **C02 (safety).** Under every schedule: no data race and no out of bounds access, no pop yields a value that was not
    pushed, what was popped is a prefix of what was accepted (in order, without loss, duplication or change), and at most
    `n - 1` accepted elements are waiting. -/
theorem ring_concurrent_safe {n : Nat} (hn : 0 < n) (acts : List (Act α)) (s : St α)
    (h : run (init α n) acts = some s) :
    s.race = false ∧ s.garbage = false ∧ popped s.cLog <+: accepted s.pLog ∧
      (accepted s.pLog).length ≤ (popped s.cLog).length + (n - 1) := by
  have hi := run_inv acts (inv_init hn) h
  have hroom := inv_room hi
  rw [run_n _ h] at hroom
  refine ⟨hi.hrace, hi.hgarb, ?_, by simp only [init] at hroom; omega⟩
  rw [hi.hpre]
  exact List.take_prefix _ _

/-- **C02 (refusal).** A push is refused only if, counting the pops that the producer could see when it looked, the
    buffer holds `n - 1` elements; when it sees the latest pop, it is refused iff the buffer is full. -/
theorem push_refused_iff_full {n : Nat} (hn : 0 < n) (acts : List (Act α)) (s s' : St α)
    (h : run (init α n) acts = some s) (k : Nat) (hs : step s (.pLoadR k) = some s') :
    ∃ seen, s.histR[k]? = some seen ∧ seen.count ≤ (popped s.cLog).length ∧
      (k + 1 = s.histR.length → seen.count = (popped s.cLog).length) ∧
      ((∃ v, s'.pLog = s.pLog ++ [.refused v]) ↔ (accepted s.pLog).length + 1 = seen.count + s.n) := by
  have hi := run_inv acts (inv_init hn) h
  simp only [step] at hs
  split at hs
  · rename_i v w hpc
    have hw : w = (accepted s.pLog).length % s.n := by have := hi.hpc; simpa [PInv, hpc] using this
    split at hs
    · rename_i hk
      split at hs
      · rename_i m hm
        obtain ⟨m0, hm0, _, ha0⟩ := hi.hpSeen
        have hmono := hi.hRmono _ _ _ _ hk hm0 hm
        have hmR := hi.hR _ _ hm
        have hle := hi.hle
        have hseen := inv_seen_le hi
        refine ⟨m, hm, hmR.2.1, ?_, ?_⟩
        · intro hl
          obtain ⟨ml, h1, h2⟩ := hi.hRlast
          rw [show s.histR.length - 1 = k by omega, hm] at h1
          cases h1; exact h2
        · rw [hw, hmR.1, Nat.mod_add_mod] at hs
          constructor
          · rintro ⟨u, hu⟩
            split at hs
            · rename_i heq
              false_or_by_contra
              rename_i hc
              have := mod_inj_of_lt (n := s.n) (a := m.count) (b := (accepted s.pLog).length + 1) (by omega) (by omega)
                heq.symm
              omega
            · simp only [Option.some.injEq] at hs
              subst hs
              have := congrArg List.length hu
              simp at this
          · intro hf
            rw [if_pos (by rw [hf]; simp)] at hs
            simp only [Option.some.injEq] at hs
            exact ⟨v, by rw [← hs]⟩
      · simp at hs
    · simp at hs
  · simp at hs

theorem one_pop {s : St α} (hi : Inv s) (hidle : s.cPc = .idle)
    (hlt : (popped s.cLog).length < (accepted s.pLog).length) :
    ∃ s', run s [.cBeginPop (accepted s.pLog).length, .cLoadR, .cTake, .cStoreR] = some s' ∧ s'.cPc = .idle ∧
      s'.pLog = s.pLog ∧ (popped s'.cLog).length = (popped s.cLog).length + 1 := by
  obtain ⟨m, hm, hmv, hmc, hmg⟩ := inv_lastW hi
  have hseen := inv_seen_le hi
  have hroom := inv_room hi
  -- first access
  have e1 : ∃ s1, step s (.cBeginPop (accepted s.pLog).length) = some s1 ∧
      s1.cPc = .popW ((accepted s.pLog).length % s.n) ∧ s1.cLog = s.cLog ∧ s1.pLog = s.pLog ∧ s1.n = s.n := by
    simp only [step, hidle, cAcquireW, if_pos hseen, hmg]
    exact ⟨_, rfl, by simp [hmv], rfl, rfl, rfl⟩
  obtain ⟨s1, e1, f1, g1, k1, n1⟩ := e1
  have hi1 := step_inv hi _ e1
  obtain ⟨r, hr, hrv, _⟩ := inv_lastR hi1
  rw [g1, n1] at hrv
  have hne : ¬ (accepted s.pLog).length % s.n = (popped s.cLog).length % s.n := by
    intro hc
    have := mod_inj_of_lt (n := s.n) (by omega) (by omega) hc.symm
    omega
  have e2 : ∃ s2, step s1 .cLoadR = some s2 ∧ s2.cPc = .popGo ((popped s.cLog).length % s.n) ∧ s2.cLog = s.cLog ∧
      s2.pLog = s.pLog ∧ s2.n = s.n := by
    simp only [step, f1, hr, hrv, if_neg hne]
    exact ⟨_, rfl, rfl, g1, k1, n1⟩
  obtain ⟨s2, e2, f2, g2, k2, n2⟩ := e2
  have hi2 := step_inv hi1 _ e2
  have hcc := hi2.hcc
  simp only [CInv, f2] at hcc
  have hfl : inFlight s2.cPc = 0 := by rw [f2]; rfl
  obtain ⟨v, sl, h1, h2, h3, h4⟩ := inv_take hi2 ((popped s.cLog).length % s.n) (by rw [hfl, g2, n2]; rfl)
    (by rw [hfl]; exact hcc.2)
  have e3 : ∃ s3, step s2 .cTake = some s3 ∧ s3.cPc = .popGot ((popped s.cLog).length % s.n) v ∧ s3.cLog = s.cLog ∧
      s3.pLog = s.pLog := by
    simp only [step, f2, cAccess, h1, h2]
    exact ⟨_, rfl, rfl, g2, k2⟩
  obtain ⟨s3, e3, f3, g3, k3⟩ := e3
  have e4 : ∃ s4, step s3 .cStoreR = some s4 ∧ s4.cPc = .idle ∧ s4.cLog = s.cLog ++ [.popped v] ∧ s4.pLog = s.pLog := by
    simp only [step, f3]
    exact ⟨_, rfl, rfl, by rw [g3], k3⟩
  obtain ⟨s4, e4, f4, g4, k4⟩ := e4
  refine ⟨s4, ?_, f4, k4, ?_⟩
  · simp [run, e1, e2, e3, e4]
  · rw [g4, popped_append]; simp [popped]

/-- **C02 (nothing is lost).** From every reachable state in which the consumer is between calls, popping until the
    buffer is empty (reading the latest write index) hands out everything that was accepted. -/
theorem everything_can_be_popped {n : Nat} (hn : 0 < n) (acts : List (Act α)) (s : St α)
    (h : run (init α n) acts = some s) (hidle : s.cPc = .idle) :
    ∃ acts' s', run s acts' = some s' ∧ s'.pLog = s.pLog ∧ popped s'.cLog = accepted s.pLog := by
  have hi := run_inv acts (inv_init hn) h
  clear h
  generalize hd : (accepted s.pLog).length - (popped s.cLog).length = d
  induction d generalizing s with
  | zero =>
    refine ⟨[], s, rfl, rfl, ?_⟩
    rw [hi.hpre, List.take_of_length_le (by omega)]
  | succ d ih =>
    obtain ⟨s1, h1, h2, h3, h4⟩ := one_pop hi hidle (by omega)
    obtain ⟨as, s', h5, h6, h7⟩ := ih s1 h2 (run_inv _ hi h1) (by rw [h3, h4]; omega)
    exact ⟨_, s', run_append h1 h5, by rw [h6, h3], by rw [h7, h3]⟩

/-- **C02 (`size`).** What `size` returns, plus the number of elements popped so far, is the number of accepted pushes that the
    consumer had seen when it looked (`cSeen`): never more than there are, and all of them if it saw the latest. -/
theorem size_counts_seen {n : Nat} (hn : 0 < n) (acts : List (Act α)) (s s' : St α)
    (h : run (init α n) acts = some s) (w : Nat) (hpc : s.cPc = .sizeW w) (hs : step s .cLoadR = some s') :
    ∃ m, s'.cLog = s.cLog ++ [.size m] ∧ m + (popped s.cLog).length = s.cSeen ∧ s.cSeen ≤ (accepted s.pLog).length := by
  have hi := run_inv acts (inv_init hn) h
  have hw : w = s.cSeen % s.n := by have := hi.hcc; simpa [CInv, hpc] using this
  obtain ⟨r, hr, hrv, _⟩ := inv_lastR hi
  have hseen := inv_seen_le hi
  have hroom := inv_room hi
  have hle := hi.hle
  rw [hpc] at hle
  simp only [inFlight, Nat.add_zero] at hle
  simp only [step, hpc, Option.some.injEq] at hs
  subst hs
  refine ⟨_, rfl, ?_, hseen⟩
  rw [hr, hrv, hw, available_val hi.hn hle (by omega)]
  omega

/-- **C02 (`pop_into`).** `pop_into(max)` hands out exactly the next `min(seen, max)` elements, where `seen` is the number of accepted
    elements that are waiting and that the consumer had seen when it looked. -/
theorem pop_into_returns_seen {n : Nat} (hn : 0 < n) (acts : List (Act α)) (s s' : St α)
    (h : run (init α n) acts = some s) :
    (∀ mx w, s.cPc = .intoW mx w → step s .cLoadR = some s' →
      ∃ r, s'.cPc = .intoLoop r (min (s.cSeen - (popped s.cLog).length) mx) (min (s.cSeen - (popped s.cLog).length) mx) []) ∧
    (∀ r count got, s.cPc = .intoLoop r count 0 got → step s .cStoreR = some s' →
      s'.cLog = s.cLog ++ [.poppedMany got] ∧ got = ((accepted s.pLog).drop (popped s.cLog).length).take count ∧
        got.length = count) := by
  have hi := run_inv acts (inv_init hn) h
  have hseen := inv_seen_le hi
  have hroom := inv_room hi
  have hle := hi.hle
  refine ⟨?_, ?_⟩
  · intro mx w hpc hs
    have hw : w = s.cSeen % s.n := by have := hi.hcc; simpa [CInv, hpc] using this
    obtain ⟨r, hr, hrv, _⟩ := inv_lastR hi
    rw [hpc] at hle
    simp only [inFlight, Nat.add_zero] at hle
    simp only [step, hpc, Option.some.injEq] at hs
    subst hs
    refine ⟨(lastMsg s.histR).value, ?_⟩
    rw [hr, hrv, hw, available_val hi.hn hle (by omega)]
  · intro r count got hpc hs
    have hcc := hi.hcc
    simp only [CInv, hpc, Nat.sub_zero] at hcc
    simp only [step, hpc, Option.some.injEq] at hs
    subst hs
    refine ⟨rfl, hcc.2.2.2, ?_⟩
    rw [hcc.2.2.2, List.length_take, List.length_drop]
    omega

/-- A concrete schedule: size 2, a push, an overlapping refused push (stale view), a pop, a push after it. -/
example : ∃ s, run (init Nat 2)
    [.pBegin 7, .cBeginPop 0, .pLoadR 0, .cLoadR, .pWriteSlot, .pStoreW, .pBegin 8, .cBeginPop 1, .cLoadR, .cTake,
     .pLoadR 0, .cStoreR, .pBegin 9, .pLoadR 1, .pWriteSlot, .pStoreW] = some s ∧
    accepted s.pLog = [7, 9] ∧ popped s.cLog = [7] ∧ s.pLog = [.pushed 7, .refused 8, .pushed 9] ∧
    s.cLog = [.popEmpty, .popped 7] := by
  refine ⟨_, rfl, ?_⟩
  decide

end Scalopus.C02
