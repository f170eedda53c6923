import Verif.Proofs.EndToEndResult

/-!
# Nothing is lost between a process that is connected and the consumer
-/

namespace Scalopus.EndToEnd

open Collector (Ev Batch)

theorem coll_transport {α : Type} {c c' : Collector.State α} {a : Collector.Act α} (h : Collector.step c a = .ok c') (ht : c.transport = true) : c'.transport = true := by
  cases a <;> simp only [Collector.step] at h <;>
    repeat' (first | (simp only [Res.ok.injEq] at h; subst h; first | exact ht | rfl) | (cases h; done) | split at h)

/-- A finished round of a sender with a transport is broadcast. -/
theorem coll_sent {α : Type} {c c' : Collector.State α} (h : Collector.step c .finish = .ok c') (ht : c.transport = true) (b : Batch α)
    (hb : c'.batches = c.batches ++ [b]) : b.sent = true := by
  simp only [Collector.step] at h
  split at h
  · simp only [Res.ok.injEq] at h
    subst h
    simp only at hb
    split at hb
    · simp at hb
    · simp only [List.append_cancel_left_eq, List.cons.injEq, and_true] at hb
      rw [← hb]
      exact ht
  · simp only [Res.ok.injEq] at h
    subst h
    simp at hb

/-- All batches from number `n0` on are on their way or have arrived. -/
def Kept (n0 : Nat) (x : Proc) (arr : List Nat) : Prop :=
  consumer ∈ x.server.conns ∧ x.coll.transport = true ∧ ∀ k, n0 ≤ k → k < x.coll.batches.length → k ∈ x.queued ++ x.wired ++ arr

theorem kept_set {n0 p q : Nat} {s : State} {y y' : Proc} (hy : s.procs[q]? = some y) (h : ∀ x, s.procs[p]? = some x → Kept n0 x (ofProc p s.arrivals))
    (hk : q = p → Kept n0 y' (ofProc p s.arrivals)) : ∀ x, (setProc s q y').procs[p]? = some x → Kept n0 x (ofProc p (setProc s q y').arrivals) := by
  intro x hx
  simp only [setProc] at hx ⊢
  rw [List.getElem?_set] at hx
  by_cases e : q = p
  · subst e
    rw [if_pos rfl, if_pos (List.getElem?_eq_some_iff.mp hy).1] at hx
    cases hx
    exact hk rfl
  · rw [if_neg e] at hx
    exact h x hx

theorem kept_step {pids : List Nat} {n0 p : Nat} {s s' : State} {a : Act} (inv : Inv pids s) (hsmall : SmallBatches s)
    (h : ∀ x, s.procs[p]? = some x → Kept n0 x (ofProc p s.arrivals)) (hs : step s a = some s') :
    ∀ x, s'.procs[p]? = some x → Kept n0 x (ofProc p s'.arrivals) := by
  cases a with
  | register q id n =>
    simp only [step, Option.bind_eq_some_iff] at hs
    obtain ⟨y, hy, hs⟩ := hs
    split at hs
    · simp only [Option.some.injEq] at hs; subst hs
      exact kept_set hy h fun e => by subst e; exact h y hy
    · cases hs
  | trace q t point time lag =>
    simp only [step, Option.bind_eq_some_iff] at hs
    obtain ⟨y, hy, hs⟩ := hs
    split at hs
    · simp only [Option.map_eq_some_iff] at hs
      obtain ⟨c, hc, rfl⟩ := hs
      have hc := okOption_some hc
      have hb : c.batches = y.coll.batches := by
        rcases coll_batches hc with e | ⟨e, _⟩
        · exact e
        · cases e
      refine kept_set hy h fun e => ?_
      subst e
      obtain ⟨h1, h2, h3⟩ := h y hy
      exact ⟨h1, coll_transport hc h2, fun k hk hl => h3 k hk (by simpa [hb] using hl)⟩
    · cases hs
  | collector q b =>
    simp only [step, Option.bind_eq_some_iff] at hs
    obtain ⟨y, hy, hs⟩ := hs
    have plain : ∀ c, Collector.step y.coll b = .ok c → c.batches = y.coll.batches →
        ∀ x, (setProc s q { y with coll := c }).procs[p]? = some x → Kept n0 x (ofProc p (setProc s q { y with coll := c }).arrivals) := by
      intro c hc hb
      refine kept_set hy h fun e => ?_
      subst e
      obtain ⟨h1, h2, h3⟩ := h y hy
      exact ⟨h1, coll_transport hc h2, fun k hk hl => h3 k hk (by simpa [hb] using hl)⟩
    have same : ∀ c, Collector.step y.coll b = .ok c → b ≠ .finish → c.batches = y.coll.batches := by
      intro c hc hne
      rcases coll_batches hc with e | ⟨e, _⟩
      · exact e
      · exact absurd e hne
    cases b with
    | emit t v lag => cases hs
    | start tid =>
      simp only at hs
      split at hs
      · simp only [Option.map_eq_some_iff] at hs
        obtain ⟨c, hc, rfl⟩ := hs
        exact plain c (okOption_some hc) (same c (okOption_some hc) (by simp))
      · cases hs
    | finish =>
      simp only [Option.map_eq_some_iff] at hs
      obtain ⟨c, hc, hs⟩ := hs
      have hc := okOption_some hc
      rcases coll_batches hc with e | ⟨_, b, h1, h2, e⟩
      · rw [e, List.getElem?_eq_none (Nat.le_refl _)] at hs
        simp only at hs
        subst hs
        exact plain c hc e
      · rw [e] at hs
        simp only [List.length_append, List.length_singleton, Nat.lt_add_one, List.getElem?_eq_getElem, Nat.le_refl, List.getElem_append_right,
          Nat.sub_self, List.getElem_singleton] at hs
        split at hs
        · subst hs
          refine kept_set hy h fun e' => ?_
          subst e'
          obtain ⟨g1, g2, g3⟩ := h y hy
          refine ⟨g1, coll_transport hc g2, fun k hk hl => ?_⟩
          simp only [e, List.length_append, List.length_singleton] at hl
          by_cases hlt : k < y.coll.batches.length
          · have := g3 k hk hlt
            simp only [List.mem_append, List.mem_singleton] at this ⊢
            tauto
          · have : k = y.coll.batches.length := by omega
            subst this
            simp
        · rename_i hns
          subst hs
          refine kept_set hy h fun e' => ?_
          subst e'
          exact absurd (coll_sent hc (h y hy).2.1 b e) hns
    | _ =>
      simp only [Option.map_eq_some_iff] at hs
      obtain ⟨c, hc, rfl⟩ := hs
      exact plain c (okOption_some hc) (same c (okOption_some hc) (by simp))
  | connect q c =>
    simp only [step, Option.map_eq_some_iff] at hs
    obtain ⟨y, hy, rfl⟩ := hs
    refine kept_set hy h fun e => ?_
    subst e
    obtain ⟨h1, h2, h3⟩ := h y hy
    refine ⟨?_, h2, h3⟩
    simp only [Broadcast.step]
    split
    · exact h1
    · simp [h1]
  | disconnect q c =>
    simp only [step, Option.bind_eq_some_iff] at hs
    obtain ⟨y, hy, hs⟩ := hs
    split at hs
    · cases hs
    · rename_i hc
      simp only [Option.some.injEq] at hs; subst hs
      refine kept_set hy h fun e => ?_
      subst e
      obtain ⟨h1, h2, h3⟩ := h y hy
      refine ⟨?_, h2, h3⟩
      simp only [Broadcast.step, List.mem_filter]
      exact ⟨h1, by simpa using Ne.symm hc⟩
  | pump q broken =>
    simp only [step, Option.bind_eq_some_iff] at hs
    obtain ⟨y, hy, hs⟩ := hs
    split at hs
    · cases hs
    · rename_i hc
      simp only [Option.some.injEq] at hs; subst hs
      refine kept_set hy h fun e => ?_
      subst e
      obtain ⟨h1, h2, h3⟩ := h y hy
      obtain ⟨r1, r2, r3, r4⟩ := pump_rest y broken
      refine ⟨by rw [r4]; exact h1, by rw [r2]; exact h2, ?_⟩
      rcases pump_cases (inv.msgs q y hy) broken hc with ⟨_, e⟩ | ⟨l, k, e1, e2, _, e4⟩
      · rw [e]; exact h3
      · rw [if_pos h1] at e4
        rw [r2, e2, e4.1]
        intro j hj hl
        have := h3 j hj hl
        rw [e1] at this
        simp only [List.mem_append, List.mem_singleton] at this ⊢
        tauto
  | receive q pending =>
    obtain ⟨y, k, rest, hy, hw, rfl⟩ := receive_step inv hsmall hs
    intro x hx
    simp only [setProc] at hx ⊢
    rw [ofProc_snoc]
    rw [List.getElem?_set] at hx
    by_cases e : q = p
    · subst e
      rw [if_pos rfl, if_pos (List.getElem?_eq_some_iff.mp hy).1] at hx
      cases hx
      obtain ⟨h1, h2, h3⟩ := h y hy
      refine ⟨h1, h2, fun j hj hl => ?_⟩
      have := h3 j hj hl
      rw [hw] at this
      simp only [List.mem_append, List.mem_cons, ↓reduceIte, List.not_mem_nil, or_false] at this ⊢
      tauto
    · rw [if_neg e] at hx
      rw [if_neg e, List.append_nil]
      exact h x hx
  | consume b =>
    cases b <;> simp only [step, Option.map_eq_some_iff, reduceCtorEq] at hs <;> (obtain ⟨r, hr, rfl⟩ := hs; exact h)

theorem kept_steps {pids : List Nat} {p : Nat} {s0 s1 : State} {x0 : Proc} (h0 : Reachable pids s0) (h : Steps s0 s1) (hsmall : SmallBatches s1)
    (hx : s0.procs[p]? = some x0) (hc : consumer ∈ x0.server.conns) (ht : x0.coll.transport = true) :
    ∀ x, s1.procs[p]? = some x → Kept x0.coll.batches.length x (ofProc p s1.arrivals) := by
  induction h with
  | refl =>
    intro x hx'
    rw [hx] at hx'
    cases hx'
    exact ⟨hc, ht, fun k h1 h2 => by omega⟩
  | step h1 h2 ih =>
    have := small_earlier (Steps.single h2) hsmall
    exact kept_step (inv_reachable (h0.trans h1) this) this (ih this) h2

/-- An accepted event is in a finished round, in the current round, or in a buffer. -/
theorem emitted_where {c : Collector.State Emission} (h : CInv c) (e : Ev Emission) (he : (e, true) ∈ c.log) :
    (∃ b ∈ c.batches, ∃ tid, Collector.listed b tid e) ∨ (∃ x ∈ c.events, e ∈ x.2) ∨ ∃ b ∈ c.bufs, e ∈ b.queue := by
  obtain ⟨th, hth⟩ := h.cons.known _ he
  have hm : e ∈ Collector.accepted e.thread c := by
    unfold Collector.accepted Collector.ofThread
    refine List.mem_filter.mpr ⟨List.mem_map.mpr ⟨(e, true), List.mem_filter.mpr ⟨he, rfl⟩, rfl⟩, by simp⟩
  have under_mem : ∀ (m : List (Nat × List (Ev Emission))) tid, e ∈ Collector.under m tid → ∃ x ∈ m, x.1 = tid ∧ e ∈ x.2 := by
    intro m tid hu
    unfold Collector.under at hu
    cases hl : m.lookup tid with
    | none => rw [hl] at hu; cases hu
    | some l =>
      rw [hl] at hu
      exact ⟨(tid, l), Assoc.lookup_mem hl, rfl, hu⟩
  rw [h.cons.all _ _ hth] at hm
  rcases List.mem_append.mp hm with hm | hm
  · unfold Collector.collectedOf at hm
    rcases List.mem_append.mp hm with hm | hm
    · left
      obtain ⟨b, hb, hu⟩ := List.mem_flatMap.mp (List.mem_filter.mp hm).1
      obtain ⟨x, hx, hx1, hx2⟩ := under_mem _ _ hu
      exact ⟨b, hb, th.tid, x, hx, hx1, hx2⟩
    · right; left
      obtain ⟨x, hx, _, hx2⟩ := under_mem _ _ (List.mem_filter.mp hm).1
      exact ⟨x, hx, hx2⟩
  · right; right
    have hm := (List.mem_filter.mp hm).1
    unfold Collector.buffered at hm
    cases hb : c.bufs[th.buf]? with
    | none => rw [hb] at hm; cases hm
    | some b =>
      rw [hb] at hm
      exact ⟨b, List.mem_of_getElem? hb, hm⟩

/-- What was emitted after the consumer connected has been handed over when nothing is on its way any more. -/
theorem drained_handed {pids : List Nat} {s0 s1 : State} (h0 : Reachable pids s0) (h : Steps s0 s1) (hsmall : SmallBatches s1) (p tid : Nat) (e : Ev Emission)
    (hc : Connected s0 p) (hnew : ∀ tid, ¬ Emitted s0 p tid e) (he : Emitted s1 p tid e) (hd : Drained s1 p) : Handed s1 p e := by
  obtain ⟨x0, hx0, hconn, htr⟩ := hc
  obtain ⟨x, th, hx, hlog, _⟩ := he
  obtain ⟨⟨x', hx', d1, d2, d3, d4⟩, d5⟩ := hd
  rw [hx] at hx'
  cases hx'
  have inv := inv_reachable (h0.trans h) hsmall
  have inv0 := inv_reachable h0 (small_earlier h hsmall)
  have hk := kept_steps h0 h hsmall hx0 hconn htr x hx
  have hq := inv.msgs p x hx
  have e1 : x.queued = [] := by
    have := hq.queue
    rw [d3] at this
    simpa using this.symm
  have e2 : x.wired = [] := by
    have := hq.wire
    rw [d4] at this
    cases hw : x.wired with
    | nil => rfl
    | cons k r =>
      rw [hw, List.flatMap_cons] at this
      have := List.append_eq_nil_iff.mp this.symm
      exact absurd this.1 (encode_ne_nil _)
  rcases emitted_where (inv.coll x (List.mem_of_getElem? hx)) e hlog with ⟨b, hb, t, hl⟩ | ⟨y, hy, _⟩ | ⟨b, hb, hm⟩
  · obtain ⟨k, hkb⟩ := List.getElem?_of_mem hb
    have hlt := (List.getElem?_eq_some_iff.mp hkb).1
    have hge : x0.coll.batches.length ≤ k := by
      by_contra hlt0
      obtain ⟨x', hx', hlat⟩ := steps_later h p x0 hx0
      rw [hx] at hx'
      cases hx'
      obtain ⟨l, hle⟩ := hlat.batches
      rw [hle, List.getElem?_append_left (by omega)] at hkb
      obtain ⟨z, hz, rfl, hez⟩ := hl
      obtain ⟨g5, th, g6, g7⟩ := (inv0.coll x0 (List.mem_of_getElem? hx0)).cons.tidsB b (List.mem_of_getElem? hkb) z hz e hez
      exact hnew z.1 ⟨x0, th, hx0, g5, g6, g7⟩
    have := hk.2.2 k hge hlt
    rw [e1, e2] at this
    simp only [List.nil_append] at this
    unfold ofProc at this
    obtain ⟨y, hy, hyk⟩ := List.mem_filterMap.mp this
    split at hyk
    · rename_i hyp
      simp only [Option.some.injEq] at hyk
      obtain ⟨n, hn⟩ := List.getElem?_of_mem hy
      have hn' : s1.arrivals[n]? = some (p, k) := by rw [hn, ← hyp, ← hyk]
      exact ⟨x, k, b, n, t, hx, hkb, hl, hn', d5 n _ ((inv.calls n _).mpr ⟨p, k, x, hn', hx, rfl⟩)⟩
    · cases hyk
  · rw [d2] at hy
    cases hy
  · rw [d1 b hb] at hm
    cases hm

end Scalopus.EndToEnd
