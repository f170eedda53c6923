import Verif.Proofs.Collector

/-!
# Every event leaves its buffer within two more rounds
-/

namespace Scalopus.Collector

variable {α : Type}

/-- How old the events that are still around can be. -/
structure Stamps (s : State α) : Prop where
  running : ∀ (t : Nat) (th : Thread) (b : Buf α), s.threads[t]? = some th → th.phase = .running → s.bufs[th.buf]? = some b →
    ∀ e ∈ b.queue, s.rounds ≤ e.stamp + 1 ∧
      (∀ l, s.sender = .collecting l → (∀ x ∈ l, x.buf ≠ th.buf) → s.rounds ≤ e.stamp)
  left : ∀ (t : Nat) (th : Thread) (b : Buf α), s.threads[t]? = some th → th.phase ≠ .running → s.bufs[th.buf]? = some b →
    ∀ e ∈ b.queue,
      ((th.tid, th.buf) ∈ s.orphans ∧ s.rounds ≤ e.stamp + 2 ∧ (s.sender ≠ .idle → s.rounds ≤ e.stamp + 1)) ∨
      (⟨th.tid, th.buf, true⟩ ∈ todo s.sender ∧ s.rounds ≤ e.stamp + 2)
  current : ∀ x ∈ s.events, ∀ e ∈ x.2, s.rounds ≤ e.stamp + 2

theorem stamps_init (n : Nat) : Stamps ({ ringSize := n } : State α) := by
  constructor <;> simp

theorem stamps_step {s s' : State α} (hw : Wf s) (h : Stamps s) (a : Act α) (ha : ∀ k, a ≠ .collect (some k))
    (hr : step s a = .ok s') : Stamps s' := by
  obtain ⟨h1, h2, h3⟩ := h
  cases a with
  | setRingbufferSize n => simp only [step, Res.ok.injEq] at hr; subst hr; exact ⟨h1, h2, h3⟩
  | setTransport => simp only [step, Res.ok.injEq] at hr; subst hr; exact ⟨h1, h2, h3⟩
  | start tid =>
    simp only [step] at hr
    split at hr
    · simp only [Res.ok.injEq] at hr; subst hr; exact ⟨h1, h2, h3⟩
    · rename_i hany
      simp only [List.any_eq_true, decide_eq_true_eq, not_exists, not_and] at hany
      have hfresh : ∀ (t : Nat) (th : Thread), s.threads[t]? = some th → th.phase ≠ .ended → th.tid ≠ tid := by
        intro t th ht hp he
        exact hany th (List.mem_of_getElem? ht) he hp
      cases hl : s.active.lookup tid with
      | some b =>
        obtain ⟨t, th, ht, htid, _, hp⟩ := hw.active _ (lookup_mem hl)
        exact absurd htid (hfresh t th ht hp)
      | none =>
        rw [hl] at hr
        simp only at hr
        split at hr
        · simp at hr
        · simp only [Res.ok.injEq] at hr
          subst hr
          obtain ⟨f1, f2, f3, f4⟩ := snoc_facts s.threads { tid := tid, buf := s.bufs.length }
          obtain ⟨b1, b2, b3, b4⟩ := snoc_facts s.bufs ({ size := s.ringSize } : Buf α)
          have hbb := hw.bufBound
          constructor
          · intro t th b ht hp hb e he
            rcases b3 _ b hb with ⟨_, rfl⟩ | ⟨hlt, hb'⟩
            · simp at he
            · rcases f3 t th ht with ⟨_, rfl⟩ | ⟨_, ht'⟩
              · simp at hlt
              · exact h1 t th b ht' hp hb' e he
          · intro t th b ht hp hb e he
            rcases f3 t th ht with ⟨_, rfl⟩ | ⟨_, ht'⟩
            · simp at hp
            · rcases b3 _ b hb with ⟨_, rfl⟩ | ⟨_, hb'⟩
              · simp at he
              · exact h2 t th b ht' hp hb' e he
          · exact h3
  | emit t v lag =>
    simp only [step] at hr
    cases ht : s.threads[t]? with
    | none => rw [ht] at hr; simp only [Res.ok.injEq] at hr; subst hr; exact ⟨h1, h2, h3⟩
    | some th =>
      rw [ht] at hr
      simp only at hr
      cases hp : th.phase with
      | ended => rw [hp] at hr; simp at hr
      | retiring => rw [hp] at hr; simp only [Res.ok.injEq] at hr; subst hr; exact ⟨h1, h2, h3⟩
      | running =>
        rw [hp] at hr
        simp only at hr
        cases hb : s.bufs[th.buf]? with
        | none => rw [hb] at hr; simp at hr
        | some b =>
          rw [hb] at hr
          simp only at hr
          split at hr
          · simp only [Res.ok.injEq] at hr; subst hr; exact ⟨h1, h2, h3⟩
          · split at hr
            · simp only [Res.ok.injEq] at hr
              subst hr
              obtain ⟨f1, f2, f3, f4⟩ := set_facts s.bufs th.buf b
                { b with queue := b.queue ++ [{ thread := t, stamp := s.rounds, val := v }] } hb
              constructor
              · intro t' th' b' ht' hp' hb' e he
                rcases f3 _ b' hb' with ⟨hbuf, rfl⟩ | ⟨_, hb''⟩
                · simp only [List.mem_append, List.mem_singleton] at he
                  rcases he with he | he
                  · exact h1 t' th' b ht' hp' (by rw [hbuf]; exact hb) e he
                  · subst he; simp
                · exact h1 t' th' b' ht' hp' hb'' e he
              · intro t' th' b' ht' hp' hb' e he
                rcases f3 _ b' hb' with ⟨hbuf, rfl⟩ | ⟨_, hb''⟩
                · have := hw.inj t' t th' th ht' ht hbuf
                  subst this
                  rw [ht] at ht'; simp at ht'; subst ht'
                  exact absurd hp hp'
                · exact h2 t' th' b' ht' hp' hb'' e he
              · exact h3
            · simp only [Res.ok.injEq] at hr; subst hr; exact ⟨h1, h2, h3⟩
  | retire t =>
    simp only [step] at hr
    cases ht : s.threads[t]? with
    | none => rw [ht] at hr; simp only [Res.ok.injEq] at hr; subst hr; exact ⟨h1, h2, h3⟩
    | some th =>
      rw [ht] at hr
      simp only at hr
      cases hp : th.phase with
      | ended => rw [hp] at hr; simp only [Res.ok.injEq] at hr; subst hr; exact ⟨h1, h2, h3⟩
      | retiring => rw [hp] at hr; simp only [Res.ok.injEq] at hr; subst hr; exact ⟨h1, h2, h3⟩
      | running =>
        rw [hp] at hr
        simp only at hr
        have hreg := hw.registered t th ht (by rw [hp]; simp)
        cases hl : s.active.lookup th.tid with
        | none => exact absurd rfl (lookup_none hl _ hreg)
        | some b =>
          rw [hl] at hr
          simp only [Res.ok.injEq] at hr
          obtain ⟨t', th', ht', htid', hbuf', hp'⟩ := hw.active _ (lookup_mem hl)
          have : t' = t := hw.tids t' t th' th ht' ht hp' (by rw [hp]; simp) htid'
          subst this
          rw [ht] at ht'
          simp at ht'
          subst ht'
          simp only at hbuf'
          subst hbuf'
          subst hr
          obtain ⟨f1, f2, f3, f4⟩ := set_facts s.threads t' th { th with phase := .retiring } ht
          constructor
          · intro t0 th0 b0 ht0 hp0 hb0 e he
            rcases f3 t0 th0 ht0 with ⟨_, rfl⟩ | ⟨_, ht0'⟩
            · simp at hp0
            · exact h1 t0 th0 b0 ht0' hp0 hb0 e he
          · intro t0 th0 b0 ht0 hp0 hb0 e he
            rcases f3 t0 th0 ht0 with ⟨_, rfl⟩ | ⟨_, ht0'⟩
            · have := (h1 t' th b0 ht hp hb0 e he).1
              left
              exact ⟨by simp, by simp only; omega, fun _ => this⟩
            · rcases h2 t0 th0 b0 ht0' hp0 hb0 e he with ⟨g1, g2⟩ | g
              · exact Or.inl ⟨by simp [g1], g2⟩
              · exact Or.inr g
          · exact h3
  | erase t =>
    simp only [step] at hr
    cases ht : s.threads[t]? with
    | none => rw [ht] at hr; simp only [Res.ok.injEq] at hr; subst hr; exact ⟨h1, h2, h3⟩
    | some th =>
      rw [ht] at hr
      simp only at hr
      cases hp : th.phase with
      | ended => rw [hp] at hr; simp only [Res.ok.injEq] at hr; subst hr; exact ⟨h1, h2, h3⟩
      | running => rw [hp] at hr; simp only [Res.ok.injEq] at hr; subst hr; exact ⟨h1, h2, h3⟩
      | retiring =>
        rw [hp] at hr
        simp only [Res.ok.injEq] at hr
        subst hr
        obtain ⟨f1, f2, f3, f4⟩ := set_facts s.threads t th { th with phase := .ended } ht
        constructor
        · intro t0 th0 b0 ht0 hp0 hb0 e he
          rcases f3 t0 th0 ht0 with ⟨_, rfl⟩ | ⟨_, ht0'⟩
          · simp at hp0
          · exact h1 t0 th0 b0 ht0' hp0 hb0 e he
        · intro t0 th0 b0 ht0 hp0 hb0 e he
          rcases f3 t0 th0 ht0 with ⟨_, rfl⟩ | ⟨_, ht0'⟩
          · exact h2 t th b0 ht (by rw [hp]; simp) hb0 e he
          · exact h2 t0 th0 b0 ht0' hp0 hb0 e he
        · exact h3
  | takeOrphans =>
    simp only [step] at hr
    cases hs : s.sender with
    | tookOrphans l => rw [hs] at hr; simp only [Res.ok.injEq] at hr; subst hr; exact ⟨h1, h2, h3⟩
    | collecting l => rw [hs] at hr; simp only [Res.ok.injEq] at hr; subst hr; exact ⟨h1, h2, h3⟩
    | idle =>
      rw [hs] at hr
      simp only [Res.ok.injEq] at hr
      subst hr
      constructor
      · intro t th b ht hp hb e he
        exact ⟨(h1 t th b ht hp hb e he).1, by simp⟩
      · intro t th b ht hp hb e he
        rcases h2 t th b ht hp hb e he with ⟨g1, g2, _⟩ | ⟨g1, _⟩
        · right
          exact ⟨by simp only [todo, List.mem_map]; exact ⟨_, g1, rfl⟩, g2⟩
        · rw [hs] at g1; simp [todo] at g1
      · exact h3
  | snapshot =>
    simp only [step] at hr
    cases hs : s.sender with
    | idle => rw [hs] at hr; simp only [Res.ok.injEq] at hr; subst hr; exact ⟨h1, h2, h3⟩
    | collecting l => rw [hs] at hr; simp only [Res.ok.injEq] at hr; subst hr; exact ⟨h1, h2, h3⟩
    | tookOrphans l =>
      rw [hs] at hr
      simp only [Res.ok.injEq] at hr
      subst hr
      constructor
      · intro t th b ht hp hb e he
        refine ⟨(h1 t th b ht hp hb e he).1, ?_⟩
        intro l' hl' hno
        simp only [Sender.collecting.injEq] at hl'
        subst hl'
        have hreg := hw.registered t th ht (by rw [hp]; simp)
        exact absurd rfl (hno ⟨th.tid, th.buf, false⟩ (by simp; right; exact hreg))
      · intro t th b ht hp hb e he
        rcases h2 t th b ht hp hb e he with ⟨g1, g2, g3⟩ | ⟨g1, g2⟩
        · exact Or.inl ⟨g1, g2, fun _ => g3 (by rw [hs]; simp)⟩
        · right
          rw [hs] at g1
          simp only [todo, List.mem_append] at g1 ⊢
          exact ⟨Or.inl g1, g2⟩
      · exact h3
  | collect k =>
    have hk : k = none := by
      cases k with
      | none => rfl
      | some k => exact absurd rfl (ha k)
    subst hk
    simp only [step] at hr
    cases hs : s.sender with
    | idle => rw [hs] at hr; simp only [Res.ok.injEq] at hr; subst hr; exact ⟨h1, h2, h3⟩
    | tookOrphans l => rw [hs] at hr; simp only [Res.ok.injEq] at hr; subst hr; exact ⟨h1, h2, h3⟩
    | collecting l =>
      cases l with
      | nil => rw [hs] at hr; simp only [Res.ok.injEq] at hr; subst hr; exact ⟨h1, h2, h3⟩
      | cons x rest =>
        rw [hs] at hr
        simp only at hr
        cases hb : s.bufs[x.buf]? with
        | none => rw [hb] at hr; simp at hr
        | some b =>
          rw [hb] at hr
          simp only [Res.ok.injEq] at hr
          have hn : (if x.orphan then b.queue.length else min ((none : Option Nat).getD b.queue.length) b.queue.length) =
              b.queue.length := by split <;> simp
          rw [hn, List.drop_length, List.take_length] at hr
          subst hr
          obtain ⟨f1, f2, f3, f4⟩ := set_facts s.bufs x.buf b
            { b with queue := [], popped := b.popped + b.queue.length } hb
          constructor
          · intro t th b' ht hp hb' e he
            rcases f3 _ b' hb' with ⟨hbuf, rfl⟩ | ⟨hne, hb''⟩
            · simp at he
            · obtain ⟨g1, g2⟩ := h1 t th b' ht hp hb'' e he
              refine ⟨g1, ?_⟩
              intro l' hl' hno
              simp only [Sender.collecting.injEq] at hl'
              subst hl'
              apply g2 _ hs
              intro y hy
              simp only [List.mem_cons] at hy
              rcases hy with rfl | hy
              · exact fun e => hne e.symm
              · exact hno y hy
          · intro t th b' ht hp hb' e he
            rcases f3 _ b' hb' with ⟨hbuf, rfl⟩ | ⟨hne, hb''⟩
            · simp at he
            · rcases h2 t th b' ht hp hb'' e he with ⟨g1, g2, g3⟩ | ⟨g1, g2⟩
              · exact Or.inl ⟨g1, g2, fun _ => g3 (by rw [hs]; simp)⟩
              · right
                rw [hs] at g1
                simp only [todo, List.mem_cons] at g1 ⊢
                rcases g1 with g1 | g1
                · exact absurd (by rw [← g1]) hne
                · exact ⟨g1, g2⟩
          · intro y hy e he
            rcases mem_addTo _ _ _ y hy e he with ⟨z, hz, _, hz2⟩ | ⟨_, he'⟩
            · exact h3 z hz e hz2
            · obtain ⟨tx, thx, htx, _, hbufx, _⟩ := hw.todo x (by rw [hs]; simp [todo])
              have hb2 : s.bufs[thx.buf]? = some b := by rw [hbufx]; exact hb
              by_cases hp : thx.phase = .running
              · have := (h1 tx thx b htx hp hb2 e he').1
                simp only; omega
              · rcases h2 tx thx b htx hp hb2 e he' with ⟨_, g, _⟩ | ⟨_, g⟩ <;> exact g
  | finish =>
    simp only [step] at hr
    cases hs : s.sender with
    | idle => rw [hs] at hr; simp only [Res.ok.injEq] at hr; subst hr; exact ⟨h1, h2, h3⟩
    | tookOrphans l => rw [hs] at hr; simp only [Res.ok.injEq] at hr; subst hr; exact ⟨h1, h2, h3⟩
    | collecting l =>
      cases l with
      | cons x rest => rw [hs] at hr; simp only [Res.ok.injEq] at hr; subst hr; exact ⟨h1, h2, h3⟩
      | nil =>
        rw [hs] at hr
        simp only [Res.ok.injEq] at hr
        subst hr
        constructor
        · intro t th b ht hp hb e he
          have := (h1 t th b ht hp hb e he).2 [] hs (by simp)
          exact ⟨by simp only; omega, by simp⟩
        · intro t th b ht hp hb e he
          rcases h2 t th b ht hp hb e he with ⟨g1, g2, g3⟩ | ⟨g1, g2⟩
          · have := g3 (by rw [hs]; simp)
            exact Or.inl ⟨g1, by simp only; omega, by simp⟩
          · rw [hs] at g1; simp [todo] at g1
        · simp

theorem stamps_run (as : List (Act α)) (ha : SeesAll as) : ∀ {s s' : State α}, Wf s → Stamps s → run s as = .ok s' → Stamps s' := by
  induction as with
  | nil => intro s s' _ h hr; simp [run] at hr; subst hr; exact h
  | cons a as ih =>
    intro s s' hw h hr
    simp only [run] at hr
    have ha1 : ∀ k, a ≠ .collect (some k) := fun k e => ha k (by simp [e])
    have ha2 : SeesAll as := fun k e => ha k (by simp [e])
    cases hs : step s a with
    | ok s1 => rw [hs] at hr; exact ih ha2 (wf_step hw a hs) (stamps_step hw h a ha1 hs) hr
    | throws w => rw [hs] at hr; simp [Res.bind] at hr
    | ub => rw [hs] at hr; simp [Res.bind] at hr
    | terminate => rw [hs] at hr; simp [Res.bind] at hr

end Scalopus.Collector
