import Verif.Proofs.Collector

/-!
# C146: memory for the events of threads that have ended is released

All statements quantify over all histories of threads that start, trace and end and of the sender, with all reuses of thread ids.
-/

namespace Scalopus.C146

open Collector

variable {α : Type}

/-- Something refers to this buffer, so that its memory is in use: the map of active buffers, the list of orphaned ones, the list of a round of the sender that is under way, or a thread that has not ended. -/
def InUse (s : State α) (b : Nat) : Prop :=
  (∃ x ∈ s.active, x.2 = b) ∨ (∃ x ∈ s.orphans, x.2 = b) ∨ (∃ x ∈ todo s.sender, x.buf = b) ∨ ∃ th ∈ s.threads, th.phase ≠ .ended ∧ th.buf = b

/-- How many threads exist. -/
def existing (s : State α) : Nat := s.threads.countP fun th => th.phase ≠ .ended

/-- At no time in this history do more than `k` threads exist. -/
def AtMost (k : Nat) (s : State α) (as : List (Act α)) : Prop := ∀ pre s', pre <+: as → run s pre = .ok s' → existing s' ≤ k

/-- **C146** in full: how many buffers are in use at most depends only on how many threads exist at a time, however long the program runs and however many threads have ended. -/
def Bounded (α : Type) : Prop := ∃ f : Nat → Nat, ∀ (k n : Nat) (as : List (Act α)) (s : State α), AtMost k { ringSize := n } as → run { ringSize := n } as = .ok s →
  ∀ l : List Nat, l.Nodup → (∀ b ∈ l, InUse s b) → l.length ≤ f k

theorem run_append {s s1 : State α} {as bs : List (Act α)} (h : run s as = .ok s1) : run s (as ++ bs) = run s1 bs := by
  induction as generalizing s with
  | nil => simp only [run, Res.ok.injEq] at h; subst h; rfl
  | cons a as ih =>
    simp only [run, List.cons_append] at h ⊢
    cases hs : step s a with
    | ok s2 => rw [hs] at h; exact ih h
    | throws w => rw [hs] at h; simp [Res.bind] at h
    | ub => rw [hs] at h; simp [Res.bind] at h
    | terminate => rw [hs] at h; simp [Res.bind] at h

/-- A buffer whose thread has ended is referred to only by the orphans or by the sender. -/
theorem ended_where {s : State α} (hw : Wf s) {t : Nat} {th : Thread} (ht : s.threads[t]? = some th) (he : th.phase = .ended) :
    InUse s th.buf ↔ (∃ x ∈ s.orphans, x.2 = th.buf) ∨ ∃ x ∈ todo s.sender, x.buf = th.buf := by
  constructor
  · rintro (⟨x, hx, hb⟩ | h | h | ⟨th', hm, hp, hb⟩)
    · obtain ⟨t', th', h1, _, h3, h4⟩ := hw.active x hx
      have := hw.inj t t' th th' ht h1 (by rw [h3, hb])
      subst this
      rw [ht] at h1
      simp only [Option.some.injEq] at h1
      subst h1
      exact absurd he h4
    · exact Or.inl h
    · exact Or.inr h
    · obtain ⟨t', hl, h1⟩ := List.getElem_of_mem hm
      have h2 : s.threads[t']? = some th' := by simp [hl, h1]
      have := hw.inj t t' th th' ht h2 hb.symm
      subst this
      rw [ht] at h2
      simp only [Option.some.injEq] at h2
      subst h2
      exact absurd he hp
  · rintro (h | h)
    · exact Or.inr (Or.inl h)
    · exact Or.inr (Or.inr (Or.inl h))

theorem ended_step {s s' : State α} {a : Act α} (e : step s a = .ok s') {t : Nat} {th : Thread} (ht : s.threads[t]? = some th) (he : th.phase = .ended) : s'.threads[t]? = some th := by
  have hl := (List.getElem?_eq_some_iff.mp ht).1
  cases a with
  | start tid =>
    simp only [step] at e
    split at e
    · simp only [Res.ok.injEq] at e; subst e; exact ht
    · split at e
      · simp only [Res.ok.injEq] at e; subst e; simp only [List.getElem?_append_left hl, ht]
      · split at e
        · cases e
        · simp only [Res.ok.injEq] at e; subst e; simp only [List.getElem?_append_left hl, ht]
  | retire u =>
    simp only [step] at e
    split at e
    · simp only [Res.ok.injEq] at e; subst e; exact ht
    · rename_i x hx
      split at e
      · rename_i hp
        have hne : u ≠ t := by rintro rfl; rw [hx] at ht; simp only [Option.some.injEq] at ht; subst ht; rw [he] at hp; cases hp
        split at e <;> (simp only [Res.ok.injEq] at e; subst e; simp only [List.getElem?_set_ne hne, ht])
      · simp only [Res.ok.injEq] at e; subst e; exact ht
  | erase u =>
    simp only [step] at e
    split at e
    · simp only [Res.ok.injEq] at e; subst e; exact ht
    · rename_i x hx
      split at e
      · rename_i hp
        have hne : u ≠ t := by rintro rfl; rw [hx] at ht; simp only [Option.some.injEq] at ht; subst ht; rw [he] at hp; cases hp
        simp only [Res.ok.injEq] at e; subst e; simp only [List.getElem?_set_ne hne, ht]
      · simp only [Res.ok.injEq] at e; subst e; exact ht
  | emit u v lag =>
    simp only [step] at e
    split at e
    · simp only [Res.ok.injEq] at e; subst e; exact ht
    · split at e
      · cases e
      · simp only [Res.ok.injEq] at e; subst e; exact ht
      · split at e
        · cases e
        · split at e
          · simp only [Res.ok.injEq] at e; subst e; exact ht
          · split at e <;> (simp only [Res.ok.injEq] at e; subst e; exact ht)
  | setRingbufferSize n => simp only [step, Res.ok.injEq] at e; subst e; exact ht
  | setTransport => simp only [step, Res.ok.injEq] at e; subst e; exact ht
  | takeOrphans => simp only [step] at e; split at e <;> (simp only [Res.ok.injEq] at e; subst e; exact ht)
  | snapshot => simp only [step] at e; split at e <;> (simp only [Res.ok.injEq] at e; subst e; exact ht)
  | collect k =>
    simp only [step] at e
    split at e
    · split at e
      · cases e
      · simp only [Res.ok.injEq] at e; subst e; exact ht
    · simp only [Res.ok.injEq] at e; subst e; exact ht
  | finish => simp only [step] at e; split at e <;> (simp only [Res.ok.injEq] at e; subst e; exact ht)

/-- What a step does to the orphans. -/
theorem orphans_step {s s' : State α} {a : Act α} (e : step s a = .ok s') :
    s'.orphans = s.orphans ∨ (a = .takeOrphans ∧ s.sender = .idle ∧ s'.orphans = []) ∨
    ∃ (t : Nat) (th : Thread) (b : Nat), a = .retire t ∧ s.threads[t]? = some th ∧ th.phase = .running ∧ s.active.lookup th.tid = some b ∧ s'.orphans = s.orphans ++ [(th.tid, b)] := by
  cases a with
  | start tid =>
    simp only [step] at e
    split at e
    · simp only [Res.ok.injEq] at e; subst e; exact Or.inl rfl
    · split at e
      · simp only [Res.ok.injEq] at e; subst e; exact Or.inl rfl
      · split at e
        · cases e
        · simp only [Res.ok.injEq] at e; subst e; exact Or.inl rfl
  | retire u =>
    simp only [step] at e
    split at e
    · simp only [Res.ok.injEq] at e; subst e; exact Or.inl rfl
    · rename_i x hx
      split at e
      · rename_i hp
        split at e
        · rename_i b hb
          simp only [Res.ok.injEq] at e; subst e; exact Or.inr (Or.inr ⟨u, x, b, rfl, hx, hp, hb, rfl⟩)
        · simp only [Res.ok.injEq] at e; subst e; exact Or.inl rfl
      · simp only [Res.ok.injEq] at e; subst e; exact Or.inl rfl
  | erase u =>
    simp only [step] at e
    split at e
    · simp only [Res.ok.injEq] at e; subst e; exact Or.inl rfl
    · split at e <;> (simp only [Res.ok.injEq] at e; subst e; exact Or.inl rfl)
  | emit u v lag =>
    simp only [step] at e
    split at e
    · simp only [Res.ok.injEq] at e; subst e; exact Or.inl rfl
    · split at e
      · cases e
      · simp only [Res.ok.injEq] at e; subst e; exact Or.inl rfl
      · split at e
        · cases e
        · split at e
          · simp only [Res.ok.injEq] at e; subst e; exact Or.inl rfl
          · split at e <;> (simp only [Res.ok.injEq] at e; subst e; exact Or.inl rfl)
  | setRingbufferSize n => simp only [step, Res.ok.injEq] at e; subst e; exact Or.inl rfl
  | setTransport => simp only [step, Res.ok.injEq] at e; subst e; exact Or.inl rfl
  | takeOrphans =>
    simp only [step] at e
    split at e
    · rename_i hi
      simp only [Res.ok.injEq] at e; subst e; exact Or.inr (Or.inl ⟨rfl, hi, rfl⟩)
    · simp only [Res.ok.injEq] at e; subst e; exact Or.inl rfl
  | snapshot => simp only [step] at e; split at e <;> (simp only [Res.ok.injEq] at e; subst e; exact Or.inl rfl)
  | collect k =>
    simp only [step] at e
    split at e
    · split at e
      · cases e
      · simp only [Res.ok.injEq] at e; subst e; exact Or.inl rfl
    · simp only [Res.ok.injEq] at e; subst e; exact Or.inl rfl
  | finish => simp only [step] at e; split at e <;> (simp only [Res.ok.injEq] at e; subst e; exact Or.inl rfl)

/-- What a step does to the sender. -/
theorem sender_step {s s' : State α} {a : Act α} (e : step s a = .ok s') :
    (s'.sender = s.sender ∧ s'.rounds = s.rounds) ∨
    (a = .takeOrphans ∧ s.sender = .idle ∧ s'.sender = .tookOrphans (s.orphans.map fun x => ⟨x.1, x.2, true⟩) ∧ s'.orphans = [] ∧ s'.rounds = s.rounds) ∨
    (∃ l, s.sender = .tookOrphans l ∧ s'.sender = .collecting (l ++ s.active.map fun x => ⟨x.1, x.2, false⟩) ∧ s'.rounds = s.rounds) ∨
    (∃ x l, s.sender = .collecting (x :: l) ∧ s'.sender = .collecting l ∧ s'.rounds = s.rounds) ∨
    (s.sender = .collecting [] ∧ s'.sender = .idle ∧ s'.rounds = s.rounds + 1) := by
  cases a with
  | start tid =>
    simp only [step] at e
    split at e
    · simp only [Res.ok.injEq] at e; subst e; exact Or.inl ⟨rfl, rfl⟩
    · split at e
      · simp only [Res.ok.injEq] at e; subst e; exact Or.inl ⟨rfl, rfl⟩
      · split at e
        · cases e
        · simp only [Res.ok.injEq] at e; subst e; exact Or.inl ⟨rfl, rfl⟩
  | retire u =>
    simp only [step] at e
    split at e
    · simp only [Res.ok.injEq] at e; subst e; exact Or.inl ⟨rfl, rfl⟩
    · split at e
      · split at e <;> (simp only [Res.ok.injEq] at e; subst e; exact Or.inl ⟨rfl, rfl⟩)
      · simp only [Res.ok.injEq] at e; subst e; exact Or.inl ⟨rfl, rfl⟩
  | erase u =>
    simp only [step] at e
    split at e
    · simp only [Res.ok.injEq] at e; subst e; exact Or.inl ⟨rfl, rfl⟩
    · split at e <;> (simp only [Res.ok.injEq] at e; subst e; exact Or.inl ⟨rfl, rfl⟩)
  | emit u v lag =>
    simp only [step] at e
    split at e
    · simp only [Res.ok.injEq] at e; subst e; exact Or.inl ⟨rfl, rfl⟩
    · split at e
      · cases e
      · simp only [Res.ok.injEq] at e; subst e; exact Or.inl ⟨rfl, rfl⟩
      · split at e
        · cases e
        · split at e
          · simp only [Res.ok.injEq] at e; subst e; exact Or.inl ⟨rfl, rfl⟩
          · split at e <;> (simp only [Res.ok.injEq] at e; subst e; exact Or.inl ⟨rfl, rfl⟩)
  | setRingbufferSize n => simp only [step, Res.ok.injEq] at e; subst e; exact Or.inl ⟨rfl, rfl⟩
  | setTransport => simp only [step, Res.ok.injEq] at e; subst e; exact Or.inl ⟨rfl, rfl⟩
  | takeOrphans =>
    simp only [step] at e
    split at e
    · rename_i hi
      simp only [Res.ok.injEq] at e; subst e; exact Or.inr (Or.inl ⟨rfl, hi, rfl, rfl, rfl⟩)
    · simp only [Res.ok.injEq] at e; subst e; exact Or.inl ⟨rfl, rfl⟩
  | snapshot =>
    simp only [step] at e
    split at e
    · rename_i l hi
      simp only [Res.ok.injEq] at e; subst e; exact Or.inr (Or.inr (Or.inl ⟨l, hi, rfl, rfl⟩))
    · simp only [Res.ok.injEq] at e; subst e; exact Or.inl ⟨rfl, rfl⟩
  | collect k =>
    simp only [step] at e
    split at e
    · rename_i x l hi
      split at e
      · cases e
      · simp only [Res.ok.injEq] at e; subst e; exact Or.inr (Or.inr (Or.inr (Or.inl ⟨x, l, hi, rfl, rfl⟩)))
    · simp only [Res.ok.injEq] at e; subst e; exact Or.inl ⟨rfl, rfl⟩
  | finish =>
    simp only [step] at e
    split at e
    · rename_i hi
      simp only [Res.ok.injEq] at e; subst e; exact Or.inr (Or.inr (Or.inr (Or.inr ⟨hi, rfl, rfl⟩)))
    · simp only [Res.ok.injEq] at e; subst e; exact Or.inl ⟨rfl, rfl⟩

/-- Where the buffer of an ended thread is, `r` rounds after a moment in which the sender was idle. -/
structure Going (r : Nat) (t : Nat) (th : Thread) (s : State α) : Prop where
  wf : Wf s
  thread : s.threads[t]? = some th
  rounds : r ≤ s.rounds
  first : s.rounds = r → s.sender = .idle ∨ ∀ x ∈ s.orphans, x.2 ≠ th.buf
  later : r < s.rounds → (∀ x ∈ s.orphans, x.2 ≠ th.buf) ∧ ∀ x ∈ todo s.sender, x.buf ≠ th.buf

theorem Going_step {r t : Nat} {th : Thread} (he : th.phase = .ended) {s s' : State α} (h : Going r t th s) {a : Act α} (e : step s a = .ok s') : Going r t th s' := by
  have hw' := wf_step h.wf a e
  have ht' := ended_step e h.thread he
  have hact : ∀ x ∈ s.active, x.2 ≠ th.buf := by
    intro x hx hb
    obtain ⟨t', th', h1, _, h3, h4⟩ := h.wf.active x hx
    have := h.wf.inj t t' th th' h.thread h1 (by rw [h3, hb])
    subst this
    rw [h.thread] at h1
    simp only [Option.some.injEq] at h1
    subst h1
    exact absurd he h4
  -- the orphans never get the buffer again
  have horph : (∀ x ∈ s.orphans, x.2 ≠ th.buf) → ∀ x ∈ s'.orphans, x.2 ≠ th.buf := by
    intro h0
    rcases orphans_step e with h1 | ⟨_, _, h1⟩ | ⟨u, y, b, _, _, _, hb, h1⟩
    · rw [h1]; exact h0
    · rw [h1]; simp
    · rw [h1]
      intro x hx
      simp only [List.mem_append, List.mem_singleton] at hx
      rcases hx with hx | rfl
      · exact h0 x hx
      · exact hact _ (lookup_mem hb)
  have htodo : s.sender ≠ .idle → (∀ x ∈ todo s.sender, x.buf ≠ th.buf) → ∀ x ∈ todo s'.sender, x.buf ≠ th.buf := by
    intro hn h0
    rcases sender_step e with ⟨h1, _⟩ | ⟨_, h1, _⟩ | ⟨l, h1, h2, _⟩ | ⟨y, l, h1, h2, _⟩ | ⟨h1, h2, _⟩
    · rw [h1]; exact h0
    · exact absurd h1 hn
    · rw [h2]
      rw [h1] at h0
      intro x hx
      simp only [todo, List.mem_append, List.mem_map] at hx
      rcases hx with hx | ⟨z, hz, rfl⟩
      · exact h0 x hx
      · exact hact z hz
    · rw [h2]
      rw [h1] at h0
      intro x hx
      exact h0 x (by simp only [todo, List.mem_cons] at hx ⊢; exact Or.inr hx)
    · rw [h2]; simp [todo]
  rcases sender_step e with ⟨h1, h2⟩ | ⟨_, h1, h2, h3, h4⟩ | ⟨l, h1, h2, h3⟩ | ⟨y, l, h1, h2, h3⟩ | ⟨h1, h2, h3⟩
  · refine ⟨hw', ht', by rw [h2]; exact h.rounds, ?_, ?_⟩
    · intro hr
      rw [h2] at hr
      rcases h.first hr with h0 | h0
      · exact Or.inl (by rw [h1]; exact h0)
      · exact Or.inr (horph h0)
    · intro hr
      rw [h2] at hr
      obtain ⟨h5, h6⟩ := h.later hr
      exact ⟨horph h5, by rw [h1]; exact h6⟩
  · refine ⟨hw', ht', by rw [h4]; exact h.rounds, ?_, ?_⟩
    · intro _
      exact Or.inr (by rw [h3]; simp)
    · intro hr
      rw [h4] at hr
      obtain ⟨h5, _⟩ := h.later hr
      refine ⟨by rw [h3]; simp, ?_⟩
      rw [h2]
      intro x hx
      simp only [todo, List.mem_map] at hx
      obtain ⟨z, hz, rfl⟩ := hx
      exact h5 z hz
  · refine ⟨hw', ht', by rw [h3]; exact h.rounds, ?_, ?_⟩
    · intro hr
      rw [h3] at hr
      rcases h.first hr with h0 | h0
      · rw [h1] at h0; cases h0
      · exact Or.inr (horph h0)
    · intro hr
      rw [h3] at hr
      obtain ⟨h5, h6⟩ := h.later hr
      exact ⟨horph h5, htodo (by rw [h1]; intro hc; cases hc) h6⟩
  · refine ⟨hw', ht', by rw [h3]; exact h.rounds, ?_, ?_⟩
    · intro hr
      rw [h3] at hr
      rcases h.first hr with h0 | h0
      · rw [h1] at h0; cases h0
      · exact Or.inr (horph h0)
    · intro hr
      rw [h3] at hr
      obtain ⟨h5, h6⟩ := h.later hr
      exact ⟨horph h5, htodo (by rw [h1]; intro hc; cases hc) h6⟩
  · refine ⟨hw', ht', by rw [h3]; have := h.rounds; omega, ?_, ?_⟩
    · intro hr
      have := h.rounds
      omega
    · intro _
      refine ⟨?_, by rw [h2]; simp [todo]⟩
      apply horph
      rcases Nat.lt_or_ge r s.rounds with hr | hr
      · exact (h.later hr).1
      · rcases h.first (by have := h.rounds; omega) with h0 | h0
        · rw [h1] at h0; cases h0
        · exact h0

theorem Going_run {r t : Nat} {th : Thread} (he : th.phase = .ended) : ∀ (as : List (Act α)) {s s' : State α}, Going r t th s → run s as = .ok s' → Going r t th s'
  | [], s, s', h, e => by simp only [run, Res.ok.injEq] at e; subst e; exact h
  | a :: as, s, s', h, e => by
    simp only [run] at e
    cases hs : step s a with
    | ok s1 => rw [hs] at e; exact Going_run he as (Going_step he h hs) e
    | throws w => rw [hs] at e; simp [Res.bind] at e
    | ub => rw [hs] at e; simp [Res.bind] at e
    | terminate => rw [hs] at e; simp [Res.bind] at e

/-- **C146, released.** In every history: when the sender has done a whole round after a thread ended, the buffer of the thread is not in use any more, and never again. -/
theorem released_partial (n : Nat) (as bs : List (Act α)) (s s' : State α) (e : run { ringSize := n } as = .ok s) (hi : s.sender = .idle) (t : Nat) (th : Thread) (ht : s.threads[t]? = some th)
    (he : th.phase = .ended) (e' : run s bs = .ok s') (hr : s.rounds < s'.rounds) : ¬ InUse s' th.buf := by
  have hg : Going s.rounds t th s := ⟨wf_run as (wf_init n) e, ht, Nat.le_refl _, fun _ => Or.inl hi, fun h => absurd h (Nat.lt_irrefl _)⟩
  have h := Going_run he bs hg e'
  rw [ended_where h.wf h.thread he]
  obtain ⟨h1, h2⟩ := h.later hr
  rintro (⟨x, hx, hb⟩ | ⟨x, hx, hb⟩)
  · exact h1 x hx hb
  · exact h2 x hx hb

/-- How many threads begin to end in a history. -/
def ends : List (Act α) → Nat
  | [] => 0
  | .retire _ :: as => ends as + 1
  | _ :: as => ends as

theorem orphans_run : ∀ (as : List (Act α)) (s s' : State α), run s as = .ok s' → s'.orphans.length ≤ s.orphans.length + ends as
  | [], s, s', e => by simp only [run, Res.ok.injEq] at e; subst e; simp [ends]
  | a :: as, s, s', e => by
    simp only [run] at e
    cases hs : step s a with
    | ok s1 =>
      rw [hs] at e
      have h1 := orphans_run as s1 s' e
      have h2 : ends as ≤ ends (a :: as) := by cases a <;> simp [ends]
      rcases orphans_step hs with h | ⟨_, _, h⟩ | ⟨t, th, b, ha, _, _, _, h⟩
      · rw [h] at h1; omega
      · rw [h] at h1; simp only [List.length_nil] at h1; omega
      · subst ha
        rw [h] at h1
        simp only [List.length_append, List.length_singleton] at h1
        simp only [ends]
        omega
    | throws w => rw [hs] at e; simp [Res.bind] at e
    | ub => rw [hs] at e; simp [Res.bind] at e
    | terminate => rw [hs] at e; simp [Res.bind] at e

theorem length_le_of_subset {l m : List Nat} (h : l.Nodup) (hs : ∀ x ∈ l, x ∈ m) : l.length ≤ m.length := by
  induction l generalizing m with
  | nil => simp
  | cons a l ih =>
    rw [List.nodup_cons] at h
    have ha := hs a (by simp)
    have := ih (m := m.erase a) h.2 (by
      intro x hx
      have hne : x ≠ a := by rintro rfl; exact h.1 hx
      exact (List.mem_erase_of_ne hne).2 (hs x (by simp [hx])))
    rw [List.length_erase_of_mem ha] at this
    have hpos : 0 < m.length := List.length_pos_of_mem ha
    simp only [List.length_cons]
    omega

/-- **C146, with a sender.** Between its rounds, no more buffers are in use than threads exist and have ended since its last round began. -/
theorem bounded_partial (n : Nat) (as bs : List (Act α)) (s s1 s2 : State α) (e : run { ringSize := n } as = .ok s) (hi : s.sender = .idle) (e1 : step s .takeOrphans = .ok s1)
    (e2 : run s1 bs = .ok s2) (hi2 : s2.sender = .idle) (l : List Nat) (hl : l.Nodup) (hu : ∀ b ∈ l, InUse s2 b) : l.length ≤ existing s2 + ends bs := by
  have w : Wf s2 := by
    have w0 := wf_run as (wf_init n) e
    exact wf_run bs (wf_step w0 _ e1) e2
  have h0 : s1.orphans = [] := by
    simp only [step, hi, Res.ok.injEq] at e1
    subst e1; rfl
  have h1 := orphans_run bs s1 s2 e2
  rw [h0] at h1
  have hsub : ∀ b ∈ l, b ∈ (s2.threads.filter fun th => th.phase ≠ .ended).map (·.buf) ++ s2.orphans.map (·.2) := by
    intro b hb
    simp only [List.mem_append, List.mem_map, List.mem_filter, decide_eq_true_eq]
    rcases hu b hb with ⟨x, hx, h⟩ | ⟨x, hx, h⟩ | ⟨x, hx, _⟩ | ⟨th, hth, hp, h⟩
    · obtain ⟨t, th, h2, _, h3, h4⟩ := w.active x hx
      exact Or.inl ⟨th, ⟨List.mem_of_getElem? h2, by simpa using h4⟩, by rw [h3, h]⟩
    · exact Or.inr ⟨x, hx, h⟩
    · rw [hi2] at hx; simp [todo] at hx
    · exact Or.inl ⟨th, ⟨hth, by simpa using hp⟩, h⟩
  have := length_le_of_subset hl hsub
  simp only [List.length_append, List.length_map, List.length_nil, Nat.zero_add] at this h1
  unfold existing
  rw [List.countP_eq_length_filter]
  omega

/-- Without rounds of a sender: the buffers of threads that end stay among the orphans. -/
structure Piled (s : State α) : Prop where
  wf : Wf s
  idle : s.sender = .idle
  kept : ∀ (t : Nat) (th : Thread), s.threads[t]? = some th → th.phase ≠ .running → ∃ x ∈ s.orphans, x.2 = th.buf

theorem lookup_own {s : State α} (w : Wf s) {t : Nat} {th : Thread} (ht : s.threads[t]? = some th) (hp : th.phase ≠ .ended) : s.active.lookup th.tid = some th.buf := by
  cases h : s.active.lookup th.tid with
  | none => exact absurd rfl (lookup_none h _ (w.registered t th ht hp))
  | some b =>
    obtain ⟨t', th', h1, h2, h3, h4⟩ := w.active _ (lookup_mem h)
    have := w.tids t t' th th' ht h1 hp h4 h2.symm
    subst this
    rw [ht] at h1
    simp only [Option.some.injEq] at h1
    subst h1
    rw [h3]

/-- What a step does to the threads. -/
theorem threads_step {s s' : State α} {a : Act α} (e : step s a = .ok s') :
    s'.threads = s.threads ∨ (∃ tid b, a = .start tid ∧ s'.threads = s.threads ++ [{ tid := tid, buf := b }]) ∨
    (∃ (t : Nat) (th : Thread), a = .retire t ∧ s.threads[t]? = some th ∧ th.phase = .running ∧ s'.threads = s.threads.set t { th with phase := .retiring }) ∨
    ∃ (t : Nat) (th : Thread), a = .erase t ∧ s.threads[t]? = some th ∧ th.phase = .retiring ∧ s'.threads = s.threads.set t { th with phase := .ended } := by
  cases a with
  | start tid =>
    simp only [step] at e
    split at e
    · simp only [Res.ok.injEq] at e; subst e; exact Or.inl rfl
    · split at e
      · simp only [Res.ok.injEq] at e; subst e; exact Or.inr (Or.inl ⟨tid, _, rfl, rfl⟩)
      · split at e
        · cases e
        · simp only [Res.ok.injEq] at e; subst e; exact Or.inr (Or.inl ⟨tid, _, rfl, rfl⟩)
  | retire u =>
    simp only [step] at e
    split at e
    · simp only [Res.ok.injEq] at e; subst e; exact Or.inl rfl
    · rename_i x hx
      split at e
      · rename_i hp
        split at e <;> (simp only [Res.ok.injEq] at e; subst e; exact Or.inr (Or.inr (Or.inl ⟨u, x, rfl, hx, hp, rfl⟩)))
      · simp only [Res.ok.injEq] at e; subst e; exact Or.inl rfl
  | erase u =>
    simp only [step] at e
    split at e
    · simp only [Res.ok.injEq] at e; subst e; exact Or.inl rfl
    · rename_i x hx
      split at e
      · rename_i hp
        simp only [Res.ok.injEq] at e; subst e; exact Or.inr (Or.inr (Or.inr ⟨u, x, rfl, hx, hp, rfl⟩))
      · simp only [Res.ok.injEq] at e; subst e; exact Or.inl rfl
  | emit u v lag =>
    simp only [step] at e
    split at e
    · simp only [Res.ok.injEq] at e; subst e; exact Or.inl rfl
    · split at e
      · cases e
      · simp only [Res.ok.injEq] at e; subst e; exact Or.inl rfl
      · split at e
        · cases e
        · split at e
          · simp only [Res.ok.injEq] at e; subst e; exact Or.inl rfl
          · split at e <;> (simp only [Res.ok.injEq] at e; subst e; exact Or.inl rfl)
  | setRingbufferSize n => simp only [step, Res.ok.injEq] at e; subst e; exact Or.inl rfl
  | setTransport => simp only [step, Res.ok.injEq] at e; subst e; exact Or.inl rfl
  | takeOrphans => simp only [step] at e; split at e <;> (simp only [Res.ok.injEq] at e; subst e; exact Or.inl rfl)
  | snapshot => simp only [step] at e; split at e <;> (simp only [Res.ok.injEq] at e; subst e; exact Or.inl rfl)
  | collect k =>
    simp only [step] at e
    split at e
    · split at e
      · cases e
      · simp only [Res.ok.injEq] at e; subst e; exact Or.inl rfl
    · simp only [Res.ok.injEq] at e; subst e; exact Or.inl rfl
  | finish => simp only [step] at e; split at e <;> (simp only [Res.ok.injEq] at e; subst e; exact Or.inl rfl)

theorem Piled_step {s s' : State α} (h : Piled s) {a : Act α} (ha : a ≠ .takeOrphans) (e : step s a = .ok s') : Piled s' := by
  refine ⟨wf_step h.wf a e, ?_, ?_⟩
  · rcases sender_step e with ⟨h1, _⟩ | ⟨h1, _⟩ | ⟨l, h1, _⟩ | ⟨y, l, h1, _⟩ | ⟨_, h2, _⟩
    · rw [h1]; exact h.idle
    · exact absurd h1 ha
    · rw [h.idle] at h1; cases h1
    · rw [h.idle] at h1; cases h1
    · exact h2
  · have hmono : ∀ x ∈ s.orphans, x ∈ s'.orphans := by
      intro x hx
      rcases orphans_step e with h1 | ⟨h1, _⟩ | ⟨_, _, _, _, _, _, _, h1⟩
      · rw [h1]; exact hx
      · exact absurd h1 ha
      · rw [h1]; exact List.mem_append_left _ hx
    intro t th ht hp
    rcases threads_step e with h1 | ⟨tid, b, _, h1⟩ | ⟨u, y, hu, hy, hyp, h1⟩ | ⟨u, y, hu, hy, hyp, h1⟩
    · rw [h1] at ht
      obtain ⟨x, hx, hb⟩ := h.kept t th ht hp
      exact ⟨x, hmono x hx, hb⟩
    · rw [h1] at ht
      by_cases hl : t < s.threads.length
      · rw [List.getElem?_append_left hl] at ht
        obtain ⟨x, hx, hb⟩ := h.kept t th ht hp
        exact ⟨x, hmono x hx, hb⟩
      · rw [List.getElem?_append_right (by omega)] at ht
        cases hk : t - s.threads.length with
        | zero => rw [hk] at ht; simp only [List.getElem?_cons_zero, Option.some.injEq] at ht; subst ht; exact absurd rfl hp
        | succ k => rw [hk] at ht; simp at ht
    · rw [h1] at ht
      by_cases hut : u = t
      · subst hut
        have hl := (List.getElem?_eq_some_iff.mp hy).1
        rw [List.getElem?_set, if_pos rfl, if_pos hl] at ht
        simp only [Option.some.injEq] at ht
        subst ht
        have hlook := lookup_own h.wf hy (by rw [hyp]; intro hc; cases hc)
        subst hu
        rcases orphans_step e with h2 | ⟨h2, _⟩ | ⟨v, z, b, hv, hz, _, hb, h2⟩
        · exfalso
          simp only [step, hy, hyp] at e
          rw [hlook] at e
          simp only [Res.ok.injEq] at e
          subst e
          simp at h2
        · exact absurd h2 ha
        · cases hv
          rw [hy] at hz
          simp only [Option.some.injEq] at hz
          subst hz
          rw [hlook] at hb
          simp only [Option.some.injEq] at hb
          exact ⟨(y.tid, b), by rw [h2]; simp, hb.symm⟩
      · rw [List.getElem?_set_ne hut] at ht
        obtain ⟨x, hx, hb⟩ := h.kept t th ht hp
        exact ⟨x, hmono x hx, hb⟩
    · rw [h1] at ht
      by_cases hut : u = t
      · subst hut
        have hl := (List.getElem?_eq_some_iff.mp hy).1
        rw [List.getElem?_set, if_pos rfl, if_pos hl] at ht
        simp only [Option.some.injEq] at ht
        subst ht
        obtain ⟨x, hx, hb⟩ := h.kept u y hy (by rw [hyp]; intro hc; cases hc)
        exact ⟨x, hmono x hx, hb⟩
      · rw [List.getElem?_set_ne hut] at ht
        obtain ⟨x, hx, hb⟩ := h.kept t th ht hp
        exact ⟨x, hmono x hx, hb⟩

theorem Piled_run : ∀ (as : List (Act α)) {s s' : State α}, Piled s → .takeOrphans ∉ as → run s as = .ok s' → Piled s'
  | [], s, s', h, _, e => by simp only [run, Res.ok.injEq] at e; subst e; exact h
  | a :: as, s, s', h, hn, e => by
    simp only [run] at e
    cases hs : step s a with
    | ok s1 =>
      rw [hs] at e
      exact Piled_run as (Piled_step h (by rintro rfl; exact hn (by simp)) hs) (fun hc => hn (by simp [hc])) e
    | throws w => rw [hs] at e; simp [Res.bind] at e
    | ub => rw [hs] at e; simp [Res.bind] at e
    | terminate => rw [hs] at e; simp [Res.bind] at e

/-- **C146 fails in a program without a sender**, for example one that traces and is not exposed: the buffer of every thread that ever traced stays in use, also of those that have ended; no two threads have the same. -/
theorem piles_up (n : Nat) (as : List (Act α)) (hn : .takeOrphans ∉ as) (s : State α) (e : run { ringSize := n } as = .ok s) :
    (s.threads.map (·.buf)).Nodup ∧ ∀ th ∈ s.threads, InUse s th.buf := by
  have h := Piled_run as ⟨wf_init n, rfl, by simp⟩ hn e
  constructor
  · unfold List.Nodup
    rw [List.pairwise_iff_getElem]
    intro i j hi hj hij hc
    simp only [List.length_map] at hi hj
    simp only [List.getElem_map] at hc
    have := h.wf.inj i j _ _ (List.getElem?_eq_getElem hi) (List.getElem?_eq_getElem hj) hc
    omega
  · intro th hth
    obtain ⟨t, hl, h1⟩ := List.getElem_of_mem hth
    have h2 : s.threads[t]? = some th := by simp [hl, h1]
    by_cases hp : th.phase = .running
    · exact Or.inr (Or.inr (Or.inr ⟨th, hth, (by rw [hp]; decide), rfl⟩))
    · obtain ⟨x, hx, hb⟩ := h.kept t th h2 hp
      exact Or.inr (Or.inl ⟨x, hx, hb⟩)

/-- `m` threads one after the other, all with the same id. -/
def oneByOne : Nat → List (Act α)
  | 0 => []
  | m + 1 => oneByOne m ++ [.start 5, .retire m, .erase m]

theorem oneByOne_run (n : Nat) (hn : 0 < n) : ∀ m, ∃ s : State α, run { ringSize := n } (oneByOne m) = .ok s ∧ s.threads.length = m ∧ (∀ th ∈ s.threads, th.phase = .ended) ∧ s.active = [] ∧ s.ringSize = n
  | 0 => ⟨_, rfl, rfl, by simp, rfl, rfl⟩
  | m + 1 => by
    obtain ⟨s, h1, h2, h3, h4, h5⟩ := oneByOne_run n hn m
    have hany : ¬ ∃ x, x ∈ s.threads ∧ x.tid = 5 ∧ ¬ x.phase = .ended := by
      rintro ⟨x, hx, _, hp⟩
      exact hp (h3 x hx)
    refine ⟨{ s with bufs := s.bufs ++ [{ size := n }], active := [], threads := s.threads ++ [{ tid := 5, buf := s.bufs.length, phase := .ended }], orphans := s.orphans ++ [(5, s.bufs.length)] }, ?_, ?_, ?_, rfl, h5⟩
    · rw [oneByOne, run_append h1]
      subst h2
      simp [run, step, hany, h4, h5, Nat.pos_iff_ne_zero.mp hn, Res.bind, List.lookup]
    · simp [h2]
    · intro th hth
      simp only [List.mem_append, List.mem_singleton] at hth
      rcases hth with hth | rfl
      · exact h3 th hth
      · rfl

/-- If only the id 5 is used, at most one thread exists at a time. -/
theorem single_run : ∀ (as : List (Act α)) {s s' : State α}, (∀ th ∈ s.threads, th.tid = 5) → (∀ tid, .start tid ∈ as → tid = 5) → run s as = .ok s' → ∀ th ∈ s'.threads, th.tid = 5
  | [], s, s', h, _, e => by simp only [run, Res.ok.injEq] at e; subst e; exact h
  | a :: as, s, s', h, hn, e => by
    simp only [run] at e
    cases hs : step s a with
    | ok s1 =>
      rw [hs] at e
      refine single_run as ?_ (fun tid ht => hn tid (by simp [ht])) e
      intro th hth
      rcases threads_step hs with h1 | ⟨tid, b, ha, h1⟩ | ⟨u, y, _, hy, _, h1⟩ | ⟨u, y, _, hy, _, h1⟩
      · rw [h1] at hth; exact h th hth
      · rw [h1] at hth
        simp only [List.mem_append, List.mem_singleton] at hth
        rcases hth with hth | rfl
        · exact h th hth
        · exact hn tid (by simp [ha])
      · rw [h1] at hth
        rcases List.mem_or_eq_of_mem_set hth with hth | rfl
        · exact h th hth
        · exact h y (List.mem_of_getElem? hy)
      · rw [h1] at hth
        rcases List.mem_or_eq_of_mem_set hth with hth | rfl
        · exact h th hth
        · exact h y (List.mem_of_getElem? hy)
    | throws w => rw [hs] at e; simp [Res.bind] at e
    | ub => rw [hs] at e; simp [Res.bind] at e
    | terminate => rw [hs] at e; simp [Res.bind] at e

theorem existing_single {s : State α} (w : Wf s) (h : ∀ th ∈ s.threads, th.tid = 5) : existing s ≤ 1 := by
  have key : ∀ l : List Thread, (∀ (i j : Nat) (x y : Thread), l[i]? = some x → l[j]? = some y → x.phase ≠ .ended → y.phase ≠ .ended → i = j) → l.countP (fun th => th.phase ≠ .ended) ≤ 1 := by
    intro l
    induction l with
    | nil => intro _; simp
    | cons a l ih =>
      intro hl
      have h1 := ih (fun i j x y hi hj hx hy => by
        have := hl (i + 1) (j + 1) x y (by simpa using hi) (by simpa using hj) hx hy
        omega)
      by_cases ha : a.phase = .ended
      · rw [List.countP_cons_of_neg (by simp [ha])]; exact h1
      · rw [List.countP_cons_of_pos (by simpa using ha)]
        have : l.countP (fun th => decide (th.phase ≠ .ended)) = 0 := by
          rw [List.countP_eq_zero]
          intro y hy hc
          obtain ⟨j, hj, hjy⟩ := List.getElem_of_mem hy
          have := hl 0 (j + 1) a y (by simp) (by simp [hj, hjy]) ha (by simpa using hc)
          omega
        omega
  apply key
  intro i j x y hi hj hx hy
  exact w.tids i j x y hi hj hx hy (by rw [h x (List.mem_of_getElem? hi), h y (List.mem_of_getElem? hj)])

theorem starts_five : ∀ m tid, Act.start tid ∈ (oneByOne m : List (Act α)) → tid = 5
  | 0, tid, h => by simp [oneByOne] at h
  | m + 1, tid, h => by
    simp only [oneByOne, List.mem_append, List.mem_cons, List.not_mem_nil, or_false] at h
    rcases h with h | h | h | h
    · exact starts_five m tid h
    · cases h; rfl
    · cases h
    · cases h

theorem takes_none : ∀ m, Act.takeOrphans ∉ (oneByOne m : List (Act α))
  | 0 => by simp [oneByOne]
  | m + 1 => by simp [oneByOne, takes_none m]

/-- **C146 does not hold:** in a program in which never more than one thread exists, any number of buffers can be in use. -/
theorem not_Bounded : ¬ Bounded α := by
  rintro ⟨f, h⟩
  obtain ⟨s, h1, h2, _⟩ := oneByOne_run (α := α) 10000 (by decide) (f 1 + 1)
  obtain ⟨h3, h4⟩ := piles_up 10000 _ (takes_none _) s h1
  have := h 1 10000 _ s (by
    intro pre s' hp hr
    refine existing_single (wf_run pre (wf_init _) hr) (single_run pre (by simp) ?_ hr)
    intro tid ht
    obtain ⟨t, ht'⟩ := hp
    exact starts_five (f 1 + 1) tid (by rw [← ht']; exact List.mem_append_left _ ht)) h1 (s.threads.map (·.buf)) h3 (by
    intro b hb
    simp only [List.mem_map] at hb
    obtain ⟨th, hth, rfl⟩ := hb
    exact h4 th hth)
  simp only [List.length_map, h2] at this
  omega

/-- The hypotheses are met: three threads, two of which have ended, and a round of the sender. -/
example : ∃ s s', run ({ ringSize := 10 } : State Nat) [.start 5, .emit 0 1 0, .retire 0, .erase 0, .start 5] = .ok s ∧ s.sender = .idle ∧ s.threads[0]? = some ⟨5, 0, .ended⟩ ∧ InUse s 0 ∧
    run s [.takeOrphans, .snapshot, .collect none, .collect none, .start 6, .finish] = .ok s' ∧ s.rounds < s'.rounds ∧ s'.sender = .idle ∧ existing s' = 2 :=
  ⟨_, _, rfl, rfl, rfl, Or.inr (Or.inl ⟨(5, 0), by simp, rfl⟩), rfl, by decide, rfl, by decide⟩

end Scalopus.C146
