import Verif.Spec.Collector

/-!
# Invariants of the collector
-/

namespace Scalopus.Collector

variable {α : Type}

/-! ## The map of collected events -/

theorem lookup_addTo {β : Type} (m : List (Nat × List β)) (t t' : Nat) (l : List β) :
    ((addTo m t l).lookup t').getD [] = ((m.lookup t').getD []) ++ (if t' = t then l else []) := by
  induction m with
  | nil =>
    simp only [addTo, List.lookup]
    by_cases h : t' = t
    · subst h; simp
    · have : (t' == t) = false := by simpa using h
      simp [this, h]
  | cons x m ih =>
    obtain ⟨k, l'⟩ := x
    simp only [addTo]
    by_cases hk : k = t
    · subst hk
      simp only [if_true, List.lookup]
      by_cases h : t' = k
      · subst h; simp
      · have : (t' == k) = false := by simpa using h
        simp [this, h]
    · simp only [if_neg hk, List.lookup]
      by_cases h : t' = k
      · subst h; simp [hk]
      · have : (t' == k) = false := by simpa using h
        simp [this, ih]

theorem keys_addTo {β : Type} (m : List (Nat × List β)) (t : Nat) (l : List β) (x : Nat) :
    x ∈ (addTo m t l).map (·.1) ↔ x ∈ m.map (·.1) ∨ x = t := by
  induction m with
  | nil => simp [addTo]
  | cons y m ih =>
    obtain ⟨k, l'⟩ := y
    simp only [addTo]
    split
    · rename_i h; subst h; simp; grind
    · simp only [List.map_cons, List.mem_cons, ih]; grind

theorem nodup_addTo {β : Type} (m : List (Nat × List β)) (t : Nat) (l : List β) (h : (m.map (·.1)).Nodup) :
    ((addTo m t l).map (·.1)).Nodup := by
  induction m with
  | nil => simp [addTo]
  | cons y m ih =>
    obtain ⟨k, l'⟩ := y
    simp only [List.map_cons, List.nodup_cons] at h
    simp only [addTo]
    split
    · simp only [List.map_cons, List.nodup_cons]; exact h
    · rename_i hk
      simp only [List.map_cons, List.nodup_cons]
      refine ⟨?_, ih h.2⟩
      rw [keys_addTo]
      rintro (h' | h')
      · exact h.1 h'
      · exact hk h'

/-- Number of events in a map. -/
def total {β : Type} (m : List (Nat × List β)) : Nat := (m.map (fun x => x.2.length)).sum

theorem total_addTo {β : Type} (m : List (Nat × List β)) (t : Nat) (l : List β) : total (addTo m t l) = total m + l.length := by
  induction m with
  | nil => simp [addTo, total]
  | cons y m ih =>
    obtain ⟨k, l'⟩ := y
    simp only [addTo]
    unfold total at *
    split <;> simp_all <;> omega

theorem total_zero {β : Type} (m : List (Nat × List β)) (h : total m = 0) (t : Nat) : (m.lookup t).getD [] = [] := by
  induction m with
  | nil => rfl
  | cons y m ih =>
    obtain ⟨k, l'⟩ := y
    unfold total at *
    simp only [List.map_cons, List.sum_cons] at h
    have h1 : l'.length = 0 := by omega
    simp only [List.lookup]
    split
    · simp [List.length_eq_zero_iff.1 h1]
    · exact ih (by omega)

theorem mem_addTo {β : Type} (m : List (Nat × List β)) (t : Nat) (l : List β) (x : Nat × List β) (hx : x ∈ addTo m t l) (e : β)
    (he : e ∈ x.2) : (∃ y ∈ m, y.1 = x.1 ∧ e ∈ y.2) ∨ (x.1 = t ∧ e ∈ l) := by
  induction m with
  | nil => simp [addTo] at hx; subst hx; exact Or.inr ⟨rfl, he⟩
  | cons y m ih =>
    obtain ⟨k, l'⟩ := y
    simp only [addTo] at hx
    split at hx
    · rename_i hk
      simp only [List.mem_cons] at hx
      rcases hx with hx | hx
      · subst hx
        simp only [List.mem_append] at he
        rcases he with he | he
        · exact Or.inl ⟨(k, l'), by simp, rfl, he⟩
        · exact Or.inr ⟨hk, he⟩
      · exact Or.inl ⟨x, by simp [hx], rfl, he⟩
    · simp only [List.mem_cons] at hx
      rcases hx with hx | hx
      · exact Or.inl ⟨x, by simp [hx], rfl, he⟩
      · rcases ih hx with ⟨y, hy, h⟩ | h
        · exact Or.inl ⟨y, by simp [hy], h⟩
        · exact Or.inr h

/-! ## The structural invariant -/

/-- The entries the sender still has to visit. -/
def todo : Sender → List Entry
  | .idle => []
  | .tookOrphans l => l
  | .collecting l => l

/-- How threads, buffers, the active map, the orphans and the sender's list fit together. -/
structure Wf (s : State α) : Prop where
  bufBound : ∀ (t : Nat) (th : Thread), s.threads[t]? = some th → th.buf < s.bufs.length
  tids : ∀ (t t' : Nat) (th th' : Thread), s.threads[t]? = some th → s.threads[t']? = some th' → th.phase ≠ .ended →
    th'.phase ≠ .ended → th.tid = th'.tid → t = t'
  active : ∀ x ∈ s.active, ∃ (t : Nat) (th : Thread), s.threads[t]? = some th ∧ th.tid = x.1 ∧ th.buf = x.2 ∧ th.phase ≠ .ended
  registered : ∀ (t : Nat) (th : Thread), s.threads[t]? = some th → th.phase ≠ .ended → (th.tid, th.buf) ∈ s.active
  inj : ∀ (t t' : Nat) (th th' : Thread), s.threads[t]? = some th → s.threads[t']? = some th' → th.buf = th'.buf → t = t'
  orphans : ∀ x ∈ s.orphans, ∃ (t : Nat) (th : Thread), s.threads[t]? = some th ∧ th.tid = x.1 ∧ th.buf = x.2 ∧ th.phase ≠ .running
  todo : ∀ x ∈ todo s.sender, ∃ (t : Nat) (th : Thread), s.threads[t]? = some th ∧ th.tid = x.tid ∧ th.buf = x.buf ∧
    (x.orphan = true → th.phase ≠ .running)
  queue : ∀ (i : Nat) (b : Buf α), s.bufs[i]? = some b → ∀ e ∈ b.queue, ∃ th, s.threads[e.thread]? = some th ∧ th.buf = i
  /-- nothing is left behind: what a thread that left had in its buffer is in the orphans or about to be collected -/
  kept : ∀ (t : Nat) (th : Thread) (b : Buf α), s.threads[t]? = some th → th.phase ≠ .running → s.bufs[th.buf]? = some b →
    b.queue ≠ [] → (th.tid, th.buf) ∈ s.orphans ∨ ⟨th.tid, th.buf, true⟩ ∈ Collector.todo s.sender

theorem lookup_mem {s : List (Nat × Nat)} {t b : Nat} (h : s.lookup t = some b) : (t, b) ∈ s := by
  induction s with
  | nil => simp at h
  | cons x s ih =>
    obtain ⟨k, v⟩ := x
    simp only [List.lookup] at h
    split at h
    · rename_i hk; simp at hk h; subst hk h; simp
    · simp [ih h]

theorem lookup_none {s : List (Nat × Nat)} {t : Nat} (h : s.lookup t = none) : ∀ x ∈ s, x.1 ≠ t := by
  induction s with
  | nil => simp
  | cons x s ih =>
    obtain ⟨k, v⟩ := x
    simp only [List.lookup] at h
    split at h
    · simp at h
    · rename_i hk
      simp at hk
      intro y hy
      simp only [List.mem_cons] at hy
      rcases hy with hy | hy
      · subst hy; exact fun e => hk e.symm
      · exact ih h y hy

theorem wf_init (n : Nat) : Wf ({ ringSize := n } : State α) := by
  constructor <;> simp [todo]

theorem getElem?_snoc {β : Type} (l : List β) (x : β) (i : Nat) :
    (l ++ [x])[i]? = if i = l.length then some x else l[i]? := by
  rw [List.getElem?_append]
  split
  · rw [if_neg (by omega)]
  · rename_i h
    split
    · rename_i h'; subst h'; simp
    · rw [List.getElem?_eq_none (by simp; omega), List.getElem?_eq_none (by omega)]

theorem snoc_facts {β : Type} (l : List β) (x : β) :
    (∀ (i : Nat) (y : β), l[i]? = some y → (l ++ [x])[i]? = some y) ∧ (l ++ [x])[l.length]? = some x ∧
    (∀ (i : Nat) (y : β), (l ++ [x])[i]? = some y → (i = l.length ∧ y = x) ∨ (i < l.length ∧ l[i]? = some y)) ∧
    (l ++ [x]).length = l.length + 1 := by
  refine ⟨?_, by simp, ?_, by simp⟩
  · intro i y h
    rw [List.getElem?_append_left (List.getElem?_eq_some_iff.1 h).1]; exact h
  · intro i y h
    rw [getElem?_snoc] at h
    split at h
    · rename_i hi; simp at h; exact Or.inl ⟨hi, h.symm⟩
    · exact Or.inr ⟨(List.getElem?_eq_some_iff.1 h).1, h⟩

theorem set_facts {β : Type} (l : List β) (j : Nat) (o x : β) (ho : l[j]? = some o) :
    (∀ (i : Nat) (y : β), l[i]? = some y → i ≠ j → (l.set j x)[i]? = some y) ∧ (l.set j x)[j]? = some x ∧
    (∀ (i : Nat) (y : β), (l.set j x)[i]? = some y → (i = j ∧ y = x) ∨ (i ≠ j ∧ l[i]? = some y)) ∧
    (l.set j x).length = l.length := by
  have hlt := (List.getElem?_eq_some_iff.1 ho).1
  refine ⟨?_, by simp [hlt], ?_, by simp⟩
  · intro i y h hi
    rw [List.getElem?_set, if_neg (fun e => hi e.symm)]; exact h
  · intro i y h
    rw [List.getElem?_set] at h
    split at h
    · rename_i hi; simp at h; exact Or.inl ⟨hi.symm, h.symm⟩
    · rename_i hi; exact Or.inr ⟨fun e => hi e.symm, h⟩

theorem wf_step {s s' : State α} (h : Wf s) (a : Act α) (hr : step s a = .ok s') : Wf s' := by
  obtain ⟨h1, h2, h3, h4, h5, h6, h7, h8, h9⟩ := h
  cases a with
  | setRingbufferSize n =>
    simp only [step, Res.ok.injEq] at hr; subst hr; exact ⟨h1, h2, h3, h4, h5, h6, h7, h8, h9⟩
  | setTransport =>
    simp only [step, Res.ok.injEq] at hr; subst hr; exact ⟨h1, h2, h3, h4, h5, h6, h7, h8, h9⟩
  | start tid =>
    simp only [step] at hr
    split at hr
    · simp only [Res.ok.injEq] at hr; subst hr; exact ⟨h1, h2, h3, h4, h5, h6, h7, h8, h9⟩
    · rename_i hany
      simp only [List.any_eq_true, decide_eq_true_eq, not_exists, not_and] at hany
      have hfresh : ∀ (t : Nat) (th : Thread), s.threads[t]? = some th → th.phase ≠ .ended → th.tid ≠ tid := by
        intro t th ht hp he
        exact hany th (List.mem_of_getElem? ht) he hp
      cases hl : s.active.lookup tid with
      | some b =>
        obtain ⟨t, th, ht, htid, _, hp⟩ := h3 _ (lookup_mem hl)
        exact absurd htid (hfresh t th ht hp)
      | none =>
        rw [hl] at hr
        simp only at hr
        split at hr
        · simp at hr
        · simp only [Res.ok.injEq] at hr
          subst hr
          have hnone := lookup_none hl
          obtain ⟨f1, f2, f3, f4⟩ := snoc_facts s.threads { tid := tid, buf := s.bufs.length }
          obtain ⟨b1, b2, b3, b4⟩ := snoc_facts s.bufs { size := s.ringSize }
          constructor
          all_goals simp only [List.mem_append, List.mem_singleton]
          all_goals
            generalize s.threads ++ [{ tid := tid, buf := s.bufs.length }] = thr at *
            generalize s.bufs ++ [{ size := s.ringSize }] = bfs at *
          all_goals clear hl hany
          · grind
          · grind
          · grind
          · grind
          · grind
          · grind
          · grind
          · grind
          · grind
  | emit t v lag =>
    simp only [step] at hr
    cases ht : s.threads[t]? with
    | none => rw [ht] at hr; simp only [Res.ok.injEq] at hr; subst hr; exact ⟨h1, h2, h3, h4, h5, h6, h7, h8, h9⟩
    | some th =>
      rw [ht] at hr
      simp only at hr
      cases hp : th.phase with
      | ended => rw [hp] at hr; simp at hr
      | retiring => rw [hp] at hr; simp only [Res.ok.injEq] at hr; subst hr; exact ⟨h1, h2, h3, h4, h5, h6, h7, h8, h9⟩
      | running =>
        rw [hp] at hr
        simp only at hr
        cases hb : s.bufs[th.buf]? with
        | none => rw [hb] at hr; simp at hr
        | some b =>
          rw [hb] at hr
          simp only at hr
          split at hr
          · simp only [Res.ok.injEq] at hr; subst hr; exact ⟨h1, h2, h3, h4, h5, h6, h7, h8, h9⟩
          · split at hr
            · simp only [Res.ok.injEq] at hr
              subst hr
              refine ⟨by simpa using h1, h2, h3, h4, h5, h6, h7, ?_, ?_⟩
              · intro i b' hb' e he
                simp only [List.getElem?_set] at hb'
                grind
              · intro t' th' b' ht' hp' hb' hq
                simp only [List.getElem?_set] at hb'
                grind
            · simp only [Res.ok.injEq] at hr; subst hr; exact ⟨h1, h2, h3, h4, h5, h6, h7, h8, h9⟩
  | retire t =>
    simp only [step] at hr
    cases ht : s.threads[t]? with
    | none => rw [ht] at hr; simp only [Res.ok.injEq] at hr; subst hr; exact ⟨h1, h2, h3, h4, h5, h6, h7, h8, h9⟩
    | some th =>
      rw [ht] at hr
      simp only at hr
      cases hp : th.phase with
      | ended => rw [hp] at hr; simp only [Res.ok.injEq] at hr; subst hr; exact ⟨h1, h2, h3, h4, h5, h6, h7, h8, h9⟩
      | retiring => rw [hp] at hr; simp only [Res.ok.injEq] at hr; subst hr; exact ⟨h1, h2, h3, h4, h5, h6, h7, h8, h9⟩
      | running =>
        rw [hp] at hr
        simp only at hr
        have hreg := h4 t th ht (by rw [hp]; simp)
        cases hl : s.active.lookup th.tid with
        | none => exact absurd rfl (lookup_none hl _ hreg)
        | some b =>
          rw [hl] at hr
          simp only [Res.ok.injEq] at hr
          obtain ⟨t', th', ht', htid', hbuf', hp'⟩ := h3 _ (lookup_mem hl)
          have : t' = t := h2 t' t th' th ht' ht hp' (by rw [hp]; simp) htid'
          subst this
          rw [ht] at ht'
          simp at ht'
          subst ht'
          simp only at hbuf'
          subst hbuf'
          subst hr
          obtain ⟨f1, f2, f3, f4⟩ := set_facts s.threads t' th { th with phase := .retiring } ht
          constructor
          all_goals simp only [List.mem_append, List.mem_singleton]
          all_goals generalize s.threads.set t' { th with phase := .retiring } = thr at *
          · grind
          · grind
          · grind
          · grind
          · grind
          · grind
          · grind
          · grind
          · grind
  | erase t =>
    simp only [step] at hr
    cases ht : s.threads[t]? with
    | none => rw [ht] at hr; simp only [Res.ok.injEq] at hr; subst hr; exact ⟨h1, h2, h3, h4, h5, h6, h7, h8, h9⟩
    | some th =>
      rw [ht] at hr
      simp only at hr
      cases hp : th.phase with
      | ended => rw [hp] at hr; simp only [Res.ok.injEq] at hr; subst hr; exact ⟨h1, h2, h3, h4, h5, h6, h7, h8, h9⟩
      | running => rw [hp] at hr; simp only [Res.ok.injEq] at hr; subst hr; exact ⟨h1, h2, h3, h4, h5, h6, h7, h8, h9⟩
      | retiring =>
        rw [hp] at hr
        simp only [Res.ok.injEq] at hr
        subst hr
        obtain ⟨f1, f2, f3, f4⟩ := set_facts s.threads t th { th with phase := .ended } ht
        constructor
        all_goals simp only [List.mem_filter, decide_eq_true_eq]
        all_goals generalize s.threads.set t { th with phase := .ended } = thr at *
        · grind
        · grind
        · grind
        · grind
        · grind
        · grind
        · grind
        · grind
        · grind
  | takeOrphans =>
    simp only [step] at hr
    cases hs : s.sender with
    | tookOrphans l => rw [hs] at hr; simp only [Res.ok.injEq] at hr; subst hr; exact ⟨h1, h2, h3, h4, h5, h6, h7, h8, h9⟩
    | collecting l => rw [hs] at hr; simp only [Res.ok.injEq] at hr; subst hr; exact ⟨h1, h2, h3, h4, h5, h6, h7, h8, h9⟩
    | idle =>
      rw [hs] at hr
      simp only [Res.ok.injEq] at hr
      subst hr
      refine ⟨h1, h2, h3, h4, h5, by simp, ?_, h8, ?_⟩
      · intro x hx
        simp only [todo, List.mem_map] at hx
        obtain ⟨y, hy, rfl⟩ := hx
        obtain ⟨t, th, a1, a2, a3, a4⟩ := h6 y hy
        exact ⟨t, th, a1, a2, a3, fun _ => a4⟩
      · intro t th b ht hp hb hq
        rcases h9 t th b ht hp hb hq with h | h
        · right
          simp only [todo, List.mem_map]
          exact ⟨_, h, rfl⟩
        · rw [hs] at h; simp [todo] at h
  | snapshot =>
    simp only [step] at hr
    cases hs : s.sender with
    | idle => rw [hs] at hr; simp only [Res.ok.injEq] at hr; subst hr; exact ⟨h1, h2, h3, h4, h5, h6, h7, h8, h9⟩
    | collecting l => rw [hs] at hr; simp only [Res.ok.injEq] at hr; subst hr; exact ⟨h1, h2, h3, h4, h5, h6, h7, h8, h9⟩
    | tookOrphans l =>
      rw [hs] at hr
      simp only [Res.ok.injEq] at hr
      subst hr
      refine ⟨h1, h2, h3, h4, h5, h6, ?_, h8, ?_⟩
      · intro x hx
        simp only [todo, List.mem_append, List.mem_map] at hx
        rcases hx with hx | ⟨y, hy, rfl⟩
        · exact h7 x (by rw [hs]; exact hx)
        · obtain ⟨t, th, a1, a2, a3, a4⟩ := h3 y hy
          exact ⟨t, th, a1, a2, a3, by simp⟩
      · intro t th b ht hp hb hq
        rcases h9 t th b ht hp hb hq with h | h
        · exact Or.inl h
        · right
          rw [hs] at h
          simp only [todo, List.mem_append] at h ⊢
          exact Or.inl h
  | collect k =>
    simp only [step] at hr
    cases hs : s.sender with
    | idle => rw [hs] at hr; simp only [Res.ok.injEq] at hr; subst hr; exact ⟨h1, h2, h3, h4, h5, h6, h7, h8, h9⟩
    | tookOrphans l => rw [hs] at hr; simp only [Res.ok.injEq] at hr; subst hr; exact ⟨h1, h2, h3, h4, h5, h6, h7, h8, h9⟩
    | collecting l =>
      cases l with
      | nil => rw [hs] at hr; simp only [Res.ok.injEq] at hr; subst hr; exact ⟨h1, h2, h3, h4, h5, h6, h7, h8, h9⟩
      | cons x rest =>
        rw [hs] at hr
        simp only at hr
        cases hb : s.bufs[x.buf]? with
        | none => rw [hb] at hr; simp at hr
        | some b =>
          rw [hb] at hr
          simp only [Res.ok.injEq] at hr
          subst hr
          refine ⟨by simpa using h1, h2, h3, h4, h5, h6, ?_, ?_, ?_⟩
          · intro y hy
            simp only [todo] at hy
            exact h7 y (by rw [hs]; simp [todo, hy])
          · intro i b' hb' e he
            simp only [List.getElem?_set] at hb'
            split at hb'
            · rename_i hi
              subst hi
              split at hb'
              · simp only [Option.some.injEq] at hb'
                subst hb'
                exact h8 _ b hb e (List.mem_of_mem_drop he)
              · simp at hb'
            · exact h8 i b' hb' e he
          · intro t th b' ht hp hb' hq
            simp only [List.getElem?_set] at hb'
            split at hb'
            · rename_i hi
              split at hb'
              · simp only [Option.some.injEq] at hb'
                subst hb'
                have hb2 : s.bufs[th.buf]? = some b := by rw [← hi]; exact hb
                have hqq : b.queue ≠ [] := by
                  intro e; simp only [e] at hq; simp at hq
                rcases h9 t th b ht hp hb2 hqq with h | h
                · exact Or.inl h
                · right
                  rw [hs] at h
                  simp only [todo, List.mem_cons] at h ⊢
                  rcases h with h | h
                  · exfalso
                    rw [← h] at hq
                    simp at hq
                  · exact h
              · simp at hb'
            · rename_i hi
              rcases h9 t th b' ht hp hb' hq with h | h
              · exact Or.inl h
              · right
                rw [hs] at h
                simp only [todo, List.mem_cons] at h ⊢
                rcases h with h | h
                · exact absurd (by rw [← h]) hi
                · exact h
  | finish =>
    simp only [step] at hr
    cases hs : s.sender with
    | idle => rw [hs] at hr; simp only [Res.ok.injEq] at hr; subst hr; exact ⟨h1, h2, h3, h4, h5, h6, h7, h8, h9⟩
    | tookOrphans l => rw [hs] at hr; simp only [Res.ok.injEq] at hr; subst hr; exact ⟨h1, h2, h3, h4, h5, h6, h7, h8, h9⟩
    | collecting l =>
      cases l with
      | cons x rest => rw [hs] at hr; simp only [Res.ok.injEq] at hr; subst hr; exact ⟨h1, h2, h3, h4, h5, h6, h7, h8, h9⟩
      | nil =>
        rw [hs] at hr
        simp only [Res.ok.injEq] at hr
        subst hr
        refine ⟨h1, h2, h3, h4, h5, h6, by simp [todo], h8, ?_⟩
        intro t th b ht hp hb hq
        rcases h9 t th b ht hp hb hq with h | h
        · exact Or.inl h
        · rw [hs] at h; simp [todo] at h

theorem wf_run (as : List (Act α)) : ∀ {s s' : State α}, Wf s → run s as = .ok s' → Wf s' := by
  induction as with
  | nil => intro s s' h hr; simp [run] at hr; subst hr; exact h
  | cons a as ih =>
    intro s s' h hr
    simp only [run] at hr
    cases hs : step s a with
    | ok s1 => rw [hs] at hr; exact ih (wf_step h a hs) hr
    | throws w => rw [hs] at hr; simp [Res.bind] at hr
    | ub => rw [hs] at hr; simp [Res.bind] at hr
    | terminate => rw [hs] at hr; simp [Res.bind] at hr

/-! ## Conservation -/

/-- Collected plus buffered is accepted, in order; the maps are keyed by the right thread identifiers. -/
structure Conserved (s : State α) : Prop where
  all : ∀ (t : Nat) (th : Thread), s.threads[t]? = some th →
    accepted t s = collectedOf t th.tid s ++ ofThread t (buffered s th.buf)
  known : ∀ x ∈ s.log, ∃ th, s.threads[x.1.thread]? = some th
  count : s.collected = total s.events
  keys : (s.events.map (·.1)).Nodup
  keysB : ∀ b ∈ s.batches, (b.events.map (·.1)).Nodup ∧ 0 < total b.events
  tids : ∀ x ∈ s.events, ∀ e ∈ x.2, (e, true) ∈ s.log ∧ ∃ th, s.threads[e.thread]? = some th ∧ th.tid = x.1
  tidsB : ∀ b ∈ s.batches, ∀ x ∈ b.events, ∀ e ∈ x.2, (e, true) ∈ s.log ∧
    ∃ th, s.threads[e.thread]? = some th ∧ th.tid = x.1
  queued : ∀ (i : Nat) (b : Buf α), s.bufs[i]? = some b → ∀ e ∈ b.queue, (e, true) ∈ s.log

theorem conserved_init (n : Nat) : Conserved ({ ringSize := n } : State α) := by
  constructor <;> simp [total]

/-- A step that changes none of what `Conserved` talks about, except that threads change phase. -/
theorem conserved_same {s s' : State α} (h : Conserved s) (hl : s'.log = s.log) (hb : s'.batches = s.batches)
    (he : s'.events = s.events) (hc : s'.collected = s.collected) (hbuf : s'.bufs = s.bufs)
    (ht : ∀ (t : Nat), (s'.threads[t]?).map (fun th => (th.tid, th.buf)) = (s.threads[t]?).map (fun th => (th.tid, th.buf))) :
    Conserved s' := by
  obtain ⟨h1, h2, h3, h4, h5, h6, h7, h8⟩ := h
  have hth : ∀ (t : Nat) (th : Thread), s.threads[t]? = some th →
      ∃ th', s'.threads[t]? = some th' ∧ th'.tid = th.tid ∧ th'.buf = th.buf := by
    intro t th hs
    have := ht t
    rw [hs] at this
    cases hs' : s'.threads[t]? with
    | none => rw [hs'] at this; simp at this
    | some th' => rw [hs'] at this; simp at this; exact ⟨th', rfl, this.1, this.2⟩
  have hth' : ∀ (t : Nat) (th : Thread), s'.threads[t]? = some th →
      ∃ th', s.threads[t]? = some th' ∧ th'.tid = th.tid ∧ th'.buf = th.buf := by
    intro t th hs
    have := ht t
    rw [hs] at this
    cases hs' : s.threads[t]? with
    | none => rw [hs'] at this; simp at this
    | some th' => rw [hs'] at this; simp at this; exact ⟨th', rfl, this.1.symm, this.2.symm⟩
  constructor
  · intro t th hs
    obtain ⟨th', hs', e1, e2⟩ := hth' t th hs
    have := h1 t th' hs'
    unfold accepted collectedOf buffered at *
    rw [hl, hb, he, hbuf, ← e1, ← e2]; exact this
  · rw [hl]
    intro x hx
    obtain ⟨th, ha⟩ := h2 x hx
    obtain ⟨th', hs', _⟩ := hth _ th ha
    exact ⟨th', hs'⟩
  · rw [hc, he]; exact h3
  · rw [he]; exact h4
  · rw [hb]; exact h5
  · rw [he, hl]
    intro x hx e hxe
    obtain ⟨a1, th, a2, a3⟩ := h6 x hx e hxe
    obtain ⟨th', hs', e1, _⟩ := hth _ th a2
    exact ⟨a1, th', hs', by rw [e1, a3]⟩
  · rw [hb, hl]
    intro b hb' x hx e hxe
    obtain ⟨a1, th, a2, a3⟩ := h7 b hb' x hx e hxe
    obtain ⟨th', hs', e1, _⟩ := hth _ th a2
    exact ⟨a1, th', hs', by rw [e1, a3]⟩
  · rw [hbuf, hl]; exact h8

theorem ofThread_append (t : Nat) (a b : List (Ev α)) : ofThread t (a ++ b) = ofThread t a ++ ofThread t b := by
  unfold ofThread; simp

theorem conserved_step {s s' : State α} (hw : Wf s) (h : Conserved s) (a : Act α) (hr : step s a = .ok s') : Conserved s' := by
  cases a with
  | setRingbufferSize n =>
    simp only [step, Res.ok.injEq] at hr; subst hr
    exact conserved_same h rfl rfl rfl rfl rfl (fun _ => rfl)
  | setTransport =>
    simp only [step, Res.ok.injEq] at hr; subst hr
    exact conserved_same h rfl rfl rfl rfl rfl (fun _ => rfl)
  | start tid =>
    simp only [step] at hr
    split at hr
    · simp only [Res.ok.injEq] at hr; subst hr; exact h
    · rename_i hany
      simp only [List.any_eq_true, decide_eq_true_eq, not_exists, not_and] at hany
      have hfresh : ∀ (t : Nat) (th : Thread), s.threads[t]? = some th → th.phase ≠ .ended → th.tid ≠ tid := by
        intro t th ht hp he
        exact hany th (List.mem_of_getElem? ht) he hp
      cases hl : s.active.lookup tid with
      | some b =>
        obtain ⟨t, th, ht, htid, _, hp⟩ := hw.active _ (lookup_mem hl)
        exact absurd htid (hfresh t th ht hp)
      | none =>
        rw [hl] at hr
        simp only at hr
        split at hr
        · simp at hr
        · simp only [Res.ok.injEq] at hr
          subst hr
          obtain ⟨f1, f2, f3, f4⟩ := snoc_facts s.threads { tid := tid, buf := s.bufs.length }
          obtain ⟨b1, b2, b3, b4⟩ := snoc_facts s.bufs ({ size := s.ringSize } : Buf α)
          obtain ⟨h1, h2, h3, h4, h5, h6, h7, h8⟩ := h
          have hnone : ∀ (l : List (Ev α)), (∀ e ∈ l, (e, true) ∈ s.log) → ofThread s.threads.length l = [] := by
            intro l hl
            unfold ofThread
            rw [List.filter_eq_nil_iff]
            intro e he
            simp only [decide_eq_true_eq]
            intro hc
            obtain ⟨th, hth⟩ := h2 _ (hl e he)
            simp only [hc] at hth
            simp at hth
          have hmem : ∀ (m : List (Nat × List (Ev α))) (tid : Nat), (∀ x ∈ m, ∀ e ∈ x.2, (e, true) ∈ s.log) →
              ∀ e ∈ under m tid, (e, true) ∈ s.log := by
            intro m tid hm e he
            unfold under at he
            induction m with
            | nil => simp at he
            | cons x m ih =>
              obtain ⟨k, l⟩ := x
              simp only [List.lookup] at he
              split at he
              · exact hm (k, l) (by simp) e (by simpa using he)
              · exact ih (fun x hx => hm x (by simp [hx])) he
          constructor
          · intro t th ht
            rcases f3 t th ht with ⟨rfl, rfl⟩ | ⟨_, ht'⟩
            · -- the new thread: nothing so far
              have e1 : accepted s.threads.length s = [] := by
                unfold accepted
                apply hnone
                intro e he
                simp only [List.mem_map, List.mem_filter] at he
                obtain ⟨x, ⟨hx1, hx2⟩, rfl⟩ := he
                obtain ⟨a, b⟩ := x
                simp only at hx2
                subst hx2
                exact hx1
              have e2 : collectedOf s.threads.length tid s = [] := by
                unfold collectedOf
                rw [hnone, hnone]
                · rfl
                · exact hmem _ _ (fun x hx e he => (h6 x hx e he).1)
                · intro e he
                  simp only [List.mem_flatMap] at he
                  obtain ⟨b, hb, he⟩ := he
                  exact hmem _ _ (fun x hx e he => (h7 b hb x hx e he).1) e he
              change accepted s.threads.length s = collectedOf s.threads.length tid s ++ _
              rw [e1, e2]
              simp [buffered, ofThread]
            · have := h1 t th ht'
              change accepted t s = collectedOf t th.tid s ++ _
              rw [this]
              congr 2
              unfold buffered
              have hb := hw.bufBound t th ht'
              simp only
              rw [List.getElem?_append_left hb]
          · intro x hx
            obtain ⟨th, hth⟩ := h2 x hx
            exact ⟨th, f1 _ _ hth⟩
          · exact h3
          · exact h4
          · exact h5
          · intro x hx e he
            obtain ⟨a1, th, a2, a3⟩ := h6 x hx e he
            exact ⟨a1, th, f1 _ _ a2, a3⟩
          · intro b hb x hx e he
            obtain ⟨a1, th, a2, a3⟩ := h7 b hb x hx e he
            exact ⟨a1, th, f1 _ _ a2, a3⟩
          · intro i b hb e he
            rcases b3 i b hb with ⟨_, rfl⟩ | ⟨_, hb'⟩
            · simp at he
            · exact h8 i b hb' e he
  | emit t v lag =>
    simp only [step] at hr
    cases ht : s.threads[t]? with
    | none => rw [ht] at hr; simp only [Res.ok.injEq] at hr; subst hr; exact h
    | some th =>
      rw [ht] at hr
      simp only at hr
      cases hp : th.phase with
      | ended => rw [hp] at hr; simp at hr
      | retiring => rw [hp] at hr; simp only [Res.ok.injEq] at hr; subst hr; exact h
      | running =>
        rw [hp] at hr
        simp only at hr
        cases hb : s.bufs[th.buf]? with
        | none => rw [hb] at hr; simp at hr
        | some b =>
          rw [hb] at hr
          simp only at hr
          split at hr
          · simp only [Res.ok.injEq] at hr; subst hr; exact h
          · obtain ⟨h1, h2, h3, h4, h5, h6, h7, h8⟩ := h
            split at hr
            · simp only [Res.ok.injEq] at hr
              subst hr
              generalize hE : ({ thread := t, stamp := s.rounds, val := v } : Ev α) = e
              have heT : e.thread = t := by rw [← hE]
              obtain ⟨f1, f2, f3, f4⟩ := set_facts s.bufs th.buf b { b with queue := b.queue ++ [e] } hb
              constructor
              · intro t' th' ht'
                have hold := h1 t' th' ht'
                have hacc : accepted t' { s with
                    bufs := s.bufs.set th.buf { b with queue := b.queue ++ [e] }, log := s.log ++ [(e, true)] } =
                    accepted t' s ++ ofThread t' [e] := by
                  unfold accepted
                  simp only [List.filter_append, List.map_append, ofThread_append]
                  rfl
                rw [hacc, hold]
                change _ = collectedOf t' th'.tid s ++ _
                rw [List.append_assoc]
                congr 1
                unfold buffered
                simp only
                by_cases hbb : th'.buf = th.buf
                · rw [hbb, f2, hb]
                  simp [ofThread_append]
                · have : t' ≠ t := by
                    rintro rfl
                    rw [ht] at ht'; simp at ht'; subst ht'; exact hbb rfl
                  rw [List.getElem?_set, if_neg (fun e => hbb e.symm)]
                  have : ofThread t' [e] = [] := by
                    unfold ofThread
                    rw [List.filter_eq_nil_iff]
                    simp [heT]
                    exact fun e => this e.symm
                  rw [this, List.append_nil]
              · intro x hx
                simp only [List.mem_append, List.mem_singleton] at hx
                rcases hx with hx | hx
                · exact h2 x hx
                · subst hx; rw [heT]; exact ⟨th, ht⟩
              · exact h3
              · exact h4
              · exact h5
              · intro x hx e' he
                obtain ⟨a1, a2⟩ := h6 x hx e' he
                exact ⟨by simp [a1], a2⟩
              · intro b' hb' x hx e' he
                obtain ⟨a1, a2⟩ := h7 b' hb' x hx e' he
                exact ⟨by simp [a1], a2⟩
              · intro i b' hb' e' he
                rcases f3 i b' hb' with ⟨_, rfl⟩ | ⟨_, hb''⟩
                · simp only [List.mem_append, List.mem_singleton] at he
                  rcases he with he | he
                  · simp [h8 _ b hb e' he]
                  · simp [he]
                · simp [h8 i b' hb'' e' he]
            · simp only [Res.ok.injEq] at hr
              subst hr
              constructor
              · intro t' th' ht'
                have hold := h1 t' th' ht'
                have hacc : accepted t' { s with log := s.log ++ [({ thread := t, stamp := s.rounds, val := v }, false)] } =
                    accepted t' s := by
                  unfold accepted
                  simp
                rw [hacc]; exact hold
              · intro x hx
                simp only [List.mem_append, List.mem_singleton] at hx
                rcases hx with hx | hx
                · exact h2 x hx
                · subst hx; exact ⟨th, ht⟩
              · exact h3
              · exact h4
              · exact h5
              · intro x hx e' he
                obtain ⟨a1, a2⟩ := h6 x hx e' he
                exact ⟨by simp [a1], a2⟩
              · intro b' hb' x hx e' he
                obtain ⟨a1, a2⟩ := h7 b' hb' x hx e' he
                exact ⟨by simp [a1], a2⟩
              · intro i b' hb' e' he
                simp [h8 i b' hb' e' he]
  | retire t =>
    simp only [step] at hr
    cases ht : s.threads[t]? with
    | none => rw [ht] at hr; simp only [Res.ok.injEq] at hr; subst hr; exact h
    | some th =>
      rw [ht] at hr
      simp only at hr
      have key : ∀ t' : Nat, ((s.threads.set t { th with phase := .retiring })[t']?).map (fun th : Thread => (th.tid, th.buf)) =
          (s.threads[t']?).map (fun th : Thread => (th.tid, th.buf)) := by
        intro t'
        rw [List.getElem?_set]
        split
        · rename_i e; subst e; rw [ht]; split <;> simp_all
        · rfl
      cases hp : th.phase with
      | ended => rw [hp] at hr; simp only [Res.ok.injEq] at hr; subst hr; exact h
      | retiring => rw [hp] at hr; simp only [Res.ok.injEq] at hr; subst hr; exact h
      | running =>
        rw [hp] at hr
        simp only at hr
        cases hl : s.active.lookup th.tid with
        | none =>
          rw [hl] at hr
          simp only [Res.ok.injEq] at hr
          subst hr
          exact conserved_same h rfl rfl rfl rfl rfl key
        | some b =>
          rw [hl] at hr
          simp only [Res.ok.injEq] at hr
          subst hr
          exact conserved_same h rfl rfl rfl rfl rfl key
  | erase t =>
    simp only [step] at hr
    cases ht : s.threads[t]? with
    | none => rw [ht] at hr; simp only [Res.ok.injEq] at hr; subst hr; exact h
    | some th =>
      rw [ht] at hr
      simp only at hr
      have key : ∀ t' : Nat, ((s.threads.set t { th with phase := .ended })[t']?).map (fun th : Thread => (th.tid, th.buf)) =
          (s.threads[t']?).map (fun th : Thread => (th.tid, th.buf)) := by
        intro t'
        rw [List.getElem?_set]
        split
        · rename_i e; subst e; rw [ht]; split <;> simp_all
        · rfl
      cases hp : th.phase with
      | ended => rw [hp] at hr; simp only [Res.ok.injEq] at hr; subst hr; exact h
      | running => rw [hp] at hr; simp only [Res.ok.injEq] at hr; subst hr; exact h
      | retiring =>
        rw [hp] at hr
        simp only [Res.ok.injEq] at hr
        subst hr
        exact conserved_same h rfl rfl rfl rfl rfl key
  | takeOrphans =>
    simp only [step] at hr
    split at hr
    · simp only [Res.ok.injEq] at hr; subst hr
      exact conserved_same h rfl rfl rfl rfl rfl (fun _ => rfl)
    · simp only [Res.ok.injEq] at hr; subst hr; exact h
  | snapshot =>
    simp only [step] at hr
    split at hr
    · simp only [Res.ok.injEq] at hr; subst hr
      exact conserved_same h rfl rfl rfl rfl rfl (fun _ => rfl)
    · simp only [Res.ok.injEq] at hr; subst hr; exact h
  | collect k =>
    simp only [step] at hr
    cases hs : s.sender with
    | idle => rw [hs] at hr; simp only [Res.ok.injEq] at hr; subst hr; exact h
    | tookOrphans l => rw [hs] at hr; simp only [Res.ok.injEq] at hr; subst hr; exact h
    | collecting l =>
      cases l with
      | nil => rw [hs] at hr; simp only [Res.ok.injEq] at hr; subst hr; exact h
      | cons x rest =>
        rw [hs] at hr
        simp only at hr
        cases hb : s.bufs[x.buf]? with
        | none => rw [hb] at hr; simp at hr
        | some b =>
          rw [hb] at hr
          simp only [Res.ok.injEq] at hr
          generalize hn : (if x.orphan then b.queue.length else min (k.getD b.queue.length) b.queue.length) = n at hr
          have hnle : n ≤ b.queue.length := by rw [← hn]; split <;> omega
          subst hr
          obtain ⟨tx, thx, htx, htidx, hbufx, _⟩ := hw.todo x (by rw [hs]; simp [todo])
          obtain ⟨h1, h2, h3, h4, h5, h6, h7, h8⟩ := h
          obtain ⟨f1, f2, f3, f4⟩ := set_facts s.bufs x.buf b { b with queue := b.queue.drop n, popped := b.popped + n } hb
          constructor
          · intro t th ht
            have hold := h1 t th ht
            change accepted t s = _
            rw [hold]
            unfold collectedOf under
            rw [lookup_addTo]
            rw [ofThread_append, List.append_assoc, List.append_assoc, List.append_assoc]
            congr 1
            congr 1
            by_cases hbb : th.buf = x.buf
            · have : t = tx := hw.inj t tx th thx ht htx (by rw [hbb, hbufx])
              subst this
              rw [ht] at htx
              simp at htx
              subst htx
              rw [if_pos htidx]
              unfold buffered
              simp only
              rw [hbb, f2, hb]
              simp only [Option.map_some, Option.getD_some]
              rw [← ofThread_append, List.take_append_drop]
            · have : t ≠ tx := by
                rintro rfl
                rw [ht] at htx; simp at htx; subst htx; exact hbb hbufx
              have hz : ofThread t (if th.tid = x.tid then b.queue.take n else []) = [] := by
                unfold ofThread
                rw [List.filter_eq_nil_iff]
                intro e he
                simp only [decide_eq_true_eq]
                intro hc
                split at he
                · obtain ⟨th', g1, g2⟩ := hw.queue x.buf b hb e (List.mem_of_mem_take he)
                  rw [hc, ht] at g1
                  simp at g1
                  subst g1
                  exact hbb g2
                · simp at he
              rw [hz, List.nil_append]
              unfold buffered
              simp only
              rw [List.getElem?_set, if_neg (fun e => hbb e.symm)]
          · exact h2
          · simp only
            rw [total_addTo, h3, List.length_take]
            omega
          · exact nodup_addTo _ _ _ h4
          · exact h5
          · intro y hy e he
            rcases mem_addTo _ _ _ y hy e he with ⟨z, hz, hz1, hz2⟩ | ⟨hy1, he'⟩
            · rw [← hz1]; exact h6 z hz e hz2
            · have hq := List.mem_of_mem_take he'
              refine ⟨h8 _ b hb e hq, ?_⟩
              obtain ⟨th', g1, g2⟩ := hw.queue x.buf b hb e hq
              have : e.thread = tx := hw.inj _ _ th' thx g1 htx (by rw [g2, hbufx])
              rw [this] at g1
              rw [htx] at g1
              simp at g1
              subst g1
              exact ⟨thx, by rw [this]; exact htx, by rw [hy1, htidx]⟩
          · exact h7
          · intro i b' hb' e he
            rcases f3 i b' hb' with ⟨_, rfl⟩ | ⟨_, hb''⟩
            · exact h8 _ b hb e (List.mem_of_mem_drop he)
            · exact h8 i b' hb'' e he
  | finish =>
    simp only [step] at hr
    cases hs : s.sender with
    | idle => rw [hs] at hr; simp only [Res.ok.injEq] at hr; subst hr; exact h
    | tookOrphans l => rw [hs] at hr; simp only [Res.ok.injEq] at hr; subst hr; exact h
    | collecting l =>
      cases l with
      | cons x rest => rw [hs] at hr; simp only [Res.ok.injEq] at hr; subst hr; exact h
      | nil =>
        rw [hs] at hr
        simp only [Res.ok.injEq] at hr
        obtain ⟨h1, h2, h3, h4, h5, h6, h7, h8⟩ := h
        by_cases hc : s.collected = 0
        · rw [if_pos hc] at hr
          subst hr
          constructor
          · intro t th ht
            have hold := h1 t th ht
            unfold collectedOf under at hold ⊢
            rw [total_zero s.events (by rw [← h3, hc])] at hold
            simp [ofThread] at hold ⊢
            exact hold
          · exact h2
          · simp [total]
          · simp
          · exact h5
          · simp
          · exact h7
          · exact h8
        · rw [if_neg hc] at hr
          subst hr
          constructor
          · intro t th ht
            have hold := h1 t th ht
            unfold collectedOf at hold ⊢
            simp only [List.flatMap_append, List.flatMap_cons, List.flatMap_nil, List.append_nil, ofThread_append]
            have hz : ofThread t (under ([] : List (Nat × List (Ev α))) th.tid) = [] := rfl
            rw [hz, List.append_nil]
            exact hold
          · exact h2
          · simp [total]
          · simp
          · intro b hb
            simp only [List.mem_append, List.mem_singleton] at hb
            rcases hb with hb | hb
            · exact h5 b hb
            · subst hb; exact ⟨h4, by simp only; omega⟩
          · simp
          · intro b hb
            simp only [List.mem_append, List.mem_singleton] at hb
            rcases hb with hb | hb
            · exact h7 b hb
            · subst hb; exact h6
          · exact h8

theorem conserved_run (as : List (Act α)) : ∀ {s s' : State α}, Wf s → Conserved s → run s as = .ok s' → Conserved s' := by
  induction as with
  | nil => intro s s' _ h hr; simp [run] at hr; subst hr; exact h
  | cons a as ih =>
    intro s s' hw h hr
    simp only [run] at hr
    cases hs : step s a with
    | ok s1 => rw [hs] at hr; exact ih (wf_step hw a hs) (conserved_step hw h a hs) hr
    | throws w => rw [hs] at hr; simp [Res.bind] at hr
    | ub => rw [hs] at hr; simp [Res.bind] at hr
    | terminate => rw [hs] at hr; simp [Res.bind] at hr

end Scalopus.Collector
