import Verif.Props.C18_Collector

/-!
# C18: exactly which histories go wrong
-/

namespace Scalopus.C18

open Collector

variable {α : Type}

/-- Where a thread is in its life. -/
def ph (s : State α) (t : Nat) : Option Phase := s.threads[t]?.map (·.phase)

theorem ph_set (l : List Thread) (u t : Nat) (th th' : Thread) (hu : l[u]? = some th) :
    ((l.set u th')[t]?.map (·.phase)) = if t = u then some th'.phase else l[t]?.map (·.phase) := by
  have hlt : u < l.length := by
    rw [List.getElem?_eq_some_iff] at hu; exact hu.1
  by_cases h : t = u
  · subst h; simp [List.getElem?_set, hlt]
  · rw [if_neg h, List.getElem?_set, if_neg (fun e => h e.symm)]

theorem ph_append (l : List Thread) (t : Nat) (th : Thread) (hr : th.phase = .running) :
    ((l ++ [th])[t]?.map (·.phase)) = l[t]?.map (·.phase) ∨
      (l[t]?.map (·.phase) = none ∧ ((l ++ [th])[t]?.map (·.phase)) = some .running) := by
  by_cases h : t < l.length
  · left; rw [List.getElem?_append_left h]
  · by_cases h' : t = l.length
    · right; subst h'; simp [hr]
    · left; rw [List.getElem?_eq_none (by simp; omega), List.getElem?_eq_none (by omega)]

/-- One step moves a thread along its life by at most one stage, and only its own steps do. -/
theorem ph_step {s s' : State α} {a : Act α} (h : step s a = .ok s') (t : Nat) :
    ph s' t = ph s t ∨ (ph s t = none ∧ ph s' t = some .running) ∨
    (a = .retire t ∧ ph s t = some .running ∧ ph s' t = some .retiring) ∨
    (a = .erase t ∧ ph s t = some .retiring ∧ ph s' t = some .ended) := by
  cases a with
  | setRingbufferSize n => simp only [step, Res.ok.injEq] at h; subst h; exact .inl rfl
  | setTransport => simp only [step, Res.ok.injEq] at h; subst h; exact .inl rfl
  | start tid =>
    simp only [step] at h
    split at h
    · simp only [Res.ok.injEq] at h; subst h; exact .inl rfl
    · split at h
      · simp only [Res.ok.injEq] at h; subst h
        rcases ph_append s.threads t { tid := tid, buf := _ } rfl with h1 | h1
        · exact .inl h1
        · exact .inr (.inl h1)
      · split at h
        · cases h
        · simp only [Res.ok.injEq] at h; subst h
          rcases ph_append s.threads t { tid := tid, buf := _ } rfl with h1 | h1
          · exact .inl h1
          · exact .inr (.inl h1)
  | emit u v lag =>
    left
    simp only [step] at h
    split at h
    · simp only [Res.ok.injEq] at h; subst h; rfl
    · split at h
      · cases h
      · simp only [Res.ok.injEq] at h; subst h; rfl
      · split at h
        · cases h
        · split at h
          · simp only [Res.ok.injEq] at h; subst h; rfl
          · split at h <;> (simp only [Res.ok.injEq] at h; subst h; rfl)
  | retire u =>
    simp only [step] at h
    split at h
    · simp only [Res.ok.injEq] at h; subst h; exact .inl rfl
    · rename_i th hu
      split at h
      · rename_i hp
        have key : ph s' t = if t = u then some .retiring else ph s t := by
          split at h <;> (simp only [Res.ok.injEq] at h; subst h; exact ph_set s.threads u t th _ hu)
        by_cases e : t = u
        · subst e
          exact .inr (.inr (.inl ⟨rfl, by simp [ph, hu, hp], by rw [key, if_pos rfl]⟩))
        · left; rw [key, if_neg e]
      · simp only [Res.ok.injEq] at h; subst h; exact .inl rfl
  | erase u =>
    simp only [step] at h
    split at h
    · simp only [Res.ok.injEq] at h; subst h; exact .inl rfl
    · rename_i th hu
      split at h
      · rename_i hp
        have key : ph s' t = if t = u then some .ended else ph s t := by
          simp only [Res.ok.injEq] at h; subst h; exact ph_set s.threads u t th _ hu
        by_cases e : t = u
        · subst e
          exact .inr (.inr (.inr ⟨rfl, by simp [ph, hu, hp], by rw [key, if_pos rfl]⟩))
        · left; rw [key, if_neg e]
      · simp only [Res.ok.injEq] at h; subst h; exact .inl rfl
  | takeOrphans => left; simp only [step] at h; split at h <;> (simp only [Res.ok.injEq] at h; subst h; rfl)
  | snapshot => left; simp only [step] at h; split at h <;> (simp only [Res.ok.injEq] at h; subst h; rfl)
  | finish => left; simp only [step] at h; split at h <;> (simp only [Res.ok.injEq] at h; subst h; rfl)
  | collect k =>
    left; simp only [step] at h
    split at h
    · split at h
      · cases h
      · simp only [Res.ok.injEq] at h; subst h; rfl
    · simp only [Res.ok.injEq] at h; subst h; rfl

theorem run_append (as bs : List (Act α)) : ∀ s : State α, run s (as ++ bs) = (run s as).bind fun s => run s bs := by
  induction as with
  | nil => intro s; rfl
  | cons a as ih =>
    intro s
    simp only [List.cons_append, run]
    cases step s a <;> simp [Res.bind, ih]

/-- How far along its life a thread is. -/
def stage : Option Phase → Nat
  | none => 0
  | some .running => 1
  | some .retiring => 2
  | some .ended => 3

theorem stage_step {s s' : State α} {a : Act α} (h : step s a = .ok s') (t : Nat) : stage (ph s t) ≤ stage (ph s' t) := by
  rcases ph_step h t with h1 | ⟨h1, h2⟩ | ⟨-, h1, h2⟩ | ⟨-, h1, h2⟩
  · rw [h1]; exact Nat.le_refl _
  all_goals (rw [h1, h2]; decide)

theorem stage_run (as : List (Act α)) : ∀ {s s' : State α}, run s as = .ok s' → ∀ t, stage (ph s t) ≤ stage (ph s' t) := by
  induction as with
  | nil => intro s s' h t; simp only [run, Res.ok.injEq] at h; subst h; exact Nat.le_refl _
  | cons a as ih =>
    intro s s' h t
    simp only [run] at h
    cases hs : step s a with
    | ok s1 => rw [hs] at h; exact Nat.le_trans (stage_step hs t) (ih h t)
    | throws e => rw [hs] at h; cases h
    | ub => rw [hs] at h; cases h
    | terminate => rw [hs] at h; cases h

/-- A thread that got further did so by a step of the history: the step is found, with what came before and after. -/
theorem moved (as : List (Act α)) : ∀ {s s' : State α}, run s as = .ok s' → ∀ t k, 1 ≤ k → k < 3 → stage (ph s t) ≤ k → k < stage (ph s' t) →
    ∃ pre post s1, as = pre ++ (if k = 1 then Act.retire t else Act.erase t) :: post ∧ run s pre = .ok s1 ∧ stage (ph s1 t) = k := by
  induction as with
  | nil => intro s s' h t k _ _ h1 h2; simp only [run, Res.ok.injEq] at h; subst h; omega
  | cons a as ih =>
    intro s s' h t k hk hk3 h1 h2
    simp only [run] at h
    cases hs : step s a with
    | throws e => rw [hs] at h; cases h
    | ub => rw [hs] at h; cases h
    | terminate => rw [hs] at h; cases h
    | ok s1 =>
      rw [hs] at h
      by_cases hlt : stage (ph s1 t) ≤ k
      · obtain ⟨pre, post, s2, e, hr, hst⟩ := ih h t k hk hk3 hlt h2
        exact ⟨a :: pre, post, s2, by rw [e]; rfl, by simp only [run, hs]; exact hr, hst⟩
      · rcases ph_step hs t with h3 | ⟨h3, h4⟩ | ⟨ha, h3, h4⟩ | ⟨ha, h3, h4⟩
        · rw [h3] at hlt; exact absurd h1 hlt
        · rw [h4] at hlt; simp only [stage] at hlt; omega
        · rw [h4] at hlt; rw [h3] at h1; simp only [stage] at hlt h1
          have : k = 1 := by omega
          subst this
          exact ⟨[], as, s, by simp [ha], rfl, by rw [h3]; rfl⟩
        · rw [h4] at hlt; rw [h3] at h1; simp only [stage] at hlt h1
          have : k = 2 := by omega
          subst this
          exact ⟨[], as, s, by simp [ha], rfl, by rw [h3]; rfl⟩

theorem retire_stage {s s' : State α} {t : Nat} (h : step s (.retire t) = .ok s') (ht : t < s.threads.length) : 2 ≤ stage (ph s' t) := by
  have hu : s.threads[t]? = some s.threads[t] := List.getElem?_eq_getElem ht
  simp only [step, hu] at h
  split at h
  · have key : ph s' t = some .retiring := by
      split at h <;>
      (simp only [Res.ok.injEq] at h; subst h
       exact (ph_set s.threads t t _ _ hu).trans (if_pos rfl))
    rw [key]; decide
  · rename_i hp
    simp only [Res.ok.injEq] at h; subst h
    have : ph s t = some s.threads[t].phase := by simp [ph, hu]
    rw [this]
    cases hq : s.threads[t].phase with
    | running => exact absurd hq (by simpa using hp)
    | retiring => decide
    | ended => decide

theorem erase_stage {s s' : State α} {t : Nat} (h : step s (.erase t) = .ok s') (ht : 2 ≤ stage (ph s t)) : 3 ≤ stage (ph s' t) := by
  cases hu : s.threads[t]? with
  | none => simp [ph, hu, stage] at ht
  | some th =>
    have hps : ph s t = some th.phase := by simp [ph, hu]
    rw [hps] at ht
    simp only [step, hu] at h
    cases hq : th.phase with
    | running => rw [hq] at ht; simp [stage] at ht
    | retiring =>
      rw [hq] at h; simp only [Res.ok.injEq] at h; subst h
      have := (ph_set s.threads t t th { th with phase := .ended } hu).trans (if_pos rfl)
      simp only [ph]
      rw [this]; simp [stage]
    | ended =>
      rw [hq] at h; simp only [Res.ok.injEq] at h; subst h
      rw [hps, hq]; decide

theorem stage_length (s : State α) (t : Nat) : 1 ≤ stage (ph s t) ↔ t < s.threads.length := by
  constructor
  · intro h
    apply Classical.byContradiction
    intro hn
    rw [ph, List.getElem?_eq_none (by omega)] at h
    simp [stage] at h
  · intro h
    rw [ph, List.getElem?_eq_getElem h]
    cases hq : s.threads[t].phase <;> simp [hq, stage]

/-- A history with a tracepoint after the end of its thread: thread `t` exists, both parts of its clean-up run, in this order, and later it gets to a
    tracepoint. -/
def LateTracepoint (n : Nat) (as : List (Act α)) : Prop :=
  ∃ (p₁ p₂ p₃ p₄ : List (Act α)) (t : Nat) (v : α) (lag : Nat) (s : State α),
    as = p₁ ++ .retire t :: (p₂ ++ .erase t :: (p₃ ++ .emit t v lag :: p₄)) ∧ run { ringSize := n } p₁ = .ok s ∧ t < s.threads.length

theorem ringSize_run (as : List (Act α)) : ∀ {s s' : State α}, (∀ m, Act.setRingbufferSize m ∉ as) → run s as = .ok s' → s'.ringSize = s.ringSize := by
  induction as with
  | nil => intro s s' _ h; simp only [run, Res.ok.injEq] at h; subst h; rfl
  | cons a as ih =>
    intro s s' hno h
    simp only [run] at h
    cases hs : step s a with
    | throws e => rw [hs] at h; cases h
    | ub => rw [hs] at h; cases h
    | terminate => rw [hs] at h; cases h
    | ok s1 =>
      rw [hs] at h
      rw [ih (fun m hm => hno m (by simp [hm])) h]
      cases a with
      | setRingbufferSize m => exact absurd (by simp) (hno m)
      | _ => simp only [step] at hs; repeat' split at hs
             all_goals first | (cases hs; done) | (simp only [Res.ok.injEq] at hs; subst hs; rfl)

/-- A run that fails has a first step that fails. -/
theorem first_failure (as : List (Act α)) : ∀ {s : State α}, (run s as).isOk = false →
    ∃ pre a post s1, as = pre ++ a :: post ∧ run s pre = .ok s1 ∧ (step s1 a).isOk = false ∧ (run s as = .ub ↔ step s1 a = .ub) := by
  induction as with
  | nil => intro s h; simp [run, Res.isOk] at h
  | cons a as ih =>
    intro s h
    simp only [run] at h ⊢
    cases hs : step s a with
    | ok s1 =>
      rw [hs] at h
      obtain ⟨pre, b, post, s2, e, hr, hf, hu⟩ := ih h
      exact ⟨a :: pre, b, post, s2, by rw [e]; rfl, by simp only [run, hs]; exact hr, hf, hu⟩
    | throws e => exact ⟨[], a, as, s, rfl, rfl, by rw [hs]; rfl, by rw [hs]; simp [Res.bind]⟩
    | ub => exact ⟨[], a, as, s, rfl, rfl, by rw [hs]; rfl, by rw [hs]; simp [Res.bind]⟩
    | terminate => exact ⟨[], a, as, s, rfl, rfl, by rw [hs]; rfl, by rw [hs]; simp [Res.bind]⟩

theorem fails_bind {r : Res (State α)} {f : State α → Res (State α)} (h : (r.bind f).isOk = true) : ∃ s, r = .ok s ∧ (f s).isOk = true := by
  cases r with
  | ok s => exact ⟨s, rfl, h⟩
  | throws e => simp [Res.bind, Res.isOk] at h
  | ub => simp [Res.bind, Res.isOk] at h
  | terminate => simp [Res.bind, Res.isOk] at h

/-- Whatever the ring buffer size is set to: a history with a late tracepoint fails. -/
theorem late_fails (n : Nat) (as : List (Act α)) (h : LateTracepoint n as) : (run { ringSize := n } as).isOk = false := by
  obtain ⟨p₁, p₂, p₃, p₄, t, v, lag, s, rfl, h1, ht⟩ := h
  apply Classical.byContradiction
  intro hok
  simp only [Bool.not_eq_false] at hok
  rw [run_append, h1] at hok
  simp only [Res.bind, run] at hok
  obtain ⟨s2, h2, hok⟩ := fails_bind hok
  rw [run_append] at hok
  obtain ⟨s3, h3, hok⟩ := fails_bind hok
  simp only [run] at hok
  obtain ⟨s4, h4, hok⟩ := fails_bind hok
  rw [run_append] at hok
  obtain ⟨s5, h5, hok⟩ := fails_bind hok
  simp only [run] at hok
  obtain ⟨s6, h6, -⟩ := fails_bind hok
  have g5 : 3 ≤ stage (ph s5 t) :=
    Nat.le_trans (erase_stage h4 (Nat.le_trans (retire_stage h2 ht) (stage_run _ h3 t))) (stage_run _ h5 t)
  cases hu : s5.threads[t]? with
  | none => simp [ph, hu, stage] at g5
  | some th =>
    cases hq : th.phase with
    | running => simp [ph, hu, hq, stage] at g5
    | retiring => simp [ph, hu, hq, stage] at g5
    | ended => simp [step, hu, hq] at h6

/-- **C18, exactly.** With a ring buffer size other than zero that stays as it is, for every number of threads and every history: something goes wrong if and only if some thread
    gets to a tracepoint after its clean-up. -/
theorem fails_iff (n : Nat) (hn : 0 < n) (as : List (Act α)) (hno : ∀ m, Act.setRingbufferSize m ∉ as) :
    (run { ringSize := n } as).isOk = false ↔ LateTracepoint n as := by
  refine ⟨fun h => ?_, late_fails n as⟩
  obtain ⟨pre, a, post, s, rfl, hr, hf, -⟩ := first_failure as h
  rcases only_failures n pre s hr a hf with ⟨t, v, lag, th, rfl, ht, hp⟩ | ⟨tid, rfl, h0⟩
  · have g : stage (ph s t) = 3 := by simp [ph, ht, hp, stage]
    have g0 : stage (ph ({ ringSize := n } : State α) t) = 0 := by simp [ph, stage]
    obtain ⟨q, p₃, s2, rfl, h2, g2⟩ := moved pre hr t 2 (by omega) (by omega) (by omega) (by omega)
    obtain ⟨p₁, p₂, s1, rfl, h1, g1⟩ := moved q h2 t 1 (by omega) (by omega) (by omega) (by omega)
    exact ⟨p₁, p₂, p₃, post, t, v, lag, s1, by simp, h1, (stage_length s1 t).1 (by omega)⟩
  · rw [ringSize_run pre (fun m hm => hno m (by simp [hm])) hr] at h0
    simp at h0; omega

/-- **C18, exactly.** And what goes wrong is undefined behaviour. -/
theorem undefined_iff (n : Nat) (hn : 0 < n) (as : List (Act α)) (hno : ∀ m, Act.setRingbufferSize m ∉ as) :
    run { ringSize := n } as = .ub ↔ LateTracepoint n as := by
  rw [← fails_iff n hn as hno]
  constructor
  · intro h; rw [h]; rfl
  · intro h
    obtain ⟨pre, a, post, s, rfl, hr, hf, hu⟩ := first_failure as h
    rw [hu]
    rcases only_failures n pre s hr a hf with ⟨t, v, lag, th, rfl, ht, hp⟩ | ⟨tid, rfl, h0⟩
    · simp [step, ht, hp]
    · rw [ringSize_run pre (fun m hm => hno m (by simp [hm])) hr] at h0
      simp at h0; omega

/-- Two threads; the first ends, the sender collects, and a destructor of the first thread then gets to a tracepoint. -/
example : LateTracepoint 4 ([.start 9, .start 8, .emit 0 1 0, .retire 0, .emit 1 5 0, .erase 0, .takeOrphans, .snapshot, .emit 0 2 0, .finish] : List (Act Nat)) :=
  ⟨[.start 9, .start 8, .emit 0 1 0], [.emit 1 5 0], [.takeOrphans, .snapshot], [.finish], 0, 2, 0, _, rfl, rfl, by decide⟩

end Scalopus.C18
