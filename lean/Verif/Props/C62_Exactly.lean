import Verif.Props.C21_TraceState

/-!
# C62: exactly which histories of tracing calls fail
-/

namespace Scalopus.C62

open TraceState

/-- Whether a thread has ended. -/
def en (s : State) (t : Nat) : Option Bool := s.threads[t]?.map (·.ended)

theorem map_set (l : List Thread) (u t : Nat) (th th' : Thread) (hu : l[u]? = some th) :
    ((l.set u th')[t]?.map (·.ended)) = if t = u then some th'.ended else l[t]?.map (·.ended) := by
  have hlt : u < l.length := by
    rw [List.getElem?_eq_some_iff] at hu; exact hu.1
  by_cases h : t = u
  · subst h; simp [List.getElem?_set, hlt]
  · rw [if_neg h, List.getElem?_set, if_neg (fun e => h e.symm)]

theorem map_set_same (l : List Thread) (u t : Nat) (th th' : Thread) (hu : l[u]? = some th) (he : th'.ended = th.ended) :
    ((l.set u th')[t]?.map (·.ended)) = l[t]?.map (·.ended) := by
  rw [map_set l u t th th' hu]
  by_cases h : t = u
  · subst h; simp [hu, he]
  · rw [if_neg h]

theorem ptr_threads (s : State) (t : Nat) (th : Thread) : (threadStatePtr s t th).1.threads = s.threads.set t { th with cleanup := true } := by
  unfold threadStatePtr
  simp only
  split <;> rfl

theorem en_ptr (s : State) (u t : Nat) (th : Thread) (hu : s.threads[u]? = some th) :
    ((threadStatePtr s u th).1.threads[t]?.map (·.ended)) = s.threads[t]?.map (·.ended) := by
  rw [ptr_threads]
  exact map_set_same _ _ _ _ _ hu rfl

/-- Threads start, and end by their own exit outside of tracepoints; nothing else changes whether they have ended. -/
theorem en_step {s s' : State} {a : Act} (h : step s a = .ok s') (t : Nat) :
    en s' t = en s t ∨ (en s t = none ∧ en s' t = some false) ∨
    (a = .exit t ∧ en s' t = some true ∧ ∃ th, s.threads[t]? = some th ∧ th.ended = false ∧ th.pc = .idle) := by
  cases a with
  | start tid =>
    simp only [step] at h
    split at h
    · simp only [Res.ok.injEq] at h; subst h; exact .inl rfl
    · simp only [Res.ok.injEq] at h; subst h
      simp only [en]
      by_cases h1 : t < s.threads.length
      · left; rw [List.getElem?_append_left h1]
      · by_cases h2 : t = s.threads.length
        · right; left; subst h2; simp
        · left; rw [List.getElem?_eq_none (by simp; omega), List.getElem?_eq_none (by omega)]
  | getThread u =>
    left
    simp only [step] at h
    split at h
    · simp only [Res.ok.injEq] at h; subst h; rfl
    · rename_i th hu
      split at h
      · cases h
      · split at h
        · split at h
          · cases h
          · simp only [Res.ok.injEq] at h; subst h; exact en_ptr s u t th hu
        · simp only [Res.ok.injEq] at h; subst h; rfl
  | setThread u b =>
    left
    simp only [step] at h
    split at h
    · simp only [Res.ok.injEq] at h; subst h; rfl
    · rename_i th hu
      split at h
      · cases h
      · split at h
        · split at h
          · cases h
          · simp only [Res.ok.injEq] at h; subst h; exact en_ptr s u t th hu
        · simp only [Res.ok.injEq] at h; subst h; rfl
  | reach u be p =>
    left
    simp only [step] at h
    split at h
    · simp only [Res.ok.injEq] at h; subst h; rfl
    · rename_i th hu
      split at h
      · split at h
        · simp only [Res.ok.injEq] at h; subst h; rfl
        · split at h
          · cases h
          · split at h
            · simp only [Res.ok.injEq] at h; subst h; exact map_set_same _ _ _ _ _ hu rfl
            · simp only [Res.ok.injEq] at h; subst h
              have hu' : (threadStatePtr s u th).1.threads[u]? = some { th with cleanup := true } := by
                rw [ptr_threads]
                have hlt : u < s.threads.length := by rw [List.getElem?_eq_some_iff] at hu; exact hu.1
                simp [hlt]
              refine Eq.trans ?_ (en_ptr s u t th hu)
              exact map_set_same _ u t _ _ hu' rfl
      · simp only [Res.ok.injEq] at h; subst h; rfl
  | loadProcess u =>
    left
    simp only [step] at h
    split at h
    · simp only [Res.ok.injEq] at h; subst h; rfl
    · rename_i th hu
      split at h
      · split at h <;> (simp only [Res.ok.injEq] at h; subst h; exact map_set_same _ _ _ _ _ hu rfl)
      · simp only [Res.ok.injEq] at h; subst h; rfl
  | loadThread u =>
    left
    simp only [step] at h
    split at h
    · simp only [Res.ok.injEq] at h; subst h; rfl
    · rename_i th hu
      split at h
      · split at h
        · cases h
        · split at h
          · cases h
          · split at h
            · split at h <;> (simp only [Res.ok.injEq] at h; subst h; exact map_set_same _ _ _ _ _ hu rfl)
            · simp only [Res.ok.injEq] at h; subst h; exact map_set_same _ _ _ _ _ hu rfl
      · simp only [Res.ok.injEq] at h; subst h; rfl
  | exit u =>
    simp only [step] at h
    split at h
    · simp only [Res.ok.injEq] at h; subst h; exact .inl rfl
    · rename_i th hu
      split at h
      · rename_i hc
        have key : en s' t = if t = u then some true else en s t := by
          split at h <;> (simp only [Res.ok.injEq] at h; subst h; exact map_set _ _ _ _ _ hu)
        by_cases e : t = u
        · subst e
          exact .inr (.inr ⟨rfl, by rw [key, if_pos rfl], th, hu, hc⟩)
        · left; rw [key, if_neg e]
      · simp only [Res.ok.injEq] at h; subst h; exact .inl rfl
  | remoteStore i tid b =>
    left
    simp only [step] at h
    split at h
    · simp only [Res.ok.injEq] at h; subst h; rfl
    · split at h <;> (simp only [Res.ok.injEq] at h; subst h; rfl)
  | remoteLoad i tid =>
    left
    simp only [step] at h
    split at h
    · simp only [Res.ok.injEq] at h; subst h; rfl
    · split at h
      · simp only [Res.ok.injEq] at h; subst h; rfl
      · split at h
        · cases h
        · simp only [Res.ok.injEq] at h; subst h; rfl
  | _ => left; simp only [step, Res.ok.injEq] at h; subst h; rfl

theorem ended_stays (as : List Act) : ∀ {s s' : State}, run s as = .ok s' → ∀ t, en s t = some true → en s' t = some true := by
  induction as with
  | nil => intro s s' h t ht; simp only [run, Res.ok.injEq] at h; subst h; exact ht
  | cons a as ih =>
    intro s s' h t ht
    simp only [run] at h
    cases hs : step s a with
    | ok s1 =>
      rw [hs] at h
      refine ih h t ?_
      rcases en_step hs t with h1 | ⟨h1, -⟩ | ⟨-, h1, -⟩
      · rw [h1]; exact ht
      · rw [h1] at ht; cases ht
      · exact h1
    | throws e => rw [hs] at h; cases h
    | ub => rw [hs] at h; cases h
    | terminate => rw [hs] at h; cases h

/-- A thread that has ended did so by an exit outside of tracepoints. -/
theorem ended_by_exit (as : List Act) : ∀ {s s' : State}, run s as = .ok s' → ∀ t, en s t ≠ some true → en s' t = some true →
    ∃ pre post s1, as = pre ++ .exit t :: post ∧ run s pre = .ok s1 ∧ ∃ th, s1.threads[t]? = some th ∧ th.pc = .idle := by
  induction as with
  | nil => intro s s' h t h1 h2; simp only [run, Res.ok.injEq] at h; subst h; exact absurd h2 h1
  | cons a as ih =>
    intro s s' h t h1 h2
    simp only [run] at h
    cases hs : step s a with
    | throws e => rw [hs] at h; cases h
    | ub => rw [hs] at h; cases h
    | terminate => rw [hs] at h; cases h
    | ok s1 =>
      rw [hs] at h
      by_cases hx : en s1 t = some true
      · rcases en_step hs t with h3 | ⟨-, h3⟩ | ⟨rfl, -, th, h3, -, h4⟩
        · rw [h3] at hx; exact absurd hx h1
        · rw [h3] at hx; cases hx
        · exact ⟨[], as, s, rfl, rfl, th, h3, h4⟩
      · obtain ⟨pre, post, s2, e, hr, hth⟩ := ih h t hx h2
        exact ⟨a :: pre, post, s2, by rw [e]; rfl, by simp only [run, hs]; exact hr, hth⟩

theorem run_append (as bs : List Act) : ∀ s : State, run s (as ++ bs) = (run s as).bind fun s => run s bs := by
  induction as with
  | nil => intro s; rfl
  | cons a as ih =>
    intro s
    simp only [List.cons_append, run]
    cases step s a <;> simp [Res.bind, ih]

theorem ok_bind {r : Res State} {f : State → Res State} (h : (r.bind f).isOk = true) : ∃ s, r = .ok s ∧ (f s).isOk = true := by
  cases r with
  | ok s => exact ⟨s, rfl, h⟩
  | throws e => simp [Res.bind, Res.isOk] at h
  | ub => simp [Res.bind, Res.isOk] at h
  | terminate => simp [Res.bind, Res.isOk] at h

theorem first_failure (as : List Act) : ∀ {s : State}, (run s as).isOk = false →
    ∃ pre a post s1, as = pre ++ a :: post ∧ run s pre = .ok s1 ∧ (step s1 a).isOk = false ∧ (run s as = .ub ↔ step s1 a = .ub) := by
  induction as with
  | nil => intro s h; simp [run, Res.isOk] at h
  | cons a as ih =>
    intro s h
    simp only [run] at h ⊢
    cases hs : step s a with
    | ok s1 =>
      rw [hs] at h
      obtain ⟨pre, b, post, s2, e, hr, hf, hu⟩ := ih h
      exact ⟨a :: pre, b, post, s2, by rw [e]; rfl, by simp only [run, hs]; exact hr, hf, hu⟩
    | throws e => exact ⟨[], a, as, s, rfl, rfl, by rw [hs]; rfl, by rw [hs]; simp [Res.bind]⟩
    | ub => exact ⟨[], a, as, s, rfl, rfl, by rw [hs]; rfl, by rw [hs]; simp [Res.bind]⟩
    | terminate => exact ⟨[], a, as, s, rfl, rfl, by rw [hs]; rfl, by rw [hs]; simp [Res.bind]⟩

/-- Thread `t` uses its switch, or a tracepoint that does something. -/
def UsedBy (t : Nat) (x : Act) : Prop := x = .getThread t ∨ (∃ b, x = .setThread t b) ∨ ∃ be p, be ≠ .nop ∧ x = .reach t be p

/-- A history in which a thread that exists and is in no tracepoint exits, and later uses its switch or a tracepoint. -/
def LateUse (acts : List Act) : Prop :=
  ∃ (p₁ p₂ p₃ : List Act) (t : Nat) (x : Act) (s : State), acts = p₁ ++ .exit t :: (p₂ ++ x :: p₃) ∧ run {} p₁ = .ok s ∧
    (∃ th, s.threads[t]? = some th ∧ th.pc = .idle) ∧ UsedBy t x

theorem late_of_used {s : State} {t : Nat} {x : Act} (h : UsedBy t x) (he : en s t = some true) : late s x := by
  have : ∃ th : Thread, s.threads[t]? = some th ∧ th.ended = true := by
    cases hu : s.threads[t]? with
    | none => simp [en, hu] at he
    | some th => exact ⟨th, rfl, by simpa [en, hu] using he⟩
  rcases h with rfl | ⟨b, rfl⟩ | ⟨be, p, hne, rfl⟩
  · exact this
  · exact this
  · exact ⟨hne, this⟩

theorem used_of_late {s : State} {x : Act} (h : late s x) : ∃ t, UsedBy t x ∧ en s t = some true := by
  cases x <;> simp only [late] at h
  case getThread t => obtain ⟨th, h1, h2⟩ := h; exact ⟨t, .inl rfl, by simp [en, h1, h2]⟩
  case setThread t b => obtain ⟨th, h1, h2⟩ := h; exact ⟨t, .inr (.inl ⟨b, rfl⟩), by simp [en, h1, h2]⟩
  case reach t be p => obtain ⟨h0, th, h1, h2⟩ := h; exact ⟨t, .inr (.inr ⟨be, p, h0, rfl⟩), by simp [en, h1, h2]⟩

/-- **C62, exactly.** For every number of threads and every history: something fails if and only if a thread uses its switch or a tracepoint after its exit. -/
theorem fails_iff (acts : List Act) : (run {} acts).isOk = false ↔ LateUse acts := by
  constructor
  · intro h
    obtain ⟨pre, x, post, s, rfl, hr, hf, -⟩ := first_failure acts h
    have hl : late s x := Classical.byContradiction fun hn => by
      rw [(only_late_calls_fail_partial pre s hr x).2 hn] at hf; cases hf
    obtain ⟨t, hu, he⟩ := used_of_late hl
    obtain ⟨p₁, p₂, s1, rfl, h1, hth⟩ := ended_by_exit pre hr t (by simp [en]) he
    exact ⟨p₁, p₂, post, t, x, s1, by simp, h1, hth, hu⟩
  · rintro ⟨p₁, p₂, p₃, t, x, s, rfl, h1, ⟨th, hth, hpc⟩, hu⟩
    apply Classical.byContradiction
    intro hok
    simp only [Bool.not_eq_false] at hok
    rw [run_append, h1] at hok
    simp only [Res.bind, run] at hok
    obtain ⟨s2, h2, hok⟩ := ok_bind hok
    rw [run_append] at hok
    obtain ⟨s3, h3, hok⟩ := ok_bind hok
    simp only [run] at hok
    obtain ⟨s4, h4, -⟩ := ok_bind hok
    have e2 : en s2 t = some true := by
      rcases Bool.eq_false_or_eq_true th.ended with he | he
      · rcases en_step h2 t with g | ⟨g, -⟩ | ⟨-, g, -⟩
        · rw [g]; simp [en, hth, he]
        · simp [en, hth] at g
        · exact g
      · simp only [step, hth, he, hpc, and_self, if_true] at h2
        split at h2 <;>
        (simp only [Res.ok.injEq] at h2; subst h2
         refine Eq.trans (map_set s.threads t t th _ hth) ?_
         rw [if_pos rfl])
    have e3 := ended_stays p₂ h3 t e2
    have r3 : run {} (p₁ ++ .exit t :: p₂) = .ok s3 := by
      rw [run_append, h1]; simp only [Res.bind, run]; rw [h2]; exact h3
    have := (only_late_calls_fail_partial _ s3 r3 x).1 (late_of_used hu e3)
    rw [this] at h4
    cases h4

/-- **C62, exactly.** And it fails with undefined behaviour, never with an exception. -/
theorem undefined_iff (acts : List Act) : run {} acts = .ub ↔ LateUse acts := by
  rw [← fails_iff]
  constructor
  · intro h; rw [h]; rfl
  · intro h
    obtain ⟨pre, x, post, s, rfl, hr, hf, hu⟩ := first_failure acts h
    rw [hu]
    have hl : late s x := Classical.byContradiction fun hn => by
      rw [(only_late_calls_fail_partial pre s hr x).2 hn] at hf; cases hf
    exact (only_late_calls_fail_partial pre s hr x).1 hl

/-- Two threads; the first has traced, exits, and a destructor then switches tracing off. -/
example : LateUse [.start 1, .start 2, .getThread 0, .exit 0, .getThread 1, .setThread 0 false, .getProcess] :=
  ⟨[.start 1, .start 2, .getThread 0], [.getThread 1], [.getProcess], 0, .setThread 0 false, _, rfl, rfl, ⟨_, rfl, rfl⟩, .inr (.inl ⟨false, rfl⟩)⟩

end Scalopus.C62
