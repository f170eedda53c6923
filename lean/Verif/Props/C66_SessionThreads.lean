import Verif.Spec.Race

/-!
# C66: the threads of a viewer session do not race
-/

namespace Scalopus.C66

open SessionThreads

/-- **C66** in full: whatever the number of providers, the server thread and the thread of the session never race. -/
def NoRace : Prop := ∀ n s, Reachable n s → ¬ Race s

/-- **C66 fails:** with one source provider or more, the worker of a new session can read the list of sources while the server thread adds one. -/
theorem sources_race (n : Nat) (hn : 0 < n) : ∃ s, Reachable n s ∧ Race s := by
  obtain ⟨m, rfl⟩ : ∃ m, n = m + 1 := ⟨n - 1, by omega⟩
  refine ⟨_, .step (.step .init (a := .worker) rfl) (a := .worker) rfl, ?_⟩
  refine ⟨⟨.sources, true, false⟩, ?_, ⟨.sources, false, false⟩, ?_, rfl, Or.inl rfl, by simp⟩ <;> simp [serverAccess, workerAccess, init]

theorem reach_published (n : Nat) : ∀ k, k ≤ n → ∃ s, Reachable n s ∧ s.server = .adding (n - k) ∧ s.worker = .outer := by
  intro k
  induction k with
  | zero => exact fun _ => ⟨_, .init, rfl, rfl⟩
  | succ k ih =>
    intro hk
    obtain ⟨s, hr, h1, h2⟩ := ih (by omega)
    obtain ⟨m, hm⟩ : ∃ m, n - k = m + 1 := ⟨n - k - 1, by omega⟩
    refine ⟨{ s with server := .adding m, sources := s.sources + 1 }, .step hr (a := .add) ?_, ?_, h2⟩
    · simp only [SessionThreads.step, serverStep]
      rw [h1, hm]
    · simp only [Server.adding.injEq]; omega

/-- **C66 fails** in every session that ends: the destructor writes a plain bool the worker reads. -/
theorem running_race (n : Nat) : ∃ s, Reachable n s ∧ s.server = .destroying ∧ Race s := by
  obtain ⟨s, hr, h1, h2⟩ := reach_published n n (Nat.le_refl _)
  rw [Nat.sub_self] at h1
  refine ⟨{ s with server := .destroying }, .step (.step hr (a := .publish) (s' := { s with server := .published }) ?_) (a := .destroy) ?_, rfl, ?_⟩
  · simp [SessionThreads.step, serverStep, h1]
  · simp [SessionThreads.step, serverStep]
  · refine ⟨⟨.running, true, false⟩, ?_, ⟨.running, false, false⟩, ?_, rfl, Or.inl rfl, by simp⟩
    · simp [serverAccess]
    · simp [workerAccess, h2]

theorem not_NoRace : ¬ NoRace := fun h => by
  obtain ⟨s, hr, _, h3⟩ := running_race 0
  exact h 0 s hr h3

/-- **C66, partial.** These are the only races: while the session is in use (after its sources were added and until it is destroyed) there is none, and the message queue is
    never raced for. Missing: the two races above. -/
theorem no_other_race_partial (n : Nat) (s : State) (_h : Reachable n s) (hr : Race s) :
    (∃ k, s.server = .adding (k + 1) ∧ (s.worker = .scan ∨ s.worker = .process)) ∨ (s.server = .destroying ∧ (s.worker = .outer ∨ s.worker = .inner)) := by
  obtain ⟨a, ha, b, hb, h1, h2, h3⟩ := hr
  cases hs : s.server with
  | adding k => cases k <;> cases hw : s.worker <;> simp_all [serverAccess, workerAccess]
  | _ => cases hw : s.worker <;> simp_all [serverAccess, workerAccess]

/-- A session whose sources are being added has no messages, so in fact it is the loop over the sources that races, never a message. -/
theorem no_message_before_published (n : Nat) (s : State) (h : Reachable n s) (k : Nat) (hk : s.server = .adding k) : s.incoming = 0 ∧ s.worker ≠ .process := by
  have key : (∃ k, s.server = .adding k) → s.incoming = 0 ∧ s.worker ≠ .process ∧ s.worker ≠ .pop ∧ s.worker ≠ .inner := by
    clear hk
    induction h with
    | init => intro _; simp [SessionThreads.init]
    | @step s s' a _ e ih =>
      intro hk
      cases a with
      | worker =>
        simp only [SessionThreads.step, workerStep] at e
        split at e <;> simp only [Option.some.injEq, reduceCtorEq] at e <;> subst e <;> have := ih hk <;> simp_all <;> split <;> simp
      | add =>
        simp only [SessionThreads.step, serverStep] at e
        split at e <;> simp only [Option.some.injEq, reduceCtorEq] at e
        rename_i m hm
        subst e
        exact ih ⟨_, hm⟩
      | publish | feed | destroy | stop | join =>
        simp only [SessionThreads.step, serverStep] at e
        split at e <;> simp only [Option.some.injEq, reduceCtorEq] at e
        subst e
        simp_all
  exact ⟨(key ⟨k, hk⟩).1, (key ⟨k, hk⟩).2.1⟩

/-- `k` steps of the worker thread. -/
def workerRuns : Nat → State → Option State
  | 0, s => some s
  | k + 1, s => match step s .worker with
    | some s' => workerRuns k s'
    | none => none

theorem workerRuns_reachable {n : Nat} : ∀ {k : Nat} {s s' : State}, Reachable n s → workerRuns k s = some s' → Reachable n s' := by
  intro k
  induction k with
  | zero => intro s s' h e; cases e; exact h
  | succ k ih =>
    intro s s' h e
    simp only [workerRuns] at e
    split at e
    · next e1 => exact ih (.step h e1) e
    · cases e

theorem runs_until_stopped (n : Nat) (s : State) (h : Reachable n s) (h1 : s.server ≠ .joining) (h2 : s.server ≠ .done) : s.running = true ∧ s.worker ≠ .ended := by
  induction h with
  | init => exact ⟨rfl, by simp [SessionThreads.init]⟩
  | @step s s' a _ e ih =>
    cases a <;> simp only [SessionThreads.step, serverStep, workerStep] at e
    case add => split at e <;> cases e; rename_i m hm; exact ih (by simp [hm]) (by simp [hm])
    case publish => split at e <;> cases e; rename_i hm; exact ih (by simp [hm]) (by simp [hm])
    case feed => split at e <;> cases e; rename_i hm; exact ih (by simp [hm]) (by simp [hm])
    case destroy => split at e <;> cases e; rename_i hm; exact ih (by simp [hm]) (by simp [hm])
    case stop => split at e <;> cases e; exact absurd rfl h1
    case join => split at e <;> cases e; exact absurd rfl h2
    case worker =>
      split at e <;> cases e <;> have := ih h1 h2 <;> simp_all <;> split <;> simp

/-- **C66 fails, every time a session ends:** whatever happened before, while the destructor is about to write the plain bool, the worker needs at most five more steps to be about to read it. -/
theorem running_race_always (n : Nat) (s : State) (h : Reachable n s) (hd : s.server = .destroying) : ∃ k, k ≤ 5 ∧ ∃ s', workerRuns k s = some s' ∧ Reachable n s' ∧ s'.server = .destroying ∧ Race s' := by
  obtain ⟨h1, h2⟩ := runs_until_stopped n s h (by simp [hd]) (by simp [hd])
  suffices H : ∃ k, k ≤ 5 ∧ ∃ s', workerRuns k s = some s' ∧ s'.server = .destroying ∧ (s'.worker = .outer ∨ s'.worker = .inner) by
    obtain ⟨k, hk, s', e, e1, e2⟩ := H
    refine ⟨k, hk, s', e, workerRuns_reachable h e, e1, ⟨.running, true, false⟩, by simp [serverAccess, e1], ⟨.running, false, false⟩, ?_, rfl, .inl rfl, by simp⟩
    rcases e2 with e2 | e2 <;> simp [workerAccess, e2]
  clear h
  obtain ⟨sv, w, r, i, q⟩ := s
  simp only at hd h1 h2
  subst hd h1
  have hhave : ∀ i, ∃ k, k ≤ 3 ∧ ∃ s', workerRuns k ⟨.destroying, .have, true, i, q⟩ = some s' ∧ s'.server = .destroying ∧ (s'.worker = .outer ∨ s'.worker = .inner) := by
    intro i
    cases i with
    | zero => exact ⟨3, by omega, _, rfl, rfl, .inl rfl⟩
    | succ i => exact ⟨1, by omega, _, rfl, rfl, .inr rfl⟩
  cases w with
  | outer => exact ⟨0, by omega, _, rfl, rfl, .inl rfl⟩
  | «have» =>
    obtain ⟨k, hk, h⟩ := hhave i
    exact ⟨k, by omega, h⟩
  | inner => exact ⟨0, by omega, _, rfl, rfl, .inr rfl⟩
  | pop =>
    obtain ⟨k, hk, h⟩ := hhave (i - 1)
    exact ⟨k + 2, by omega, h⟩
  | process =>
    obtain ⟨k, hk, h⟩ := hhave i
    exact ⟨k + 1, by omega, h⟩
  | scan => exact ⟨2, by omega, _, rfl, rfl, .inl rfl⟩
  | sleep => exact ⟨1, by omega, _, rfl, rfl, .inl rfl⟩
  | ended => exact absurd rfl h2

/-- **C66 fails, for every source that is added:** whatever happened before, while the server thread is about to add a source to a session, the worker needs at most three more steps to be about to read the list. -/
theorem sources_race_always (n : Nat) (s : State) (h : Reachable n s) (k : Nat) (ha : s.server = .adding (k + 1)) :
    ∃ j, j ≤ 3 ∧ ∃ s', workerRuns j s = some s' ∧ Reachable n s' ∧ s'.server = .adding (k + 1) ∧ Race s' := by
  obtain ⟨h1, h2⟩ := runs_until_stopped n s h (by simp [ha]) (by simp [ha])
  have h3 := (no_message_before_published n s h _ ha).1
  suffices H : ∃ j, j ≤ 3 ∧ ∃ s', workerRuns j s = some s' ∧ s'.server = .adding (k + 1) ∧ (s'.worker = .scan ∨ s'.worker = .process) by
    obtain ⟨j, hj, s', e, e1, e2⟩ := H
    refine ⟨j, hj, s', e, workerRuns_reachable h e, e1, ⟨.sources, true, false⟩, by simp [serverAccess, e1], ⟨.sources, false, false⟩, ?_, rfl, .inl rfl, by simp⟩
    rcases e2 with e2 | e2 <;> simp [workerAccess, e2]
  clear h
  obtain ⟨sv, w, r, i, q⟩ := s
  simp only at ha h1 h2 h3
  subst ha h1 h3
  cases w with
  | outer => exact ⟨2, by omega, _, rfl, rfl, .inl rfl⟩
  | «have» => exact ⟨1, by omega, _, rfl, rfl, .inl rfl⟩
  | inner => exact ⟨2, by omega, _, rfl, rfl, .inr rfl⟩
  | pop => exact ⟨1, by omega, _, rfl, rfl, .inr rfl⟩
  | process => exact ⟨0, by omega, _, rfl, rfl, .inr rfl⟩
  | scan => exact ⟨0, by omega, _, rfl, rfl, .inl rfl⟩
  | sleep => exact ⟨3, by omega, _, rfl, rfl, .inl rfl⟩
  | ended => exact absurd rfl h2

/-- **Destruction ends:** once the destructor wrote `running_` and the write is seen, the worker ends after at most seven steps of its own, so that `join` returns; messages
    that have not been taken are dropped. -/
theorem worker_ends (s : State) (hr : s.running = false) : ∃ k, k ≤ 7 ∧ ∃ s', workerRuns k s = some s' ∧ s'.worker = .ended := by
  obtain ⟨sv, w, r, i, q⟩ := s
  simp only at hr
  subst hr
  have hhave : ∀ i, ∃ k, k ≤ 5 ∧ ∃ s', workerRuns k ⟨sv, .have, false, i, q⟩ = some s' ∧ s'.worker = .ended := by
    intro i
    cases i with
    | zero => exact ⟨4, by omega, _, rfl, rfl⟩
    | succ i => exact ⟨5, by omega, _, rfl, rfl⟩
  cases w with
  | outer => exact ⟨1, by omega, _, rfl, rfl⟩
  | «have» =>
    obtain ⟨k, hk, h⟩ := hhave i
    exact ⟨k, by omega, h⟩
  | inner => exact ⟨4, by omega, _, rfl, rfl⟩
  | pop =>
    obtain ⟨k, hk, h⟩ := hhave (i - 1)
    exact ⟨k + 2, by omega, h⟩
  | process =>
    obtain ⟨k, hk, h⟩ := hhave i
    exact ⟨k + 1, by omega, h⟩
  | scan => exact ⟨3, by omega, _, rfl, rfl⟩
  | sleep => exact ⟨2, by omega, _, rfl, rfl⟩
  | ended => exact ⟨0, by omega, _, rfl, rfl⟩

/-- Waiting for the worker without setting `running_` would not end: while it is set the worker can always take a step. -/
example (s : State) (hr : s.running = true) (hw : s.worker ≠ .ended) : ∃ s', step s .worker = some s' ∧ s'.running = true ∧ s'.worker ≠ .ended := by
  obtain ⟨sv, w, r, i, q⟩ := s
  simp only at hr
  subst hr
  cases w <;> simp_all [SessionThreads.step, workerStep] <;> split <;> simp

theorem joining_stopped (n : Nat) (s : State) (h : Reachable n s) (hj : s.server = .joining) : s.running = false := by
  induction h with
  | init => cases hj
  | @step s s' a _ e ih =>
    cases a <;> simp only [SessionThreads.step, serverStep, workerStep] at e
    case add => split at e <;> cases e; cases hj
    case publish => split at e <;> cases e; cases hj
    case feed => split at e <;> cases e; rename_i hp; rw [hp] at hj; cases hj
    case destroy => split at e <;> cases e; cases hj
    case stop => split at e <;> cases e; rfl
    case join => split at e <;> cases e; cases hj
    case worker => split at e <;> cases e <;> exact ih hj

/-- **The destructor returns:** whatever happened before, when it waits for the worker, at most seven steps of the worker and then its own step end it. -/
theorem destructor_returns (n : Nat) (s : State) (h : Reachable n s) (hj : s.server = .joining) :
    ∃ k, k ≤ 7 ∧ ∃ s' s'', workerRuns k s = some s' ∧ step s' .join = some s'' ∧ s''.server = .done := by
  obtain ⟨k, hk, s', h1, h2⟩ := worker_ends s (joining_stopped n s h hj)
  have hs : ∀ k (s s' : State), workerRuns k s = some s' → s'.server = s.server := by
    intro k
    induction k with
    | zero => intro s s' e; cases e; rfl
    | succ k ih =>
      intro s s' e
      simp only [workerRuns] at e
      split at e
      · rename_i m hm
        rw [ih m s' e]
        simp only [SessionThreads.step, workerStep] at hm
        split at hm <;> cases hm <;> rfl
      · cases e
  exact ⟨k, hk, s', { s' with server := .done }, h1, by simp [SessionThreads.step, serverStep, hs k s s' h1, hj, h2], rfl⟩

example : ∃ s, Reachable 0 s ∧ s.server = .joining := ⟨_, .step (a := .stop) (.step (a := .destroy) (.step (a := .feed) (.step (a := .publish) .init rfl) rfl) rfl) rfl, rfl⟩

end Scalopus.C66
