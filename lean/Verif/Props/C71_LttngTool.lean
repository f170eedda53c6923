import Verif.Model.LttngTool

/-!
# C71, C72: starting and halting babeltrace
-/

namespace Scalopus.C71

open LttngTool

/-- The states that follow `s` by steps of this program alone, without output of babeltrace. -/
inductive Alone (s : State) : State → Prop
  | refl : Alone s s
  | step {t t' : State} {a : Act} : Alone s t → a.internal = true → step t a = some t' → Alone s t'

/-- **C71** in full: a call of `halt` returns: from any state in which it waits, `halt` can still return without any help from babeltrace. -/
def HaltReturns : Prop := ∀ s, Reachable s → s.main = .joining → ∃ t, Alone s t ∧ t.main = .idle

/-- **C71, partial.** If the worker is in its loop when `halt` is called, and does not wait for the rest of a line, `halt` returns, after two steps. Missing: a worker that has not yet
    begun, and one in the middle of a line; see below. -/
theorem halt_returns_partial (s : State) (hr : Reachable s) (hm : s.main = .running) (hw : s.worker = .loop ∨ s.worker = .ended) :
    ∃ s', step s .halt = some s' ∧ ∀ t, Alone s' t → t.main = .idle ∨ ∃ u, step t .worker = some u ∧ (u.worker = .ended ∧ u.main = .joining) ∨ step t .join = some u ∧ u.main = .idle := by
  refine ⟨{ s with main := .joining, processing := false }, by simp [step, hm], ?_⟩
  intro t ht
  have key : t.processing = false ∧ ((t.main = .joining ∧ (t.worker = .loop ∨ t.worker = .ended)) ∨ t.main = .idle ∧ t.worker = .none) := by
    induction ht with
    | refl => exact ⟨rfl, .inl ⟨rfl, hw⟩⟩
    | @step t t' a _ ha hs ih =>
      cases a with
      | join =>
        simp only [step] at hs
        split at hs
        · cases hs; exact ⟨ih.1, .inr ⟨rfl, rfl⟩⟩
        · cases hs
      | worker =>
        simp only [step] at hs
        split at hs
        · rename_i hst
          rcases ih.2 with ⟨_, h | h⟩ | ⟨_, h⟩ <;> rw [hst] at h <;> cases h
        · rename_i hst
          cases hs
          rcases ih.2 with ⟨h1, h | h⟩ | ⟨_, h⟩
          · exact ⟨ih.1, .inl ⟨h1, by simp [ih.1]⟩⟩
          · rw [hst] at h; cases h
          · rw [hst] at h; cases h
        · cases hs
      | _ => cases ha
  rcases key.2 with ⟨h1, h2 | h2⟩ | ⟨h1, _⟩
  · exact .inr ⟨{ t with worker := .ended }, .inl ⟨by simp [step, h2, key.1], rfl, h1⟩⟩
  · exact .inr ⟨{ t with main := .idle, worker := .none }, .inr ⟨by simp [step, h1, h2], rfl⟩⟩
  · exact .inl h1

/-- **C71.** When babeltrace has ended, the worker ends with its next step, and `halt` returns, whenever it is called. -/
theorem ends_with_babeltrace (s s' : State) (h : step s .eof = some s') : ∃ u, step s' .worker = some u ∧ u.worker = .ended ∧
    (s.main = .joining → ∃ v, step u .join = some v ∧ v.main = .idle) ∧ (s.main = .running → ∃ v w, step u .halt = some v ∧ step v .join = some w ∧ w.main = .idle) := by
  simp only [step] at h
  split at h
  · cases h
    refine ⟨{ s with worker := .ended, processing := false }, by simp [step], rfl, fun hm => ?_, fun hm => ?_⟩
    · exact ⟨{ s with main := .idle, worker := .none, processing := false }, by simp [step, hm], rfl⟩
    · exact ⟨{ s with main := .joining, worker := .ended, processing := false }, { s with main := .idle, worker := .none, processing := false }, by simp [step, hm], by simp [step], rfl⟩
  · cases h

example : ∃ s s', Reachable s ∧ s.main = .running ∧ step s .eof = some s' := ⟨_, _, .step (a := .worker) (.step (a := .init) .init rfl) rfl, rfl, rfl⟩

/-- The worker was started, `halt` was called, and then the worker began. -/
theorem early_halt_reachable : Reachable { main := .joining, worker := .loop, processing := true } :=
  .step (a := .worker) (.step (a := .halt) (.step (a := .init) .init rfl) rfl) rfl

/-- **C71 fails:** if `halt` (or the destructor) is called before the worker thread has begun, the worker overwrites the request, and `halt` does not return as long as babeltrace
    runs, which is ended only after that. -/
theorem early_halt_hangs (t : State) (h : Alone { main := .joining, worker := .loop, processing := true } t) : t.main = .joining := by
  have key : t = { main := .joining, worker := .loop, processing := true } := by
    induction h with
    | refl => rfl
    | @step t t' a _ ha hs ih =>
      subst ih
      cases a with
      | join => cases hs
      | worker => cases hs; rfl
      | _ => cases ha
  rw [key]

/-- **C71 fails:** the same if the worker waits for the rest of a line. -/
theorem halt_in_line_hangs : Reachable { main := .joining, worker := .reading, processing := false } ∧
    ∀ t, Alone { main := .joining, worker := .reading, processing := false } t → t.main = .joining := by
  refine ⟨.step (a := .halt) (.step (a := .partLine) (.step (a := .worker) (.step (a := .init) .init rfl) rfl) rfl) rfl, ?_⟩
  intro t h
  have key : t = { main := .joining, worker := .reading, processing := false } := by
    induction h with
    | refl => rfl
    | @step t t' a _ ha hs ih =>
      subst ih
      cases a with
      | join => cases hs
      | worker => cases hs
      | _ => cases ha
  rw [key]

theorem not_halt_returns : ¬ HaltReturns := by
  intro h
  obtain ⟨t, h1, h2⟩ := h _ early_halt_reachable rfl
  rw [early_halt_hangs t h1] at h2
  cases h2

/-- The hypotheses of `halt_returns_partial` are met. -/
example : ∃ s, Reachable s ∧ s.main = .running ∧ s.worker = .loop := ⟨_, .step (a := .worker) (.step (a := .init) .init rfl) rfl, rfl, rfl⟩

/-- The tool can be started again after `halt`; at no time are there two workers. -/
theorem worker_exists_iff (s : State) (h : Reachable s) : s.main = .idle ↔ s.worker = .none := by
  induction h with
  | init => simp
  | @step s s' a _ hs ih =>
    cases a <;> simp only [step] at hs <;> grind

end Scalopus.C71

namespace Scalopus.C72

open LttngTool

/-- **C72** in full: after a process was started, one process executes this program, at most one other babeltrace, and a signal sent by `halt` goes to that process only. -/
def OnlyBabeltrace : Prop := ∀ fork dupOk execOk, (∀ child, fork = some child → 0 < child) →
  ∃ p, (run fork dupOk execOk).filter (·.program = .own) = [p] ∧ ∀ child, fork = some child → killTarget p.pid = .process child

/-- **C72, partial.** It holds if `fork`, `dup2` and `execvp` succeed. -/
theorem only_babeltrace_partial (child : Nat) (hc : 0 < child) :
    (run (some child) true true).filter (·.program = .own) = [⟨.own, child⟩] ∧ killTarget child = .process child := by
  refine ⟨by simp [run, List.filter], ?_⟩
  unfold killTarget
  rw [if_pos (by omega)]
  simp

/-- **C72 fails:** if babeltrace is not installed, `execvp` fails and the forked process goes on as a second copy of the program, with its own copy of everything the program was doing;
    its `halt` signals the process group, to which the first one belongs. -/
theorem failed_exec_runs_twice (child : Nat) (dupOk : Bool) :
    (run (some child) dupOk false).filter (·.program = .own) = [⟨.own, child⟩, ⟨.own, 0⟩] ∧ killTarget 0 = .group := by
  cases dupOk <;> simp [run, List.filter, killTarget]

theorem not_only_babeltrace : ¬ OnlyBabeltrace := by
  intro h
  obtain ⟨p, hp, _⟩ := h (some 7) true false (by simp)
  rw [(failed_exec_runs_twice 7 true).1] at hp
  simp at hp

/-- **C72 fails:** if `fork` fails, `halt` sends the signal to every process that the user may signal. -/
theorem failed_fork_signals_everyone (dupOk execOk : Bool) : run none dupOk execOk = [⟨.own, -1⟩] ∧ killTarget (-1) = .everyone := by
  simp [run, killTarget]

end Scalopus.C72
