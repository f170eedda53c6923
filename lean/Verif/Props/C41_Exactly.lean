import Verif.Props.C40_Recorder
import Mathlib.Data.List.Induction

/-!
# C41: exactly which sequences of calls work
-/

namespace Scalopus.C41

open Recorder JsonText

/-- After these calls the recorder runs: it was started, and not stopped afterwards. -/
def Running (os : List Op) : Prop := ∃ a b, os = a ++ Op.start :: b ∧ Op.stop ∉ b

/-- Every stop in these calls comes while the recorder runs. -/
def StopsOnlyRunning (os : List Op) : Prop := ∀ pre post, os = pre ++ Op.stop :: post → Running pre

theorem run_snoc (os : List Op) (o : Op) : ∀ s, run s (os ++ [o]) = (run s os).bind fun s' => step s' o := by
  induction os with
  | nil => intro s; simp only [List.nil_append, run, Res.bind]; cases step s o <;> rfl
  | cons p os ih =>
    intro s
    simp only [List.cons_append, run]
    cases step s p <;> simp [Res.bind, ih]

theorem running_nil : ¬ Running [] := by
  rintro ⟨a, b, h, -⟩
  simp at h

theorem running_snoc_start (os : List Op) : Running (os ++ [.start]) := ⟨os, [], rfl, by simp⟩

theorem running_snoc (os : List Op) (o : Op) (h1 : o ≠ .start) (h2 : o ≠ .stop) : Running (os ++ [o]) ↔ Running os := by
  constructor
  · rintro ⟨a, b, e, hb⟩
    rcases List.eq_nil_or_concat b with rfl | ⟨b', x, rfl⟩
    · have := List.append_inj' e rfl
      simp only [List.cons.injEq, and_true] at this
      exact absurd this.2 h1
    · have e' : os ++ [o] = (a ++ Op.start :: b') ++ [x] := by rw [e]; simp
      exact ⟨a, b', (List.append_inj' e' rfl).1, fun h => hb (by simp [h])⟩
  · rintro ⟨a, b, rfl, hb⟩
    exact ⟨a, b ++ [o], by simp, by simp [hb, Ne.symm h2]⟩

theorem not_running_snoc_stop (os : List Op) : ¬ Running (os ++ [.stop]) := by
  rintro ⟨a, b, e, hb⟩
  rcases List.eq_nil_or_concat b with rfl | ⟨b', x, rfl⟩
  · have := List.append_inj' e rfl
    simp at this
  · have e' : os ++ [Op.stop] = (a ++ Op.start :: b') ++ [x] := by rw [e]; simp
    have := (List.append_inj' e' rfl).2
    simp only [List.cons.injEq, and_true] at this
    subst this
    simp at hb

theorem stops_snoc (os : List Op) (o : Op) : StopsOnlyRunning (os ++ [o]) ↔ StopsOnlyRunning os ∧ (o = .stop → Running os) := by
  constructor
  · intro h
    exact ⟨fun pre post e => h pre (post ++ [o]) (by rw [e]; simp), fun e => h os [] (by rw [e])⟩
  · rintro ⟨h1, h2⟩ pre post e
    rcases List.eq_nil_or_concat post with rfl | ⟨p', x, rfl⟩
    · have := List.append_inj' e rfl
      simp only [List.cons.injEq, and_true] at this
      rw [← this.1]; exact h2 this.2
    · have e' : os ++ [o] = (pre ++ Op.stop :: p') ++ [x] := by rw [e]; simp
      exact h1 pre p' (List.append_inj' e' rfl).1

/-- The calls before the destruction, and where they lead. -/
theorem calls (os : List Op) (hd : ∀ r, Op.destroy r ∉ os) :
    (StopsOnlyRunning os → ∃ s, run {} os = .ok s ∧ s.joinable = s.running ∧ (s.running = true ↔ Running os)) ∧
    (¬ StopsOnlyRunning os → run {} os = .throws "system_error") := by
  induction os using List.reverseRecOn with
  | nil =>
    refine ⟨fun _ => ⟨{}, rfl, rfl, by simp [running_nil]⟩, fun h => absurd ?_ h⟩
    intro pre post e; simp at e
  | append_singleton os o ih =>
    obtain ⟨ih1, ih2⟩ := ih (fun r h => hd r (by simp [h]))
    rw [run_snoc, stops_snoc]
    by_cases hs : StopsOnlyRunning os
    · obtain ⟨s, e, hj, hr⟩ := ih1 hs
      rw [e]
      simp only [Res.bind]
      cases o with
      | addProvider => exact ⟨fun _ => ⟨_, rfl, hj, by rw [running_snoc _ _ (by simp) (by simp)]; exact hr⟩, fun h => absurd ⟨hs, by simp⟩ h⟩
      | setupDumpFile => exact ⟨fun _ => ⟨_, rfl, hj, by rw [running_snoc _ _ (by simp) (by simp)]; exact hr⟩, fun h => absurd ⟨hs, by simp⟩ h⟩
      | destroy r => exact absurd (by simp) (hd r)
      | start =>
        refine ⟨fun _ => ?_, fun h => absurd ⟨hs, by simp⟩ h⟩
        simp only [step]
        cases hrun : s.running with
        | true => exact ⟨s, by simp, by rw [hj], by simp [hrun, running_snoc_start]⟩
        | false => exact ⟨_, by simp [hj, hrun]; rfl, rfl, by simp [running_snoc_start]⟩
      | stop =>
        simp only [step, stop, hj]
        cases hrun : s.running with
        | true =>
          refine ⟨fun _ => ⟨_, by simp; rfl, rfl, by simp [not_running_snoc_stop]⟩, fun h => absurd ⟨hs, fun _ => hr.1 hrun⟩ h⟩
        | false =>
          refine ⟨fun h => ?_, fun _ => by simp⟩
          have := hr.2 (h.2 trivial)
          rw [hrun] at this; cases this
    · rw [ih2 hs]
      exact ⟨fun h => absurd h.1 hs, fun _ => rfl⟩

/-- **C41, exactly, without the destruction.** For every sequence of calls: all of them work if and only if every stop comes while the recorder runs. -/
theorem calls_work_iff (os : List Op) (hd : ∀ r, Op.destroy r ∉ os) : (run {} os).isOk = true ↔ StopsOnlyRunning os := by
  obtain ⟨h1, h2⟩ := calls os hd
  by_cases hs : StopsOnlyRunning os
  · obtain ⟨s, e, -⟩ := h1 hs
    simp [e, hs, Res.isOk]
  · simp [h2 hs, hs, Res.isOk]

/-- **C41, exactly, with the destruction.** A sequence of calls that ends with the destruction works if and only if every stop comes while the recorder runs and the recorder runs when it is destroyed; if only
    the last fails, the process is terminated. -/
theorem destroy_works_iff (os : List Op) (hd : ∀ r, Op.destroy r ∉ os) (results : List (List J)) (hc : ∀ l ∈ results, ∀ j ∈ l, Clean j) :
    ((run {} (os ++ [.destroy (results.map .ok)])).isOk = true ↔ StopsOnlyRunning os ∧ Running os) ∧
    (run {} (os ++ [.destroy (results.map .ok)]) = .terminate ↔ StopsOnlyRunning os ∧ ¬ Running os) := by
  obtain ⟨h1, h2⟩ := calls os hd
  rw [run_snoc]
  by_cases hs : StopsOnlyRunning os
  · obtain ⟨s, e, hj, hr⟩ := h1 hs
    rw [e]
    simp only [Res.bind]
    by_cases hrun : s.running = true
    · obtain ⟨t, e', _⟩ := C40.file_exact results hc
      have : ∃ s', step s (.destroy (results.map .ok)) = .ok s' := by
        simp only [step, stop, hj, hrun, if_true]
        cases hdump : s.dump
        · exact ⟨_, rfl⟩
        · simp only [if_true, e']
          exact ⟨_, rfl⟩
      obtain ⟨s', e2⟩ := this
      simp [e2, Res.isOk, hs, hr.1 hrun]
    · have hn : ¬ Running os := fun h => hrun (hr.2 h)
      have e2 : step s (.destroy (results.map .ok)) = .terminate := by
        simp only [Bool.not_eq_true] at hrun
        simp [step, stop, hj, hrun]
      simp [e2, Res.isOk, hs, hn]
  · simp [h2 hs, Res.bind, Res.isOk, hs]

/-- A recorder that is started twice, stopped once and started again; and one that is stopped twice. -/
example : StopsOnlyRunning [.addProvider, .start, .start, .stop, .start] ∧ Running [.addProvider, .start, .start, .stop, .start] ∧ ¬ StopsOnlyRunning [.start, .stop, .stop] := by
  refine ⟨(calls_work_iff _ (by simp)).1 (by decide +kernel), ⟨[.addProvider, .start, .start, .stop], [], rfl, by simp⟩, fun h => ?_⟩
  have := (calls_work_iff _ (by simp)).2 h
  revert this
  decide +kernel

end Scalopus.C41
