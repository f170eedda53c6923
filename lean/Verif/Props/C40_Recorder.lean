import Verif.Model.Recorder
import Verif.Proofs.Session

/-!
# C40, C41: the recorder
-/

namespace Scalopus.C40

open Recorder Session JsonText

/-- **C40.** The text written is a JSON array of all events of all sources, in the order of the sources; each source is stopped and then finished once. -/
theorem file_exact (results : List (List J)) (h : ∀ l ∈ results, ∀ j ∈ l, Clean j) :
    ∃ text, collectEvents (results.map .ok) =
        ((List.range results.length).map .stopSource ++ (List.range results.length).map .finishSource, .ok text) ∧
      read text = some (.arr results.flatten) := by
  obtain ⟨ts, hts⟩ := forall_written results.flatten (fun j hj => by
    obtain ⟨l, hl, hj⟩ := List.mem_flatten.mp hj
    exact h l hl j hj)
  obtain ⟨n, hn, hr⟩ := array_read ['\n'] ['\n'] ['\n'] (by decide) (by decide) (by decide) results.flatten ts hts
  refine ⟨"[\n".toList ++ sepBy ",\n".toList ts ++ "\n]\n".toList, ?_, ?_⟩
  · unfold collectEvents
    rw [finishAll_ok]
    simp only [formatFile, dumpAll_of _ ts hts, Option.map_some, List.length_map, Nat.zero_add]
  · have := read_of _ _ n hr [] ['\n'] rfl (by decide) (by simp at hn ⊢; omega)
    simpa using this

/-- An example with two sources. -/
example := file_exact [[.null, .obj [(some ['a'], .num ['1'])]], [.bool true]] (by
  simp only [List.mem_cons, List.not_mem_nil, or_false, forall_eq_or_imp, forall_eq]
  refine ⟨⟨.null, ?_⟩, .bool true⟩
  apply Clean.obj <;> simp only [List.mem_cons, List.not_mem_nil, or_false, forall_eq, Option.isSome_some]
  exact .num _ (by decide) (by decide))

/-- An event with a string that is not UTF-8 makes the recorder fail: nothing is written. -/
theorem bad_name_fails (l1 l2 : List J) (h : ∀ j ∈ l1, Clean j) : (collectEvents [.ok (l1 ++ [.str none] ++ l2)]).2 = .throws "type_error" := by
  have hd : dumpAll (l1 ++ .str none :: l2) = none := by
    induction l1 with
    | nil => rfl
    | cons j l1 ih =>
      rw [List.cons_append, dumpAll, ih (fun x hx => h x (by simp [hx]))]
      cases dump j <;> rfl
  simp only [collectEvents, finishAll, Res.bind, List.append_nil, formatFile, List.append_assoc, List.singleton_append, hd, Option.map_none]

end Scalopus.C40

namespace Scalopus.C41

open Recorder JsonText

/-- A state of a recorder that can be reached. -/
inductive Reachable : State → Prop
  | init : Reachable {}
  | step {s s' : State} {o : Op} : Reachable s → s.destroyed = false → step s o = .ok s' → Reachable s'

/-- **C41** in full: calls never fail, whatever the order, as long as the sources do not fail. -/
def AnyOrder : Prop :=
  ∀ s, Reachable s → s.destroyed = false → (∃ s', step s .start = .ok s') ∧ (∃ s', step s .stop = .ok s') ∧ ∃ s', step s (.destroy []) = .ok s'

/-- **C41 fails**: a recorder that was never started cannot be destroyed. -/
theorem unstarted_cannot_be_destroyed : step {} (.destroy []) = .terminate := rfl

theorem any_order_fails : ¬ AnyOrder := by
  intro h
  obtain ⟨_, _, s', h⟩ := h {} .init rfl
  rw [unstarted_cannot_be_destroyed] at h
  cases h

/-- Nor can one that was started and stopped. -/
theorem stopped_cannot_be_destroyed : run {} [.addProvider, .start, .stop, .destroy []] = .terminate := rfl

theorem joinable_iff {s : State} (h : Reachable s) : s.joinable = s.running := by
  induction h with
  | init => rfl
  | @step s s' o _ _ e ih =>
    cases o <;> simp only [Recorder.step] at e
    · simp only [Res.ok.injEq] at e; subst e; exact ih
    · cases hr : s.running with
      | true => rw [hr] at e; simp only [if_true, Res.ok.injEq] at e; subst e; exact ih
      | false =>
        rw [hr] at ih
        rw [hr, ih] at e
        simp only [Bool.false_eq_true, if_false, Res.ok.injEq] at e
        subst e; rfl
    · simp only [Recorder.stop] at e
      split at e <;> simp only [Res.ok.injEq, reduceCtorEq] at e
      subst e; rfl
    · simp only [Res.ok.injEq] at e; subst e; exact ih
    · split at e
      · rename_i s1 h1
        simp only [Recorder.stop] at h1
        split at h1 <;> simp only [Res.ok.injEq, reduceCtorEq] at h1
        subst h1
        split at e
        · split at e <;> simp only [Res.ok.injEq, reduceCtorEq] at e
          subst e; rfl
        · simp only [Res.ok.injEq] at e
          subst e; rfl
      · cases e

/-- **C41, partial.** Starting always works, and afterwards there is a source for each provider unless the recorder was running before; stopping works exactly while the recorder runs, and so does
    destruction when the sources give events that can be written. Missing: stopping and destroying a recorder that does not run. -/
theorem lifecycle_partial {s : State} (h : Reachable s) :
    (∃ s', step s .start = .ok s' ∧ s'.running = true ∧ (s.running = false → s'.sources = s.providers) ∧ (s.running = true → s' = s)) ∧
    ((∃ s', step s .stop = .ok s') ↔ s.running = true) ∧
    (∀ s', step s .stop = .ok s' → s'.running = false) ∧
    (s.running = false → step s .stop = .throws "system_error" ∧ ∀ r, step s (.destroy r) = .terminate) ∧
    ∀ results : List (List J), (∀ l ∈ results, ∀ j ∈ l, Clean j) → s.running = true → ∃ s', step s (.destroy (results.map .ok)) = .ok s' := by
  have hj := joinable_iff h
  refine ⟨?_, ?_, ?_, ?_, ?_⟩
  · cases hr : s.running with
    | true => exact ⟨s, by simp [step, hr], hr, by simp, by simp⟩
    | false => exact ⟨_, by simp [step, hr, hj]; rfl, rfl, by simp, by simp⟩
  · simp only [step, stop, hj]
    cases hr : s.running <;> simp
  · intro s' e
    simp only [step, stop] at e
    split at e <;> simp only [Res.ok.injEq, reduceCtorEq] at e
    subst e; rfl
  · intro hr
    simp [step, stop, hj, hr]
  · intro results hc hr
    obtain ⟨t, e, _⟩ := C40.file_exact results hc
    simp only [step, stop, hj, hr, if_true]
    cases hd : s.dump
    · exact ⟨_, rfl⟩
    · simp only [if_true, e]
      exact ⟨_, rfl⟩

/-- A recorder that records twice. -/
example : run {} [.addProvider, .addProvider, .start, .stop, .addProvider, .start, .setupDumpFile, .destroy [.ok [.null]]] =
    .ok { providers := 3, sources := 3, dump := true, destroyed := true } := by decide +kernel

theorem providers_counted (os : List Op) : ∀ (s s' : State), run s os = .ok s' → s'.providers = s.providers + (os.filter fun o => match o with | .addProvider => true | _ => false).length := by
  induction os with
  | nil => intro s s' e; simp only [run, Res.ok.injEq] at e; subst e; rfl
  | cons o os ih =>
    intro s s' e
    simp only [run] at e
    cases h1 : step s o with
    | ok t =>
      rw [h1] at e
      have := ih t s' e
      rw [this]
      cases o <;> simp only [step] at h1
      · simp only [Res.ok.injEq] at h1; subst h1; simp; omega
      · split at h1
        · simp only [Res.ok.injEq] at h1; subst h1; simp
        · split at h1 <;> simp only [Res.ok.injEq, reduceCtorEq] at h1
          subst h1; simp
      · simp only [Recorder.stop] at h1
        split at h1 <;> simp only [Res.ok.injEq, reduceCtorEq] at h1
        subst h1; simp
      · simp only [Res.ok.injEq] at h1; subst h1; simp
      · split at h1
        · rename_i s1 hs
          simp only [Recorder.stop] at hs
          split at hs <;> simp only [Res.ok.injEq, reduceCtorEq] at hs
          subst hs
          split at h1
          · split at h1 <;> simp only [Res.ok.injEq, reduceCtorEq] at h1
            subst h1; simp
          · simp only [Res.ok.injEq] at h1; subst h1; simp
        · cases h1
    | throws _ => rw [h1] at e; cases e
    | ub => rw [h1] at e; cases e
    | terminate => rw [h1] at e; cases e

/-- **C41.** A start that is not repeated makes a source for every provider that was added, whenever it was. -/
theorem start_all_providers (os : List Op) (s s' : State) (e : run {} os = .ok s) (hr : s.running = false) (h : step s .start = .ok s') :
    s'.sources = (os.filter fun o => match o with | .addProvider => true | _ => false).length := by
  have := providers_counted os {} s e
  simp only [step, hr] at h
  simp only [Bool.false_eq_true, if_false] at h
  split at h <;> simp only [Res.ok.injEq, reduceCtorEq] at h
  subst h
  simpa using this

example : ∃ s, run {} [.addProvider, .start, .stop, .addProvider] = .ok s ∧ s.running = false ∧ ∃ s', step s .start = .ok s' := ⟨_, rfl, rfl, _, rfl⟩

end Scalopus.C41
