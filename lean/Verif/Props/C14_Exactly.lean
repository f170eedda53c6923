import Verif.Props.C14_Loopback

/-!
# C14: exactly which histories crash
-/

namespace Scalopus.C14

open Protocol Loopback

/-- A request that waits, whose future is held, for an endpoint that the server does not have. -/
def Fatal (s : State) : Prop := ∃ (i : Nat) (q : Req), s.done ≤ i ∧ s.reqs[i]? = some q ∧ q.held = true ∧ q.endpoint ∉ s.serverEndpoints

theorem one_outcome {H : Oracle} (hH : ∀ n ep p, H n ep p ≠ .throws) (s : State) (i : Nat) :
    ((∃ q, s.reqs[i]? = some q ∧ q.held = true ∧ q.endpoint ∉ s.serverEndpoints) ∧ serveOne H s i = .ub) ∨
    ((∀ q, s.reqs[i]? = some q → q.held = true → q.endpoint ∈ s.serverEndpoints) ∧
      ∃ s', serveOne H s i = .ok s' ∧ s'.serverEndpoints = s.serverEndpoints ∧ s'.done = s.done ∧ s'.reqs.length = s.reqs.length ∧ ∀ j, j ≠ i → s'.reqs[j]? = s.reqs[j]?) := by
  unfold serveOne
  cases hq : s.reqs[i]? with
  | none => exact .inr ⟨by simp, s, rfl, rfl, rfl, rfl, fun _ _ => rfl⟩
  | some q =>
    simp only [Option.some.injEq, exists_eq_left', forall_eq']
    by_cases hh : q.held = false
    · exact .inr ⟨by simp [hh], s, by rw [if_pos hh], rfl, rfl, rfl, fun _ _ => rfl⟩
    · have hh' : q.held = true := by simpa using hh
      by_cases he : q.endpoint ∉ s.serverEndpoints
      · exact .inl ⟨⟨hh', he⟩, by rw [if_neg hh, if_pos he]⟩
      · refine .inr ⟨fun _ => Classical.byContradiction he, ?_⟩
        rw [if_neg hh, if_neg he]
        have hmod : ∀ (f : Req → Req) (j : Nat), j ≠ i → (s.reqs.modify i f)[j]? = s.reqs[j]? := by
          intro f j hj
          rw [getElem?_modify', if_neg hj]
        cases hr : H s.calls.length q.endpoint q.payload with
        | answers d => exact ⟨_, rfl, rfl, rfl, by simp, hmod _⟩
        | declines => exact ⟨_, rfl, rfl, rfl, by simp, hmod _⟩
        | throws => exact absurd hr (hH _ _ _)

theorem many_outcome {H : Oracle} (hH : ∀ n ep p, H n ep p ≠ .throws) (n : Nat) : ∀ s : State,
    (serveMany H s n = .ub ∧ ∃ (i : Nat) (q : Req), s.done ≤ i ∧ i < s.done + n ∧ s.reqs[i]? = some q ∧ q.held = true ∧ q.endpoint ∉ s.serverEndpoints) ∨
    ((serveMany H s n).isOk = true ∧ ∀ (i : Nat) (q : Req), s.done ≤ i → i < s.done + n → s.reqs[i]? = some q → q.held = true → q.endpoint ∈ s.serverEndpoints) := by
  induction n with
  | zero => intro s; exact .inr ⟨rfl, fun i q h1 h2 => by omega⟩
  | succ n ih =>
    intro s
    rcases one_outcome hH s s.done with ⟨⟨q, h1, h2, h3⟩, h⟩ | ⟨h1, s', h2, h3, h4, -, h5⟩
    · exact .inl ⟨by simp [serveMany, h, Res.bind], s.done, q, Nat.le_refl _, by omega, h1, h2, h3⟩
    · have e : serveMany H s (n + 1) = serveMany H { s' with done := s'.done + 1 } n := by simp [serveMany, h2, Res.bind]
      rw [e]
      rcases ih { s' with done := s'.done + 1 } with ⟨g1, i, q, g2, g3, g4, g5, g6⟩ | ⟨g1, g2⟩
      · simp only [h4, h3] at g2 g3 g4 g6
        rw [h5 i (by omega)] at g4
        exact .inl ⟨g1, i, q, by omega, by omega, g4, g5, g6⟩
      · refine .inr ⟨g1, fun i q k1 k2 k3 k4 => ?_⟩
        by_cases hi : i = s.done
        · subst hi; exact h1 q k3 k4
        · have := g2 i q (by simp only [h4]; omega) (by simp only [h4]; omega) (by simp only; rw [h5 i hi]; exact k3) k4
          rw [← h3]; exact this

theorem work_outcome {H : Oracle} (hH : ∀ n ep p, H n ep p ≠ .throws) (s : State) : (step H s .work = .ub ∧ Fatal s) ∨ ((step H s .work).isOk = true ∧ ¬ Fatal s) := by
  simp only [step, serveRequests]
  rcases many_outcome hH (s.reqs.length - s.done) s with ⟨h, i, q, h1, -, h3⟩ | ⟨h, h1⟩
  · exact .inl ⟨h, i, q, h1, h3⟩
  · refine .inr ⟨h, ?_⟩
    rintro ⟨i, q, k1, k2, k3, k4⟩
    have := (List.getElem?_eq_some_iff.mp k2).1
    exact k4 (h1 i q k1 (by omega) k2 k3)

/-- **C14, exactly.** With handlers that do not throw, a visit of the worker crashes exactly if a request waits, whose future is held, for an endpoint that the server does not have; otherwise it ends normally. -/
theorem work_crashes_iff (H : Oracle) (hH : ∀ n ep p, H n ep p ≠ .throws) (s : State) : (step H s .work = .ub ↔ Fatal s) ∧ ((step H s .work).isOk = true ↔ ¬ Fatal s) := by
  rcases work_outcome hH s with ⟨h1, h2⟩ | ⟨h1, h2⟩
  · rw [h1]; simp [h2, Res.isOk]
  · refine ⟨⟨fun h => ?_, fun h => absurd h h2⟩, by simp [h1, h2]⟩
    rw [h] at h1; cases h1

/-- **C14, all histories.** With handlers that do not throw, a history crashes exactly if the worker comes by, at some point of it, while such a request waits; all other histories end normally. -/
theorem crashes_iff (H : Oracle) (hH : ∀ n ep p, H n ep p ≠ .throws) (as : List Act) :
    (run H {} as = .ub ↔ ∃ pre post s, as = pre ++ .work :: post ∧ run H {} pre = .ok s ∧ Fatal s) ∧ (run H {} as ≠ .ub → (run H {} as).isOk = true) := by
  suffices h : ∀ s0 : State, (run H s0 as = .ub ↔ ∃ pre post s, as = pre ++ .work :: post ∧ run H s0 pre = .ok s ∧ Fatal s) ∧ (run H s0 as ≠ .ub → (run H s0 as).isOk = true) from h {}
  induction as with
  | nil => intro s0; simp [run, Res.isOk]
  | cons a as ih =>
    intro s0
    have hnext : ∀ s1, step H s0 a = .ok s1 → (a = .work → ¬ Fatal s0) →
        (run H s0 (a :: as) = .ub ↔ ∃ pre post s, a :: as = pre ++ .work :: post ∧ run H s0 pre = .ok s ∧ Fatal s) ∧ (run H s0 (a :: as) ≠ .ub → (run H s0 (a :: as)).isOk = true) := by
      intro s1 h1 hw
      have e : ∀ l, run H s0 (a :: l) = run H s1 l := fun l => by simp [run, h1, Res.bind]
      rw [e as]
      refine ⟨?_, (ih s1).2⟩
      rw [(ih s1).1]
      constructor
      · rintro ⟨pre, post, s, rfl, h2, h3⟩
        exact ⟨a :: pre, post, s, rfl, by rw [e]; exact h2, h3⟩
      · rintro ⟨pre, post, s, h2, h3, h4⟩
        cases pre with
        | nil =>
          simp only [List.nil_append, List.cons.injEq] at h2
          simp only [run, Res.ok.injEq] at h3
          subst h3
          exact absurd h4 (hw h2.1)
        | cons b pre =>
          simp only [List.cons_append, List.cons.injEq] at h2
          obtain ⟨rfl, rfl⟩ := h2
          rw [e] at h3
          exact ⟨pre, post, s, rfl, h3, h4⟩
    cases a with
    | request ep p => exact hnext _ rfl (fun h => by cases h)
    | drop i => exact hnext _ rfl (fun h => by cases h)
    | addServerEndpoint n => exact hnext _ rfl (fun h => by cases h)
    | work =>
      rcases work_outcome hH s0 with ⟨h1, h2⟩ | ⟨h1, h2⟩
      · have : run H s0 (.work :: as) = .ub := by simp [run, h1, Res.bind]
        rw [this]
        simp only [true_iff, ne_eq, not_true_eq_false, false_imp_iff, and_true]
        exact ⟨[], as, s0, rfl, rfl, h2⟩
      · cases hs : step H s0 .work with
        | ok s1 => exact hnext s1 hs fun _ => h2
        | _ => rw [hs] at h1; cases h1

/-- Two histories, with and without such a request: a future that is dropped in time saves the process. -/
example : run (fun _ _ _ => .declines) {} [.request [1] [], .work] = .ub ∧ (run (fun _ _ _ => .declines) {} [.request [1] [], .drop 0, .work]).isOk = true := by decide

end Scalopus.C14
