import Verif.Spec.Scopes
import Verif.Props.C21_TraceState

/-!
# Programs with scopes: what an execution does to the switches and the log
-/

namespace Scalopus.Scopes

open TraceState

theorem other_of {t : Nat} {x : Act} (h : Other t x) : x.of t = false := by
  cases x <;> simp_all [Other, Act.of]

theorem eventsOf_append (t : Nat) (l1 l2 : List Obs) : eventsOf t (l1 ++ l2) = eventsOf t l1 ++ eventsOf t l2 :=
  List.filterMap_append

theorem other_step_events {a : Spec.State} {t : Nat} {x : Act} (h : Other t x) :
    eventsOf t (Spec.step a x).log = eventsOf t a.log := by
  cases x <;> simp only [Spec.step, Spec.State.out, Spec.State.upd] <;> (repeat' split) <;>
    simp_all [eventsOf, Other]

/-- The thread's state is unchanged by another thread's step, but for its switch. -/
theorem no_hit {s : State} {a : Spec.State} (hR : R s a) {t : Nat} {x : Act} (ho : Other t x) (hh : ¬ Hits t s x) : C22.sets a t x = none := by
  cases x with
  | setThread t' b =>
    simp only [Other] at ho
    simp [C22.sets, ho]
  | remoteStore h tid b =>
    simp only [C22.sets]
    rw [if_neg]
    intro hc
    apply hh
    cases hs : a.snaps[h]? with
    | none => rw [hs] at hc; simp at hc
    | some old =>
      rw [hs] at hc
      simp only [Option.bind_some] at hc
      have hlt := (List.getElem?_eq_some_iff.mp hs).1
      rw [← hR.snapLen] at hlt
      have hm : s.snaps[h]? = some s.snaps[h] := by simp [hlt]
      obtain ⟨h5, h6⟩ := hR.snap h _ _ tid hm hs
      cases hk : s.snaps[h].lookup tid with
      | none => rw [h6 hk] at hc; simp at hc
      | some c =>
        obtain ⟨y, hy, hw⟩ := h5 c hk
        rw [hw] at hc
        simp only [Option.some.injEq] at hc
        exact ⟨h, tid, b, _, c, y, rfl, hm, hk, hy, hc⟩
  | _ => rfl

/-- Assumptions on the other threads: they leave the thread's switch (or the process switch) alone. -/
def QuietT (env : State → Act → Prop) (t : Nat) : Prop := ∀ s x, env s x → ¬ Hits t s x
def QuietP (env : State → Act → Prop) : Prop := ∀ s x, env s x → ¬ SetsProcess x

theorem env_keep {env : State → Act → Prop} {t : Nat} (he : ∀ s x, env s x → Other t x) {s s' : State} (E : Env env s s') :
    ∀ {a : Spec.State} {x : Spec.Thread}, R s a → a.threads[t]? = some x →
    ∃ (a' : Spec.State) (x' : Spec.Thread), R s' a' ∧ a'.threads[t]? = some x' ∧ x'.pc = x.pc ∧ x'.ended = x.ended ∧
      (QuietT env t → x'.on = x.on) ∧ (QuietP env → a'.process = a.process) ∧ eventsOf t a'.log = eventsOf t a.log := by
  induction E with
  | refl s => intro a x hR hx; exact ⟨a, x, hR, hx, rfl, rfl, fun _ => rfl, fun _ => rfl, rfl⟩
  | step y hy hs _ ih =>
    intro a x hR hx
    have ho := he _ _ hy
    obtain ⟨x1, h1, h2, h3, h4⟩ := spec_pc_step a y t (other_of ho) x hx
    obtain ⟨a', x', g1, g2, g3, g4, g5, g6, g7⟩ := ih (R_step hR y hs) h1
    refine ⟨a', x', g1, g2, g3.trans h2, g4.trans h4, fun hq => (g5 hq).trans ?_, fun hq => (g6 hq).trans ?_,
      g7.trans (other_step_events ho)⟩
    · have := C22.on_step a y t x.on x hx rfl
      rw [no_hit hR ho (hq _ _ hy), h1] at this
      simpa using this
    · rw [spec_process_step]
      have := hq _ _ hy
      cases y <;> simp_all [SetsProcess]

/-- What holds of a thread that is between two operations of its program. -/
structure At (s : State) (t : Nat) (a : Spec.State) (x : Spec.Thread) : Prop where
  r : R s a
  thread : a.threads[t]? = some x
  idle : x.pc = .idle
  alive : x.ended = false

theorem env_at {env : State → Act → Prop} {t : Nat} (he : ∀ s x, env s x → Other t x) {s s' : State} (E : Env env s s')
    {a : Spec.State} {x : Spec.Thread} (h : At s t a x) :
    ∃ (a' : Spec.State) (x' : Spec.Thread), At s' t a' x' ∧
      (QuietT env t → x'.on = x.on) ∧ (QuietP env → a'.process = a.process) ∧ eventsOf t a'.log = eventsOf t a.log := by
  obtain ⟨a', x', g1, g2, g3, g4, g5, g6, g7⟩ := env_keep he E h.r h.thread
  exact ⟨a', x', ⟨g1, g2, g3.trans h.idle, g4.trans h.alive⟩, g5, g6, g7⟩

theorem call_at {env : State → Act → Prop} {t : Nat} (he : ∀ s x, env s x → Other t x) {be : Backend} {p : Point} {s s' : State}
    (C : Call env t be p s s') {a : Spec.State} {x : Spec.Thread} (h : At s t a x) :
    ∃ (a' : Spec.State) (x' : Spec.Thread), At s' t a' x' ∧ (QuietT env t → x'.on = x.on) ∧ (QuietP env → a'.process = a.process) ∧
      (QuietT env t → QuietP env → eventsOf t a'.log = eventsOf t a.log ++ emits be a.process x.on p) := by
  obtain ⟨E1, S1, E2, S2, E3, S3, E4⟩ := C
  obtain ⟨a1, x1, h1, on1, pr1, ev1⟩ := env_at he E1 h
  by_cases hbe : be = .nop
  · subst hbe
    -- nothing happens
    have r2 := R_step h1.r _ S1
    have e2 : Spec.step a1 (.reach t .nop p) = a1 := by simp [Spec.step, h1.thread]
    rw [e2] at r2
    obtain ⟨a3, x3, h3, on3, pr3, ev3⟩ := env_at he E2 ⟨r2, h1.thread, h1.idle, h1.alive⟩
    have r4 := R_step h3.r _ S2
    have e4 : Spec.step a3 (.loadProcess t) = a3 := by simp [Spec.step, h3.thread, h3.idle]
    rw [e4] at r4
    obtain ⟨a5, x5, h5, on5, pr5, ev5⟩ := env_at he E3 ⟨r4, h3.thread, h3.idle, h3.alive⟩
    have r6 := R_step h5.r _ S3
    have e6 : Spec.step a5 (.loadThread t) = a5 := by simp [Spec.step, h5.thread, h5.idle]
    rw [e6] at r6
    obtain ⟨a7, x7, h7, on7, pr7, ev7⟩ := env_at he E4 ⟨r6, h5.thread, h5.idle, h5.alive⟩
    refine ⟨a7, x7, h7, fun q => ?_, fun q => ?_, fun _ _ => ?_⟩
    · rw [on7 q, on5 q, on3 q, on1 q]
    · rw [pr7 q, pr5 q, pr3 q, pr1 q]
    · rw [ev7, ev5, ev3, ev1]; simp [emits, record]
  · have hf : x1.free = true := by simp [Spec.Thread.free, h1.idle, h1.alive]
    have r2 := R_step h1.r _ S1
    have e2 : Spec.step a1 (.reach t be p) = a1.upd t fun th => { th with used := true, pc := .ready be p } := by
      simp [Spec.step, h1.thread, hf, hbe]
    rw [e2] at r2
    obtain ⟨a3, x3, k1, k2, k3, k4, on3, pr3, ev3⟩ := env_keep he E2 r2 (upd_get h1.thread _)
    have r4 := R_step k1 _ S2
    have e4 : Spec.step a3 (.loadProcess t) = a3.upd t fun th => { th with pc := if a3.process then .loaded be p else .idle } := by
      simp only [Spec.step, k2, k3]
    rw [e4] at r4
    obtain ⟨a5, x5, l1, l2, l3, l4, on5, pr5, ev5⟩ := env_keep he E3 r4 (upd_get k2 _)
    have r6 := R_step l1 _ S3
    simp only at k3 k4 on3 l3 l4 on5
    cases hpr : a3.process with
    | false =>
      rw [hpr] at l3
      simp only [Bool.false_eq_true, ↓reduceIte] at l3
      have e6 : Spec.step a5 (.loadThread t) = a5 := by simp [Spec.step, l2, l3]
      rw [e6] at r6
      obtain ⟨a7, x7, h7, on7, pr7, ev7⟩ := env_at he E4 ⟨r6, l2, l3, by rw [l4, k4]; exact h1.alive⟩
      refine ⟨a7, x7, h7, fun q => ?_, fun q => ?_, fun q q' => ?_⟩
      · rw [on7 q, on5 q, on3 q, on1 q]
      · rw [pr7 q, pr5 q]; show a3.process = _; rw [pr3 q]; show a1.process = _; rw [pr1 q]
      · have : a.process = false := by rw [← pr1 q', ← hpr, pr3 q']; rfl
        rw [ev7, ev5]
        show eventsOf t a3.log = _
        rw [ev3]
        show eventsOf t a1.log = _
        rw [ev1]; simp [emits, this]
    | true =>
      rw [hpr] at l3
      simp only [↓reduceIte] at l3
      have alive : x5.ended = false := by rw [l4, k4]; exact h1.alive
      have e6 : R _ (Spec.step a5 (.loadThread t)) := r6
      have e7 : (Spec.step a5 (.loadThread t)).threads[t]? = some { x5 with pc := .idle } ∧
          (Spec.step a5 (.loadThread t)).process = a5.process ∧
          eventsOf t (Spec.step a5 (.loadThread t)).log = eventsOf t a5.log ++ emits be true x5.on p := by
        simp only [Spec.step, l2, l3, emits]
        cases hon : x5.on with
        | false =>
          simp only [Bool.and_false, Bool.false_eq_true, ↓reduceIte, List.append_nil]
          exact ⟨by rw [upd_get l2 _, hon], rfl, rfl⟩
        | true =>
          cases hr : record be p with
          | none => exact ⟨by rw [upd_get l2 _, hon], rfl, by simp [Spec.State.upd]⟩
          | some r =>
            simp only [Spec.State.out]
            exact ⟨by rw [upd_get l2 _, hon], rfl, by rw [eventsOf_append]; simp [eventsOf, Spec.State.upd]⟩
      obtain ⟨a7, x7, h7, on7, pr7, ev7⟩ := env_at he E4 ⟨r6, e7.1, rfl, alive⟩
      refine ⟨a7, x7, h7, fun q => ?_, fun q => ?_, fun q q' => ?_⟩
      · rw [on7 q]; show x5.on = _; rw [on5 q, on3 q, on1 q]
      · rw [pr7 q, e7.2.1, pr5 q]; show a3.process = _; rw [pr3 q]; show a1.process = _; rw [pr1 q]
      · have e8 : a.process = true := by rw [← pr1 q', ← hpr, pr3 q']; rfl
        have e9 : x5.on = x.on := by rw [on5 q, on3 q, on1 q]
        rw [ev7, e7.2.2, ev5, e8, e9]
        show eventsOf t a3.log ++ _ = _
        rw [ev3]
        show eventsOf t a1.log ++ _ = _
        rw [ev1]

theorem exec_at {env : State → Act → Prop} {t : Nat} (he : ∀ s x, env s x → Other t x) {be : Backend} {s s' : State} {p : Prog} {e : Bool}
    (X : Exec env t be s p s' e) : ∀ {a : Spec.State} {x : Spec.Thread}, At s t a x →
    ∃ (a' : Spec.State) (x' : Spec.Thread), At s' t a' x' ∧ (QuietT env t → x'.on = x.on) ∧ (QuietP env → a'.process = a.process) ∧
      (QuietT env t → QuietP env → ∃ l, Trace be a.process x.on p l e ∧ eventsOf t a'.log = eventsOf t a.log ++ l) := by
  induction X with
  | skip E =>
    intro a x h
    obtain ⟨a1, x1, h1, on1, pr1, ev1⟩ := env_at he E h
    exact ⟨a1, x1, h1, on1, pr1, fun _ _ => ⟨[], .skip, by simp [ev1]⟩⟩
  | seq _ _ ih1 ih2 =>
    intro a x h
    obtain ⟨a1, x1, h1, on1, pr1, tr1⟩ := ih1 h
    obtain ⟨a2, x2, h2, on2, pr2, tr2⟩ := ih2 h1
    refine ⟨a2, x2, h2, fun q => (on2 q).trans (on1 q), fun q => (pr2 q).trans (pr1 q), fun q q' => ?_⟩
    obtain ⟨l1, t1, e1⟩ := tr1 q q'
    obtain ⟨l2, t2, e2⟩ := tr2 q q'
    rw [on1 q, pr1 q'] at t2
    exact ⟨l1 ++ l2, .seq t1 t2, by rw [e2, e1]; simp⟩
  | seqThrow _ ih1 =>
    intro a x h
    obtain ⟨a1, x1, h1, on1, pr1, tr1⟩ := ih1 h
    refine ⟨a1, x1, h1, on1, pr1, fun q q' => ?_⟩
    obtain ⟨l1, t1, e1⟩ := tr1 q q'
    exact ⟨l1, .seqThrow t1, e1⟩
  | left _ ih1 =>
    intro a x h
    obtain ⟨a1, x1, h1, on1, pr1, tr1⟩ := ih1 h
    refine ⟨a1, x1, h1, on1, pr1, fun q q' => ?_⟩
    obtain ⟨l1, t1, e1⟩ := tr1 q q'
    exact ⟨l1, .left t1, e1⟩
  | right _ ih1 =>
    intro a x h
    obtain ⟨a1, x1, h1, on1, pr1, tr1⟩ := ih1 h
    refine ⟨a1, x1, h1, on1, pr1, fun q q' => ?_⟩
    obtain ⟨l1, t1, e1⟩ := tr1 q q'
    exact ⟨l1, .right t1, e1⟩
  | done E =>
    intro a x h
    obtain ⟨a1, x1, h1, on1, pr1, ev1⟩ := env_at he E h
    exact ⟨a1, x1, h1, on1, pr1, fun _ _ => ⟨[], .done, by simp [ev1]⟩⟩
  | again _ _ ih1 ih2 =>
    intro a x h
    obtain ⟨a1, x1, h1, on1, pr1, tr1⟩ := ih1 h
    obtain ⟨a2, x2, h2, on2, pr2, tr2⟩ := ih2 h1
    refine ⟨a2, x2, h2, fun q => (on2 q).trans (on1 q), fun q => (pr2 q).trans (pr1 q), fun q q' => ?_⟩
    obtain ⟨l1, t1, e1⟩ := tr1 q q'
    obtain ⟨l2, t2, e2⟩ := tr2 q q'
    rw [on1 q, pr1 q'] at t2
    exact ⟨l1 ++ l2, .again t1 t2, by rw [e2, e1]; simp⟩
  | loopThrow _ ih1 =>
    intro a x h
    obtain ⟨a1, x1, h1, on1, pr1, tr1⟩ := ih1 h
    refine ⟨a1, x1, h1, on1, pr1, fun q q' => ?_⟩
    obtain ⟨l1, t1, e1⟩ := tr1 q q'
    exact ⟨l1, .loopThrow t1, e1⟩
  | scope C1 _ C2 ih =>
    intro a x h
    obtain ⟨a1, x1, h1, on1, pr1, ev1⟩ := call_at he C1 h
    obtain ⟨a2, x2, h2, on2, pr2, tr2⟩ := ih h1
    obtain ⟨a3, x3, h3, on3, pr3, ev3⟩ := call_at he C2 h2
    refine ⟨a3, x3, h3, fun q => (on3 q).trans ((on2 q).trans (on1 q)), fun q => (pr3 q).trans ((pr2 q).trans (pr1 q)), fun q q' => ?_⟩
    obtain ⟨l2, t2, e2⟩ := tr2 q q'
    have ev3 := ev3 q q'
    rw [on1 q, pr1 q'] at t2
    rw [on2 q, on1 q, pr2 q', pr1 q', e2, ev1 q q'] at ev3
    exact ⟨_, .scope t2, by rw [ev3]; simp⟩
  | @threadSwitch s s0 s1 s2 s3 s4 b old body e E1 S1 L _ E2 S2 ih =>
    intro a x h
    obtain ⟨a0, x0, h0, on0, pr0, ev0⟩ := env_at he E1 h
    have hf : x0.free = true := by simp [Spec.Thread.free, h0.idle, h0.alive]
    have r1 := R_step h0.r _ S1
    have e1 : Spec.step a0 (.setThread t b) = (a0.upd t fun th => { th with used := true, on := b }).out (.threadWas t x0.on) := by
      simp [Spec.step, h0.thread, hf]
    rw [e1] at r1
    have hold : old = x0.on := by
      have h5 := r1.log
      rw [L, h0.r.log] at h5
      simpa [Spec.State.out, Spec.State.upd] using h5
    obtain ⟨a2, x2, h2, on2, pr2, tr2⟩ := ih (a := (a0.upd t fun th => { th with used := true, on := b }).out (.threadWas t x0.on))
      (x := { x0 with used := true, on := b }) ⟨r1, upd_get h0.thread _, h0.idle, h0.alive⟩
    obtain ⟨a3, x3, h3, on3, pr3, ev3⟩ := env_at he E2 h2
    have hf3 : x3.free = true := by simp [Spec.Thread.free, h3.idle, h3.alive]
    have r4 := R_step h3.r _ S2
    have e4 : Spec.step a3 (.setThread t old) = (a3.upd t fun th => { th with used := true, on := old }).out (.threadWas t x3.on) := by
      simp [Spec.step, h3.thread, hf3]
    rw [e4] at r4
    refine ⟨_, { x3 with used := true, on := old }, ⟨r4, upd_get h3.thread _, h3.idle, h3.alive⟩, fun q => ?_, fun q => ?_, fun q q' => ?_⟩
    · show old = _
      rw [hold, on0 q]
    · show a3.process = _
      rw [pr3 q, pr2 q]
      show a0.process = _
      rw [pr0 q]
    · obtain ⟨l, t1, e5⟩ := tr2 q q'
      refine ⟨l, .threadSwitch (b := b) ?_, ?_⟩
      · have : a.process = ((a0.upd t fun th => { th with used := true, on := b }).out (.threadWas t x0.on)).process := by
          show _ = a0.process; rw [pr0 q']
        rw [this]; exact t1
      · show eventsOf t (a3.log ++ [.threadWas t x3.on]) = _
        rw [eventsOf_append, ev3, e5]
        show eventsOf t (a0.log ++ [.threadWas t x0.on]) ++ l ++ _ = _
        rw [eventsOf_append, ev0]
        simp [eventsOf]
  | @processSwitch s s0 s1 s2 s3 s4 b old body e E1 S1 L _ E2 S2 ih =>
    intro a x h
    obtain ⟨a0, x0, h0, on0, pr0, ev0⟩ := env_at he E1 h
    have r1 := R_step h0.r _ S1
    have hold : old = a0.process := by
      have h5 := r1.log
      rw [L, h0.r.log] at h5
      simpa [Spec.step, Spec.State.out, Spec.State.upd] using h5
    obtain ⟨a2, x2, h2, on2, pr2, tr2⟩ := ih (a := Spec.step a0 (.setProcess b)) (x := x0) ⟨r1, h0.thread, h0.idle, h0.alive⟩
    obtain ⟨a3, x3, h3, on3, pr3, ev3⟩ := env_at he E2 h2
    have r4 := R_step h3.r _ S2
    refine ⟨_, x3, ⟨r4, h3.thread, h3.idle, h3.alive⟩, fun q => ?_, fun q => ?_, fun q q' => ?_⟩
    · rw [on3 q, on2 q, on0 q]
    · show old = _
      rw [hold, pr0 q]
    · obtain ⟨l, t1, e5⟩ := tr2 q q'
      refine ⟨l, .processSwitch (b := b) ?_, ?_⟩
      · rw [← on0 q]; exact t1
      · show eventsOf t (a3.log ++ [.processWas a3.process]) = _
        rw [eventsOf_append, ev3, e5]
        show eventsOf t (a0.log ++ [.processWas a0.process]) ++ l ++ _ = _
        rw [eventsOf_append, ev0]
        simp [eventsOf]
  | mark C =>
    intro a x h
    obtain ⟨a1, x1, h1, on1, pr1, ev1⟩ := call_at he C h
    exact ⟨a1, x1, h1, on1, pr1, fun q q' => ⟨_, .mark, ev1 q q'⟩⟩
  | count C =>
    intro a x h
    obtain ⟨a1, x1, h1, on1, pr1, ev1⟩ := call_at he C h
    exact ⟨a1, x1, h1, on1, pr1, fun q q' => ⟨_, .count, ev1 q q'⟩⟩
  | throw =>
    intro a x h
    exact ⟨a, x, h, fun _ => rfl, fun _ => rfl, fun _ _ => ⟨[], .throw, by simp⟩⟩
  | tryOk _ ih1 =>
    intro a x h
    obtain ⟨a1, x1, h1, on1, pr1, tr1⟩ := ih1 h
    refine ⟨a1, x1, h1, on1, pr1, fun q q' => ?_⟩
    obtain ⟨l1, t1, e1⟩ := tr1 q q'
    exact ⟨l1, .tryOk t1, e1⟩
  | tryCatch _ _ ih1 ih2 =>
    intro a x h
    obtain ⟨a1, x1, h1, on1, pr1, tr1⟩ := ih1 h
    obtain ⟨a2, x2, h2, on2, pr2, tr2⟩ := ih2 h1
    refine ⟨a2, x2, h2, fun q => (on2 q).trans (on1 q), fun q => (pr2 q).trans (pr1 q), fun q q' => ?_⟩
    obtain ⟨l1, t1, e1⟩ := tr1 q q'
    obtain ⟨l2, t2, e2⟩ := tr2 q q'
    rw [on1 q, pr1 q'] at t2
    exact ⟨l1 ++ l2, .tryCatch t1 t2, by rw [e2, e1]; simp⟩

theorem trace_nested {be : Backend} {P T : Bool} {p : Prog} {l : List Record} {e : Bool} (h : Trace be P T p l e) : Nested be l := by
  have one : ∀ (P T : Bool) (q : Point), (∀ r, record be q = some r → Nested be [r]) → Nested be (emits be P T q) := by
    intro P T q hq
    unfold emits
    split
    · cases hr : record be q with
      | none => exact .nil
      | some r => exact hq r hr
    · exact .nil
  induction h with
  | skip | done | throw => exact .nil
  | seq _ _ h1 h2 | again _ _ h1 h2 | tryCatch _ _ h1 h2 => exact .append h1 h2
  | seqThrow _ h | left _ h | right _ h | loopThrow _ h | threadSwitch _ h | processSwitch _ h | tryOk _ h => exact h
  | mark => exact one _ _ _ fun r hr => .mark hr
  | count => exact one _ _ _ fun r hr => .count hr
  | @scope P T id body l e _ h =>
    unfold emits
    split
    · cases be with
      | nop => simpa [record] using h
      | native => exact .wrap (id := id) (r1 := .native 1 id none) (r2 := .native 2 id none) rfl rfl h
      | lttng => exact .wrap (id := id) (r1 := .lttng "scope_entry" id none) (r2 := .lttng "scope_exit" id none) rfl rfl h
    · simpa using h

end Scalopus.Scopes
