import Verif.Proofs.Scopes

/-!
# C23, C24: scoped switches and traced scopes

All statements quantify over every program built from scopes, scoped switches, marks, counters, branches, loops, exceptions and handlers, over every
state of the process that can be reached, and over everything that the other threads do at the same time (restricted as each statement says).
-/

namespace Scalopus.Scopes

open TraceState

/-- A thread that exists and is not in a tracepoint. -/
def Ready (s : State) (t : Nat) : Prop := ∃ th : TraceState.Thread, s.threads[t]? = some th ∧ th.pc = .idle ∧ th.ended = false

theorem ready_at {acts : List Act} {s : State} (h : run {} acts = .ok s) {t : Nat} (hr : Ready s t) :
    ∃ (a : Spec.State) (x : Spec.Thread), At s t a x := by
  obtain ⟨th, h1, h2, h3⟩ := hr
  have hR := R_run R_init acts h
  obtain ⟨x, k1, k2, k3, k4, _⟩ := hR.getA h1
  exact ⟨_, x, hR, k1, by rw [← k3, h2], by rw [← k4, h3]⟩

theorem at_ready {s : State} {t : Nat} {a : Spec.State} {x : Spec.Thread} (h : At s t a x) : Ready s t := by
  have hlt : t < s.threads.length := by rw [h.r.len]; exact (List.getElem?_eq_some_iff.mp h.thread).1
  have hst : s.threads[t]? = some s.threads[t] := by simp [hlt]
  obtain ⟨e1, e2, e3, e4⟩ := h.r.thread _ _ _ hst h.thread
  exact ⟨_, hst, by rw [e2]; exact h.idle, by rw [e3]; exact h.alive⟩

theorem at_ok {s : State} {t : Nat} {a : Spec.State} {x : Spec.Thread} (h : At s t a x) {y : Act} (hy : y.of t = true ∨ ∃ b, y = .setProcess b) :
    ∃ s', step s y = .ok s' := by
  obtain ⟨th, h1, h2, h3⟩ := at_ready h
  have hl : ¬ C62.late s y := by
    intro hl
    cases y <;> simp only [C62.late] at hl <;> simp only [Act.of, beq_iff_eq] at hy
    case getThread t' => obtain ⟨th', h4, h5⟩ := hl; simp at hy; subst hy; rw [h1] at h4; simp at h4; subst h4; simp [h3] at h5
    case setThread t' b => obtain ⟨th', h4, h5⟩ := hl; simp at hy; subst hy; rw [h1] at h4; simp at h4; subst h4; simp [h3] at h5
    case reach t' be p => obtain ⟨_, th', h4, h5⟩ := hl; simp at hy; subst hy; rw [h1] at h4; simp at h4; subst h4; simp [h3] at h5
  have := (C62.fails_iff_late h.r y).2 hl
  cases hs : step s y with
  | ok s' => exact ⟨s', rfl⟩
  | throws m => rw [hs] at this; simp [Res.isOk] at this
  | ub => rw [hs] at this; simp [Res.isOk] at this
  | terminate => rw [hs] at this; simp [Res.isOk] at this

theorem at_reads {s : State} {t : Nat} {a : Spec.State} {x : Spec.Thread} (h : At s t a x) :
    ∃ s1, step s (.getThread t) = .ok s1 ∧ s1.log = s.log ++ [.threadIs t x.on] := by
  obtain ⟨s1, hs⟩ := at_ok h (y := .getThread t) (.inl (by simp [Act.of]))
  refine ⟨s1, hs, ?_⟩
  rw [(R_step h.r _ hs).log, h.r.log]
  simp [Spec.step, h.thread, Spec.Thread.free, h.idle, h.alive, Spec.State.out, Spec.State.upd]

end Scalopus.Scopes

namespace Scalopus.C23

open TraceState Scopes

/-- **C23, thread switch.** After any program built from scoped switches and traced code, also one that ends with an exception, the thread's
    own switch is what it was before: `getThreadState` would answer the same. The other threads may do anything but store into this thread's switch
    through a thread map. -/
theorem thread_switch_restored (acts : List Act) (s s' : State) (h : run {} acts = .ok s) (t : Nat) (hr : Ready s t) (be : Backend) (p : Prog)
    (e : Bool) (X : Exec (fun s x => Other t x ∧ ¬ Hits t s x) t be s p s' e) :
    ∃ b s1 s1', step s (.getThread t) = .ok s1 ∧ s1.log = s.log ++ [.threadIs t b] ∧
      step s' (.getThread t) = .ok s1' ∧ s1'.log = s'.log ++ [.threadIs t b] := by
  obtain ⟨a, x, hA⟩ := ready_at h hr
  obtain ⟨a', x', hA', hon, _, _⟩ := exec_at (fun _ _ hy => hy.1) X hA
  obtain ⟨s1, h1, h2⟩ := at_reads hA
  obtain ⟨s1', h3, h4⟩ := at_reads hA'
  refine ⟨x.on, s1, s1', h1, h2, h3, ?_⟩
  rw [h4, hon (fun _ _ hy => hy.2)]

/-- **C23, process switch.** After any such program the process switch is what it was before. The other threads may do anything but set the
    process switch. -/
theorem process_switch_restored (acts : List Act) (s s' : State) (h : run {} acts = .ok s) (t : Nat) (hr : Ready s t) (be : Backend) (p : Prog)
    (e : Bool) (X : Exec (fun _ x => Other t x ∧ ¬ SetsProcess x) t be s p s' e) :
    ∃ b s1 s1', step s .getProcess = .ok s1 ∧ s1.log = s.log ++ [.processIs b] ∧
      step s' .getProcess = .ok s1' ∧ s1'.log = s'.log ++ [.processIs b] := by
  obtain ⟨a, x, hA⟩ := ready_at h hr
  obtain ⟨a', x', hA', _, hpr, _⟩ := exec_at (fun _ _ hy => hy.1) X hA
  refine ⟨s.process, _, _, rfl, rfl, rfl, ?_⟩
  show s'.log ++ [.processIs s'.process] = _
  rw [hA'.r.process, hA.r.process, hpr (fun _ _ hy => hy.2)]

/-- **C23, inside the scope.** While the body of a scoped switch runs, the switch has the value given: right after the constructor it reads as that
    value. -/
theorem switch_set_inside (acts : List Act) (s s1 : State) (h : run {} acts = .ok s) (t : Nat) (hr : Ready s t) (b : Bool)
    (hs : step s (.setThread t b) = .ok s1) :
    ∃ s2, step s1 (.getThread t) = .ok s2 ∧ s2.log = s1.log ++ [.threadIs t b] := by
  obtain ⟨a, x, hA⟩ := ready_at h hr
  have hf : x.free = true := by simp [Spec.Thread.free, hA.idle, hA.alive]
  have r1 := R_step hA.r _ hs
  have e1 : Spec.step a (.setThread t b) = (a.upd t fun th => { th with used := true, on := b }).out (.threadWas t x.on) := by
    simp [Spec.step, hA.thread, hf]
  rw [e1] at r1
  exact at_reads (a := (a.upd t fun th => { th with used := true, on := b }).out (.threadWas t x.on))
    (x := { x with used := true, on := b }) ⟨r1, upd_get hA.thread _, hA.idle, hA.alive⟩

/-- The restriction on the other threads is needed: two scopes of different threads that switch the process off, overlapping without being nested
    in time, leave it off for good. -/
theorem overlapping_process_switches : ∃ s, run {} [.setProcess false, .setProcess false, .setProcess true, .setProcess false, .getProcess] = .ok s ∧
    s.log = [.processWas true, .processWas false, .processWas false, .processWas true, .processIs false] := by
  refine ⟨_, rfl, ?_⟩
  decide

/-- It is so in every state of the process, for every state of the switch. -/
theorem overlapping_switches_always (s : State) (b : Bool) : ∃ old s', run s [.setProcess b, .setProcess b, .setProcess old, .setProcess b, .getProcess] = .ok s' ∧
    s'.log = s.log ++ [.processWas old, .processWas b, .processWas b, .processWas old, .processIs b] := by
  refine ⟨s.process, _, rfl, ?_⟩
  simp [List.append_assoc]

end Scalopus.C23

namespace Scalopus.C24

open TraceState Scopes

/-- **C24, exact.** Every program emits exactly what the structure of the program says: a scope emits its entry, what is inside and its exit, if both
    switches are on where it is, and nothing else is emitted; scoped switches may occur anywhere. The other threads may do anything but store into
    this thread's switch or the process switch. -/
theorem program_emits (acts : List Act) (s s' : State) (h : run {} acts = .ok s) (t : Nat) (hr : Ready s t) (be : Backend) (p : Prog)
    (e : Bool) (X : Exec (fun s x => Other t x ∧ ¬ Hits t s x ∧ ¬ SetsProcess x) t be s p s' e) :
    ∃ l b s1, step s (.getThread t) = .ok s1 ∧ s1.log = s.log ++ [.threadIs t b] ∧
      Trace be s.process b p l e ∧ eventsOf t s'.log = eventsOf t s.log ++ l := by
  obtain ⟨a, x, hA⟩ := ready_at h hr
  obtain ⟨a', x', hA', _, _, htr⟩ := exec_at (fun _ _ hy => hy.1) X hA
  obtain ⟨l, t1, e1⟩ := htr (fun _ _ hy => hy.2.1) (fun _ _ hy => hy.2.2)
  obtain ⟨s1, h1, h2⟩ := at_reads hA
  exact ⟨l, x.on, s1, h1, h2, by rw [hA.r.process]; exact t1, by rw [hA'.r.log, hA.r.log]; exact e1⟩

/-- **C24.** The events that a program emits are balanced and properly nested, and every exit has the id of its entry. This holds also if the
    program switches tracing on and off inside, and if it is left with an exception. -/
theorem events_nested (acts : List Act) (s s' : State) (h : run {} acts = .ok s) (t : Nat) (hr : Ready s t) (be : Backend) (p : Prog)
    (e : Bool) (X : Exec (fun s x => Other t x ∧ ¬ Hits t s x ∧ ¬ SetsProcess x) t be s p s' e) :
    ∃ l, eventsOf t s'.log = eventsOf t s.log ++ l ∧ Nested be l := by
  obtain ⟨l, b, s1, _, _, t1, e1⟩ := program_emits acts s s' h t hr be p e X
  exact ⟨l, e1, trace_nested t1⟩

/-- A reader of native events with a stack: every exit must match the innermost open entry. -/
def check (stack : List Nat) : List Record → Option (List Nat)
  | [] => some stack
  | .native 1 id _ :: l => check (id :: stack) l
  | .native 2 id _ :: l =>
    match stack with
    | top :: rest => if top = id then check rest l else none
    | [] => none
  | _ :: l => check stack l

/-- **C24, as a viewer sees it.** Replaying the emitted events with a stack, from any stack, never fails and leaves the stack as it was. -/
theorem viewer_stack (acts : List Act) (s s' : State) (h : run {} acts = .ok s) (t : Nat) (hr : Ready s t) (p : Prog)
    (e : Bool) (X : Exec (fun s x => Other t x ∧ ¬ Hits t s x ∧ ¬ SetsProcess x) t .native s p s' e) :
    ∃ l, eventsOf t s'.log = eventsOf t s.log ++ l ∧ ∀ stack, check stack l = some stack := by
  obtain ⟨l, e1, hn⟩ := events_nested acts s s' h t hr .native p e X
  refine ⟨l, e1, ?_⟩
  have key : ∀ l, Nested .native l → ∀ stack rest, check stack (l ++ rest) = check stack rest := by
    intro l hn
    induction hn with
    | nil => intro stack rest; rfl
    | append _ _ ih1 ih2 => intro stack rest; rw [List.append_assoc, ih1, ih2]
    | @mark id v r hr => intro stack rest; cases v <;> (simp [record] at hr; subst hr; rfl)
    | @count id v r hr => intro stack rest; simp [record] at hr; subst hr; rfl
    | @wrap id l r1 r2 h1 h2 _ ih =>
      intro stack rest
      simp [record] at h1 h2
      subst h1 h2
      simp only [List.append_assoc, List.cons_append, List.nil_append, check, ih, ↓reduceIte]
  intro stack
  have := key l hn stack []
  simpa [check] using this

/-- Executions exist: whatever the structure of a program allows it to emit, from any reachable state, is emitted by an execution. So the theorems above
    speak about every program and every path through it. -/
theorem every_path_executes (acts : List Act) (s : State) (h : run {} acts = .ok s) (t : Nat) (hr : Ready s t) (be : Backend) (p : Prog)
    (l : List Record) (e : Bool) (b : Bool) (s1 : State) (hb : step s (.getThread t) = .ok s1) (hl : s1.log = s.log ++ [.threadIs t b])
    (hT : Trace be s.process b p l e) :
    ∃ s', Exec (fun _ _ => False) t be s p s' e := by
  obtain ⟨a, x, hA⟩ := ready_at h hr
  have hbx : b = x.on := by
    obtain ⟨s2, h1, h2⟩ := at_reads hA
    rw [hb] at h1
    simp only [Res.ok.injEq] at h1
    subst h1
    rw [hl] at h2
    simpa using h2
  rw [hA.r.process, hbx] at hT
  clear hb hl h hr hbx
  have hq : ∀ (s : State) (x : Act), (fun (_ : State) (_ : Act) => False) s x → Other t x := fun _ _ h => h.elim
  have qT : QuietT (fun _ _ => False) t := fun _ _ h => h.elim
  have qP : QuietP (fun _ _ => False) := fun _ _ h => h.elim
  -- a call can be completed
  have call : ∀ (q : Point) (s : State) (a : Spec.State) (x : Spec.Thread), At s t a x → ∃ s', Call (fun _ _ => False) t be q s s' := by
    intro q s a x hA
    obtain ⟨s2, h2⟩ := at_ok hA (y := .reach t be q) (.inl (by simp [Act.of]))
    have r2 := R_step hA.r _ h2
    have ok : ∀ (s : State) (a : Spec.State), R s a → ∀ y : Act, (y = .loadProcess t ∨ y = .loadThread t) → ∃ s', step s y = .ok s' := by
      intro s a hR y hy
      have := (C62.fails_iff_late hR y).2 (by rcases hy with rfl | rfl <;> exact fun h => h)
      cases hs : step s y with
      | ok s' => exact ⟨s', rfl⟩
      | throws m => rw [hs] at this; simp [Res.isOk] at this
      | ub => rw [hs] at this; simp [Res.isOk] at this
      | terminate => rw [hs] at this; simp [Res.isOk] at this
    obtain ⟨s4, h4⟩ := ok _ _ r2 _ (.inl rfl)
    obtain ⟨s6, h6⟩ := ok _ _ (R_step r2 _ h4) _ (.inr rfl)
    exact ⟨s6, .mk (.refl _) h2 (.refl _) h4 (.refl _) h6 (.refl _)⟩
  generalize hP : a.process = P at hT
  generalize hx : x.on = T at hT
  induction hT generalizing s a x with
  | skip => exact ⟨s, .skip (.refl _)⟩
  | seq _ _ ih1 ih2 =>
    obtain ⟨s1, X1⟩ := ih1 s a x hA hP hx
    obtain ⟨a1, x1, hA1, on1, pr1, _⟩ := exec_at hq X1 hA
    obtain ⟨s2, X2⟩ := ih2 s1 a1 x1 hA1 (by rw [pr1 qP, hP]) (by rw [on1 qT, hx])
    exact ⟨s2, .seq X1 X2⟩
  | seqThrow _ ih1 => obtain ⟨s1, X1⟩ := ih1 s a x hA hP hx; exact ⟨s1, .seqThrow X1⟩
  | left _ ih1 => obtain ⟨s1, X1⟩ := ih1 s a x hA hP hx; exact ⟨s1, .left X1⟩
  | right _ ih1 => obtain ⟨s1, X1⟩ := ih1 s a x hA hP hx; exact ⟨s1, .right X1⟩
  | done => exact ⟨s, .done (.refl _)⟩
  | again _ _ ih1 ih2 =>
    obtain ⟨s1, X1⟩ := ih1 s a x hA hP hx
    obtain ⟨a1, x1, hA1, on1, pr1, _⟩ := exec_at hq X1 hA
    obtain ⟨s2, X2⟩ := ih2 s1 a1 x1 hA1 (by rw [pr1 qP, hP]) (by rw [on1 qT, hx])
    exact ⟨s2, .again X1 X2⟩
  | loopThrow _ ih1 => obtain ⟨s1, X1⟩ := ih1 s a x hA hP hx; exact ⟨s1, .loopThrow X1⟩
  | @scope P T id body l e _ ih =>
    obtain ⟨s1, C1⟩ := call (.entry id) s a x hA
    obtain ⟨a1, x1, hA1, on1, pr1, _⟩ := call_at hq C1 hA
    obtain ⟨s2, X2⟩ := ih s1 a1 x1 hA1 (by rw [pr1 qP, hP]) (by rw [on1 qT, hx])
    obtain ⟨a2, x2, hA2, _⟩ := exec_at hq X2 hA1
    obtain ⟨s3, C3⟩ := call (.exit id) s2 a2 x2 hA2
    exact ⟨s3, .scope C1 X2 C3⟩
  | @threadSwitch P T b body l e _ ih =>
    obtain ⟨s1, h1⟩ := at_ok hA (y := .setThread t b) (.inl (by simp [Act.of]))
    have hf : x.free = true := by simp [Spec.Thread.free, hA.idle, hA.alive]
    have r1 := R_step hA.r _ h1
    have e1 : Spec.step a (.setThread t b) = (a.upd t fun th => { th with used := true, on := b }).out (.threadWas t x.on) := by
      simp [Spec.step, hA.thread, hf]
    rw [e1] at r1
    have hlog : s1.log = s.log ++ [.threadWas t x.on] := by rw [r1.log, hA.r.log]; rfl
    have hA1 : At s1 t ((a.upd t fun th => { th with used := true, on := b }).out (.threadWas t x.on)) { x with used := true, on := b } :=
      ⟨r1, upd_get hA.thread _, hA.idle, hA.alive⟩
    obtain ⟨s2, X2⟩ := ih s1 _ _ hA1 hP rfl
    obtain ⟨a2, x2, hA2, _⟩ := exec_at hq X2 hA1
    obtain ⟨s3, h3⟩ := at_ok hA2 (y := .setThread t x.on) (.inl (by simp [Act.of]))
    exact ⟨s3, .threadSwitch (.refl _) h1 hlog X2 (.refl _) h3⟩
  | @processSwitch P T b body l e _ ih =>
    obtain ⟨s1, h1⟩ := at_ok hA (y := .setProcess b) (.inr ⟨b, rfl⟩)
    have r1 := R_step hA.r _ h1
    have hlog : s1.log = s.log ++ [.processWas a.process] := by rw [r1.log, hA.r.log]; rfl
    have hA1 : At s1 t (Spec.step a (.setProcess b)) x := ⟨r1, hA.thread, hA.idle, hA.alive⟩
    obtain ⟨s2, X2⟩ := ih s1 _ _ hA1 rfl hx
    obtain ⟨a2, x2, hA2, _⟩ := exec_at hq X2 hA1
    obtain ⟨s3, h3⟩ := at_ok hA2 (y := .setProcess a.process) (.inr ⟨_, rfl⟩)
    exact ⟨s3, .processSwitch (.refl _) h1 hlog X2 (.refl _) h3⟩
  | @mark P T id v => obtain ⟨s1, C1⟩ := call (.mark id v) s a x hA; exact ⟨s1, .mark C1⟩
  | @count P T id v => obtain ⟨s1, C1⟩ := call (.count id v) s a x hA; exact ⟨s1, .count C1⟩
  | throw => exact ⟨s, .throw⟩
  | tryOk _ ih1 => obtain ⟨s1, X1⟩ := ih1 s a x hA hP hx; exact ⟨s1, .tryOk X1⟩
  | tryCatch _ _ ih1 ih2 =>
    obtain ⟨s1, X1⟩ := ih1 s a x hA hP hx
    obtain ⟨a1, x1, hA1, on1, pr1, _⟩ := exec_at hq X1 hA
    obtain ⟨s2, X2⟩ := ih2 s1 a1 x1 hA1 (by rw [pr1 qP, hP]) (by rw [on1 qT, hx])
    exact ⟨s2, .tryCatch X1 X2⟩

/-- A program with a scope that is left by an exception, and a scope inside a part that is switched off: what it emits. -/
example : Trace .native true true
    (.tryCatch (.scope 1 (.seq (.mark 2 .thread) (.seq (.switch false false (.scope 3 .skip)) .throw))) (.count 4 9))
    [.native 1 1 none, .native 5 2 none, .native 2 1 none, .native 6 4 (some 9)] false := by
  have h3 : Trace .native true false (.scope 3 .skip) _ false := .scope .skip
  exact Trace.tryCatch (.scope (.seq .mark (.seq (.threadSwitch h3) .throw))) .count

/-- A thread that is ready. -/
example : ∃ s, run {} [.start 5, .setThread 0 true] = .ok s ∧ Ready s 0 :=
  ⟨_, rfl, _, rfl, rfl, rfl⟩

end Scalopus.C24
