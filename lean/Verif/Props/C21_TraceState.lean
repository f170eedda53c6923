import Verif.Proofs.TraceState

/-!
# C21, C22, C62: tracing switches

All statements quantify over every history of the process: any number of threads that start, reach tracepoints of any backend, toggle
and exit, reuse of thread identifiers, and remote readers and writers that hold on to old thread maps, interleaved in any order.
-/

namespace Scalopus.TraceState

/-- The process switch after a history: the value last set, on if it was never set. -/
def processOn (acts : List Act) : Bool :=
  acts.foldl (fun b a => match a with | .setProcess b' => b' | .storeProcess b' => b' | _ => b) true

/-- The step belongs to thread `t`. -/
def Act.of (t : Nat) : Act → Bool
  | .getThread t' | .setThread t' _ | .reach t' _ _ | .loadProcess t' | .loadThread t' | .exit t' => t' == t
  | _ => false

/-- The thread's own switch after a history, according to the specification. -/
def threadOn (acts : List Act) (t : Nat) : Option Bool := ((Spec.run {} acts).threads[t]?).map (·.on)

theorem spec_run_append (a : Spec.State) (xs ys : List Act) : Spec.run a (xs ++ ys) = Spec.run (Spec.run a xs) ys := by
  induction xs generalizing a with
  | nil => rfl
  | cons x xs ih => exact ih _

theorem run_append {s s' : State} (xs ys : List Act) (h : run s (xs ++ ys) = .ok s') :
    ∃ s1, run s xs = .ok s1 ∧ run s1 ys = .ok s' := by
  induction xs generalizing s with
  | nil => exact ⟨s, rfl, h⟩
  | cons x xs ih =>
    simp only [List.cons_append, run] at h ⊢
    cases hx : step s x with
    | ok s1 => rw [hx] at h; exact ih h
    | throws m => rw [hx] at h; simp [Res.bind] at h
    | ub => rw [hx] at h; simp [Res.bind] at h
    | terminate => rw [hx] at h; simp [Res.bind] at h

theorem spec_process_step (a : Spec.State) (x : Act) :
    (Spec.step a x).process = (match x with | .setProcess b' => b' | .storeProcess b' => b' | _ => a.process) := by
  cases x <;> simp only [Spec.step, Spec.State.out, Spec.State.upd] <;> (repeat' split) <;> rfl

theorem spec_process_run (a : Spec.State) (xs : List Act) :
    (Spec.run a xs).process = xs.foldl (fun b a => match a with | .setProcess b' => b' | .storeProcess b' => b' | _ => b) a.process := by
  induction xs generalizing a with
  | nil => rfl
  | cons x xs ih =>
    simp only [Spec.run, List.foldl_cons]
    rw [ih, spec_process_step]

theorem spec_process (acts : List Act) : (Spec.run {} acts).process = processOn acts := spec_process_run _ _

/-- Only the thread itself moves in its tracepoint, and it stays. -/
theorem spec_pc_step (a : Spec.State) (x : Act) (t : Nat) (hx : x.of t = false) (th : Spec.Thread) (ht : a.threads[t]? = some th) :
    ∃ th' : Spec.Thread, (Spec.step a x).threads[t]? = some th' ∧ th'.pc = th.pc ∧ th'.tid = th.tid ∧ th'.ended = th.ended := by
  have key : ∀ (i : Nat) (f : Spec.Thread → Spec.Thread), (i = t → (f th).pc = th.pc ∧ (f th).tid = th.tid ∧ (f th).ended = th.ended) →
      ∃ th' : Spec.Thread, (a.upd i f).threads[t]? = some th' ∧ th'.pc = th.pc ∧ th'.tid = th.tid ∧ th'.ended = th.ended := by
    intro i f hf
    unfold Spec.State.upd
    simp only [List.getElem?_modify, ht]
    by_cases hi : i = t
    · exact ⟨f th, by simp [hi], hf hi⟩
    · exact ⟨th, by simp [hi], rfl, rfl, rfl⟩
  have keep : ∃ th' : Spec.Thread, a.threads[t]? = some th' ∧ th'.pc = th.pc ∧ th'.tid = th.tid ∧ th'.ended = th.ended :=
    ⟨th, ht, rfl, rfl, rfl⟩
  have hlt := (List.getElem?_eq_some_iff.mp ht).1
  cases x <;> simp only [Act.of, beq_eq_false_iff_ne] at hx <;> simp only [Spec.step, Spec.State.out]
  case start tid =>
    split
    · exact keep
    · refine ⟨th, ?_, rfl, rfl, rfl⟩
      simp only [List.getElem?_append, hlt, ↓reduceIte]
      exact ht
  all_goals
    (repeat' split) <;> first
    | exact keep
    | exact key _ _ (fun h => absurd h hx)
    | exact key _ _ (fun _ => ⟨rfl, rfl, rfl⟩)

theorem spec_pc_run (a : Spec.State) (xs : List Act) (t : Nat) (hx : ∀ x ∈ xs, x.of t = false) (th : Spec.Thread)
    (ht : a.threads[t]? = some th) :
    ∃ th' : Spec.Thread, (Spec.run a xs).threads[t]? = some th' ∧ th'.pc = th.pc ∧ th'.tid = th.tid ∧ th'.ended = th.ended := by
  induction xs generalizing a th with
  | nil => exact ⟨th, ht, rfl, rfl, rfl⟩
  | cons x xs ih =>
    obtain ⟨th1, h1, h2, h3, h4⟩ := spec_pc_step a x t (hx x (by simp)) th ht
    obtain ⟨th2, h5, h6, h7, h8⟩ := ih _ (fun y hy => hx y (by simp [hy])) th1 h1
    exact ⟨th2, h5, by rw [h6, h2], by rw [h7, h3], by rw [h8, h4]⟩

end Scalopus.TraceState

namespace Scalopus.C21

open TraceState

/-- **C21, refinement.** Everything that can be observed (events, returned values) is what the specification says: one switch per
    thread and one for the process. -/
theorem observations_agree (acts : List Act) (s : State) (h : run {} acts = .ok s) : s.log = (Spec.run {} acts).log :=
  (R_run R_init acts h).log

/-- **C21.** A thread that exists reaches a tracepoint; anything happens elsewhere between and after its two looks. An event is recorded
    iff the process switch was on when the tracepoint looked at it and the thread's switch was on when it looked at that, and the event
    has the identifier of the thread and what belongs to the tracepoint. -/
theorem recorded_iff_on (acts mid₁ mid₂ : List Act) (t : Nat) (be : Backend) (p : Point) (r : Record) (hr : record be p = some r)
    (hm₁ : ∀ x ∈ mid₁, x.of t = false) (hm₂ : ∀ x ∈ mid₂, x.of t = false)
    (th : Spec.Thread) (ht : (Spec.run {} acts).threads[t]? = some th) (hfree : th.free = true)
    (s₂ s : State)
    (h₂ : run {} (acts ++ [.reach t be p] ++ mid₁ ++ [.loadProcess t] ++ mid₂) = .ok s₂)
    (h : run {} (acts ++ [.reach t be p] ++ mid₁ ++ [.loadProcess t] ++ mid₂ ++ [.loadThread t]) = .ok s) :
    s.log = s₂.log ++
      if processOn (acts ++ [.reach t be p] ++ mid₁) = true ∧
         threadOn (acts ++ [.reach t be p] ++ mid₁ ++ [.loadProcess t] ++ mid₂) t = some true
      then [.event t th.tid r] else [] := by
  have hbe : be ≠ .nop := by rintro rfl; simp [record] at hr
  rw [observations_agree _ _ h, observations_agree _ _ h₂, ← spec_process]
  unfold threadOn
  have e1 : Spec.run {} (acts ++ [.reach t be p] ++ mid₁) = Spec.run (Spec.step (Spec.run {} acts) (.reach t be p)) mid₁ := by
    rw [spec_run_append, spec_run_append]; rfl
  have e2 : Spec.run {} (acts ++ [.reach t be p] ++ mid₁ ++ [.loadProcess t] ++ mid₂) =
      Spec.run (Spec.step (Spec.run {} (acts ++ [.reach t be p] ++ mid₁)) (.loadProcess t)) mid₂ := by
    rw [spec_run_append, spec_run_append]; rfl
  have e3 : Spec.run {} (acts ++ [.reach t be p] ++ mid₁ ++ [.loadProcess t] ++ mid₂ ++ [.loadThread t]) =
      Spec.step (Spec.run {} (acts ++ [.reach t be p] ++ mid₁ ++ [.loadProcess t] ++ mid₂)) (.loadThread t) := by
    rw [spec_run_append]; rfl
  rw [e3]
  generalize Spec.run {} (acts ++ [.reach t be p] ++ mid₁ ++ [.loadProcess t] ++ mid₂) = a2 at *
  generalize Spec.run {} (acts ++ [.reach t be p] ++ mid₁) = a1 at *
  generalize Spec.run {} acts = a0 at *
  -- after `reach`
  have h1 : (Spec.step a0 (.reach t be p)).threads[t]? = some { th with used := true, pc := .ready be p } := by
    simp only [Spec.step, ht, hfree, ne_eq, hbe, not_false_eq_true, and_self, ↓reduceIte]
    exact upd_get ht _
  obtain ⟨th1, h2, h3, h4, h5⟩ := spec_pc_run _ mid₁ t hm₁ _ h1
  rw [← e1] at h2
  have h6 : (Spec.step a1 (.loadProcess t)).threads[t]? = some { th1 with pc := if a1.process then .loaded be p else .idle } := by
    simp only [Spec.step, h2, h3]
    exact upd_get h2 _
  obtain ⟨th2, h7, h8, h9, h10⟩ := spec_pc_run _ mid₂ t hm₂ _ h6
  rw [← e2] at h7
  have htid : th2.tid = th.tid := by rw [h9]; exact h4
  simp only [Spec.step, h7, h8, Option.map_some]
  cases hpr : a1.process with
  | false => simp
  | true =>
    simp only [↓reduceIte, hr]
    cases hon : th2.on with
    | false => simp [Spec.State.upd]
    | true => simp [Spec.State.upd, Spec.State.out, htid]

/-- **C21, nothing else.** An event is recorded only by the second look of a tracepoint of that thread, after the first succeeded. -/
theorem only_tracepoints_record (acts : List Act) (x : Act) (s s' : State) (h : run {} acts = .ok s) (hx : step s x = .ok s')
    (t tid : Nat) (r : Record) (hn : s'.log = s.log ++ [.event t tid r]) :
    x = .loadThread t ∧ ∃ th be p, s.threads[t]? = some th ∧ th.tid = tid ∧ th.pc = .loaded be p ∧ record be p = some r := by
  have hR := R_run R_init acts h
  have hR' := R_step hR x hx
  rw [hR.log, hR'.log] at hn
  generalize Spec.run {} acts = a at *
  have hno : ∀ (l : List Obs) (o : Obs), l ≠ l ++ [o] := by intro l o hc; simpa using congrArg List.length hc
  cases x <;> simp only [Spec.step] at hn
  case loadThread t' =>
    cases hat : a.threads[t']? with
    | none => rw [hat] at hn; exact absurd hn (hno _ _)
    | some at' =>
      have hlt : t' < s.threads.length := by rw [hR.len]; exact (List.getElem?_eq_some_iff.mp hat).1
      have hst : s.threads[t']? = some s.threads[t'] := by simp [hlt]
      obtain ⟨e1, e2, _, _⟩ := hR.thread _ _ _ hst hat
      rw [hat] at hn
      cases hpc : at'.pc with
      | idle => simp [hpc] at hn
      | ready be p => simp [hpc] at hn
      | loaded be p =>
        simp only [hpc] at hn
        cases hon : at'.on with
        | false => simp [hon, Spec.State.upd] at hn
        | true =>
          cases hr : record be p with
          | none => simp [hon, hr, Spec.State.upd] at hn
          | some r' =>
            simp [hon, hr, Spec.State.upd, Spec.State.out] at hn
            obtain ⟨rfl, rfl, rfl⟩ := hn
            exact ⟨rfl, _, be, p, hst, e1, by rw [e2, hpc], hr⟩
  all_goals
    exfalso
    revert hn
    repeat' split
    all_goals simp [Spec.State.upd, Spec.State.out]

/-- **C21, nop backend.** A tracepoint of the nop backend changes nothing. -/
theorem nop_records_nothing (s : State) (t : Nat) (p : Point) : step s (.reach t .nop p) = .ok s := by
  simp only [step]
  cases s.threads[t]? with
  | none => rfl
  | some th => simp

/-- Thread 0 is switched off from outside between its two looks, thread 1 is not. -/
example : ∃ s, run {} [.start 5, .start 6, .getThread 0, .getThread 1, .getMap, .reach 0 .native (.entry 7), .loadProcess 0,
      .remoteStore 0 5 false, .loadThread 0, .reach 1 .native (.count 8 (-3)), .loadProcess 1, .loadThread 1] = .ok s ∧
    s.log = [.threadIs 0 true, .threadIs 1 true, .event 1 6 (.native 6 8 (some (-3)))] := by
  refine ⟨_, rfl, ?_⟩
  decide

end Scalopus.C21

namespace Scalopus.C22

open TraceState

/-- The value that a step sets for thread `t`, if any: `setThreadState` called by the thread itself, or a store through a map in which it
    was listed. -/
def sets (a : Spec.State) (t : Nat) : Act → Option Bool
  | .setThread t' b => if t' = t ∧ (a.threads[t]?).any (·.free) then some b else none
  | .remoteStore h tid b => if (a.snaps[h]?).bind (Spec.who · tid) = some t then some b else none
  | _ => none

theorem on_step (a : Spec.State) (x : Act) (t : Nat) (b : Bool) (th : Spec.Thread) (ht : a.threads[t]? = some th) (h : th.on = b) :
    ((Spec.step a x).threads[t]?).map (·.on) = some ((sets a t x).getD b) := by
  have key : ∀ (i : Nat) (f : Spec.Thread → Spec.Thread),
      ((a.upd i f).threads[t]?).map (·.on) = some (if i = t then (f th).on else th.on) := by
    intro i f
    unfold Spec.State.upd
    simp only [List.getElem?_modify, ht]
    by_cases hi : i = t <;> simp [hi]
  have hlt := (List.getElem?_eq_some_iff.mp ht).1
  cases x with
  | start tid =>
    simp only [Spec.step, sets, Option.getD_none]
    split
    · simp [ht, h]
    · simp only [List.getElem?_append, hlt, ↓reduceIte, ht]; simp [h]
  | setThread t' b' =>
    simp only [Spec.step, sets]
    by_cases htt : t' = t
    · subst htt
      simp only [ht, Option.any_some, true_and]
      split
      · simp only [Spec.State.out, key]; simp
      · simp [ht, h]
    · simp only [htt, false_and, ↓reduceIte, Option.getD_none]
      split
      · simp [ht, h]
      · split
        · simp only [Spec.State.out, key]; simp [htt, h]
        · simp [ht, h]
  | remoteStore i tid b' =>
    simp only [Spec.step, sets]
    cases hi : a.snaps[i]? with
    | none => simp [ht, h]
    | some old =>
      simp only [Option.bind_some]
      split
      · rename_i hw
        simp [hw, ht, h]
      · rename_i j hw
        simp only [key, hw, Option.some.injEq]
        by_cases hj : j = t <;> simp [hj, h]
  | _ =>
    simp only [Spec.step, sets, Option.getD_none, Spec.State.out]
    repeat' split
    all_goals first
      | (show Option.map (fun x : Spec.Thread => x.on) a.threads[t]? = _; rw [ht]; simp [h]; done)
      | (simp only [key]; simp [h]; done)

/-- **C22, independence.** A thread's switch is changed by exactly two things: the thread itself, and a store through a thread map for the
    identifier under which this very thread was listed. Nothing else that any thread does (toggles of other threads or of the process, exits,
    starts, also with the same identifier) changes it. -/
theorem switch_changes_only_by (acts : List Act) (x : Act) (t : Nat) (b : Bool) (h : threadOn acts t = some b) :
    threadOn (acts ++ [x]) t = some ((sets (Spec.run {} acts) t x).getD b) := by
  unfold threadOn at *
  rw [spec_run_append]
  cases ht : (Spec.run {} acts).threads[t]? with
  | none => rw [ht] at h; simp at h
  | some th =>
    rw [ht] at h
    simp only [Option.map_some, Option.some.injEq] at h
    exact on_step _ x t b th ht h

/-- **C22, defaults.** A new thread starts with its switch on, whatever happened before and whoever had its identifier; the process starts
    with its switch on. -/
theorem starts_on (acts : List Act) (tid : Nat)
    (hfree : ¬ ∃ th ∈ (Spec.run {} acts).threads, th.tid = tid ∧ th.ended = false) :
    threadOn (acts ++ [.start tid]) (Spec.run {} acts).threads.length = some true ∧ processOn [] = true := by
  refine ⟨?_, rfl⟩
  unfold threadOn
  rw [spec_run_append]
  simp only [Spec.run, Spec.step]
  rw [if_neg]
  · simp
  · simpa using hfree

/-- **C22, what is read.** `getThreadState` and `setThreadState` of a thread return its own switch, `getProcessState` and
    `setProcessState` the one of the process, at any moment. -/
theorem reads_are_switches (acts : List Act) (s s' : State) (h : run {} acts = .ok s) :
    (∀ t b, step s (.getThread t) = .ok s' → threadOn acts t = some b → s'.log ≠ s.log → s'.log = s.log ++ [.threadIs t b]) ∧
    (∀ t b b', step s (.setThread t b') = .ok s' → threadOn acts t = some b → s'.log ≠ s.log → s'.log = s.log ++ [.threadWas t b]) ∧
    (step s .getProcess = .ok s' → s'.log = s.log ++ [.processIs (processOn acts)]) ∧
    (∀ b', step s (.setProcess b') = .ok s' → s'.log = s.log ++ [.processWas (processOn acts)]) := by
  have hR := R_run R_init acts h
  rw [← spec_process]
  unfold threadOn
  generalize Spec.run {} acts = a at *
  refine ⟨?_, ?_, ?_, ?_⟩
  · intro t b hx hb hne
    rw [(R_step hR _ hx).log, hR.log] at hne ⊢
    simp only [Spec.step] at hne ⊢
    cases ht : a.threads[t]? with
    | none => simp [ht] at hb
    | some th =>
      simp only [ht] at hb hne ⊢
      simp at hb
      split
      · simp [Spec.State.out, Spec.State.upd, hb]
      · rename_i hf; simp [hf] at hne
  · intro t b b' hx hb hne
    rw [(R_step hR _ hx).log, hR.log] at hne ⊢
    simp only [Spec.step] at hne ⊢
    cases ht : a.threads[t]? with
    | none => simp [ht] at hb
    | some th =>
      simp only [ht] at hb hne ⊢
      simp at hb
      split
      · simp [Spec.State.out, Spec.State.upd, hb]
      · rename_i hf; simp [hf] at hne
  · intro hx
    rw [(R_step hR _ hx).log, hR.log]
    rfl
  · intro b' hx
    rw [(R_step hR _ hx).log, hR.log]
    rfl

/-- A free thread always gets an answer. -/
theorem reads_answer (acts : List Act) (s : State) (h : run {} acts = .ok s) (t : Nat) (th : Spec.Thread)
    (ht : (Spec.run {} acts).threads[t]? = some th) (hf : th.free = true) :
    ∃ s', step s (.getThread t) = .ok s' ∧ s'.log = s.log ++ [.threadIs t th.on] := by
  have hR := R_run R_init acts h
  generalize Spec.run {} acts = a at *
  have hlt : t < s.threads.length := by rw [hR.len]; exact (List.getElem?_eq_some_iff.mp ht).1
  have hst : s.threads[t]? = some s.threads[t] := by simp [hlt]
  obtain ⟨e1, e2, e3, e4⟩ := hR.thread _ _ _ hst ht
  simp [Spec.Thread.free] at hf
  have he : s.threads[t].ended = false := by rw [e3]; exact hf.1
  have hpc : s.threads[t].pc = .idle := by rw [e2]; exact hf.2
  obtain ⟨hR1, y, hy, ho⟩ := R_ptr hR hst he
  have hok : step s (.getThread t) = .ok { (threadStatePtr s t s.threads[t]).1 with
      log := (threadStatePtr s t s.threads[t]).1.log ++ [.threadIs t y.val] } := by
    simp only [step, hst, he, hpc, Bool.false_eq_true, ↓reduceIte, hy]
  refine ⟨_, hok, ?_⟩
  have hR' := (R_step hR _ hok).log
  rw [hR', hR.log]
  simp only [Spec.step, ht, Spec.Thread.free, hf.1, hf.2]
  rfl

/-- **C22, listing.** The thread map lists exactly the identifiers of the threads that exist and were used, each once; a thread that ended
    is not listed. -/
theorem listing_exact (acts : List Act) (s : State) (h : run {} acts = .ok s) :
    (s.map.map (·.1)).Nodup ∧
    ∀ tid, tid ∈ s.map.map (·.1) ↔ ∃ th ∈ (Spec.run {} acts).threads, th.tid = tid ∧ th.used = true ∧ th.ended = false := by
  have hR := R_run R_init acts h
  refine ⟨hR.keys, fun tid => ⟨?_, ?_⟩⟩
  · intro hm
    obtain ⟨⟨k, c⟩, hkc, rfl⟩ := List.mem_map.mp hm
    obtain ⟨y, x, _, hx, hk, hl⟩ := hR.map _ _ (Assoc.mem_lookup hR.keys hkc)
    simp [Spec.Thread.listed] at hl
    exact ⟨x, List.mem_of_getElem? hx, hk, hl.1, hl.2⟩
  · rintro ⟨th, hth, rfl, hu, he⟩
    obtain ⟨i, hi⟩ := List.getElem?_of_mem hth
    obtain ⟨c, y, hc, _, _⟩ := hR.mapBack i th hi (by simp [Spec.Thread.listed, hu, he])
    exact List.mem_map.mpr ⟨_, Assoc.lookup_mem hc, rfl⟩

/-- A thread switches itself off and exits, a new thread gets its identifier: it starts on, and the old map can no longer reach it. -/
example : ∃ s, run {} [.start 5, .setThread 0 false, .getMap, .exit 0, .start 5, .getThread 1, .remoteStore 0 5 false, .getThread 1] = .ok s ∧
    s.log = [.threadWas 0 true, .threadIs 1 true, .threadIs 1 true] := by
  refine ⟨_, rfl, ?_⟩
  decide

end Scalopus.C22

namespace Scalopus.C62

open TraceState

/-- A call by a thread that has ended: the destructor of an object of the thread that runs after the clean-up. -/
def late (s : State) : Act → Prop
  | .getThread t | .setThread t _ => ∃ th : Thread, s.threads[t]? = some th ∧ th.ended = true
  | .reach t be _ => be ≠ .nop ∧ ∃ th : Thread, s.threads[t]? = some th ∧ th.ended = true
  | _ => False

theorem fails_iff_late {s : State} {a : Spec.State} (hR : R s a) (x : Act) :
    (late s x → step s x = .ub) ∧
    (¬ late s x → (step s x).isOk = true) := by
  refine ⟨?_, ?_⟩
  · cases x with
    | getThread t =>
      rintro ⟨th, ht, he⟩
      simp [step, ht, he]
    | setThread t b =>
      rintro ⟨th, ht, he⟩
      simp [step, ht, he]
    | reach t be p =>
      rintro ⟨hb, th, ht, he⟩
      have hpc : th.pc = .idle := by
        cases hpc : th.pc with
        | idle => rfl
        | ready be' p' => exact absurd (hR.pc t th be' p' ht (.inl hpc)).1 (by simp [he])
        | loaded be' p' => exact absurd (hR.pc t th be' p' ht (.inr hpc)).1 (by simp [he])
      simp [step, ht, he, hb, hpc]
    | _ => exact fun hl => hl.elim
  · intro hl
    cases x with
    | start tid => simp only [step]; split <;> rfl
    | getThread t =>
      simp only [step]
      cases ht : s.threads[t]? with
      | none => rfl
      | some th =>
        have he : th.ended = false := by
          cases he : th.ended with
          | false => rfl
          | true => exact absurd ⟨th, ht, he⟩ hl
        obtain ⟨_, y, hy, _⟩ := R_ptr hR ht he
        simp only [he, Bool.false_eq_true, ↓reduceIte, hy]
        split <;> rfl
    | setThread t b =>
      simp only [step]
      cases ht : s.threads[t]? with
      | none => rfl
      | some th =>
        have he : th.ended = false := by
          cases he : th.ended with
          | false => rfl
          | true => exact absurd ⟨th, ht, he⟩ hl
        obtain ⟨_, y, hy, _⟩ := R_ptr hR ht he
        simp only [he, Bool.false_eq_true, ↓reduceIte, hy]
        split <;> rfl
    | reach t be p =>
      simp only [step]
      cases ht : s.threads[t]? with
      | none => rfl
      | some th =>
        simp only
        split
        · split
          · rfl
          · rename_i hb
            have he : th.ended = false := by
              cases he : th.ended with
              | false => rfl
              | true => exact absurd ⟨hb, th, ht, he⟩ hl
            simp only [he, Bool.false_eq_true, ↓reduceIte]
            split <;> rfl
        · rfl
    | loadProcess t =>
      simp only [step]
      repeat' split
      all_goals rfl
    | loadThread t =>
      simp only [step]
      cases ht : s.threads[t]? with
      | none => rfl
      | some th =>
        simp only
        cases hpc : th.pc with
        | idle => rfl
        | ready be p => rfl
        | loaded be p =>
          have hp := hR.pc t th be p ht (.inr hpc)
          obtain ⟨c, hc⟩ := Option.isSome_iff_exists.mp hp.2.2
          obtain ⟨_, y, hy, _⟩ := hR.cache t th _ c ht hc
          simp only [hc, hy]
          repeat' split
          all_goals rfl
    | exit t =>
      simp only [step]
      repeat' split
      all_goals rfl
    | remoteStore i tid b =>
      simp only [step]
      repeat' split
      all_goals rfl
    | remoteLoad i tid =>
      simp only [step]
      cases hm : s.snaps[i]? with
      | none => rfl
      | some m =>
        simp only
        cases hk : m.lookup tid with
        | none => rfl
        | some c =>
          have hlt := (List.getElem?_eq_some_iff.mp hm).1
          rw [hR.snapLen] at hlt
          obtain ⟨h5, _⟩ := hR.snap i m _ tid hm (by simp [hlt] : a.snaps[i]? = some a.snaps[i])
          obtain ⟨y, hy, _⟩ := h5 c hk
          simp only [hy]
          rfl
    | _ => rfl

/-- **C62, partial.** The switches and tracepoints fail only if a thread uses them after its own clean-up, and then the behaviour is
    undefined. -/
theorem only_late_calls_fail_partial (acts : List Act) (s : State) (h : run {} acts = .ok s) (x : Act) :
    (late s x → step s x = .ub) ∧
    (¬ late s x → (step s x).isOk = true) := fails_iff_late (R_run R_init acts h) x

/-- The full property C62: no history of tracing calls fails. -/
def NeverFails : Prop := ∀ acts : List Act, (run {} acts).isOk = true

/-- **C62 is violated** by a switch or tracepoint used after the thread's clean-up. -/
theorem late_call_is_undefined : ¬ NeverFails := by
  intro h
  have := h [.start 1, .getThread 0, .exit 0, .reach 0 .native (.mark 3 .thread)]
  revert this
  decide

end Scalopus.C62
