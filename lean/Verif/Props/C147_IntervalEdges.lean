import Verif.Model.IntervalEdges

/-!
# C147: a recording shows what happened while it was on

All statements quantify over all histories of any number of processes, their senders and a source.
-/

namespace Scalopus.C147

open IntervalEdges

/-- The events that happen in a history. -/
def happened : List Act → List Event
  | [] => []
  | .emit e :: as => e :: happened as
  | _ :: as => happened as

/-- Nothing in this history starts or ends a recording. -/
def Plain (as : List Act) : Prop := ∀ a ∈ as, a ≠ .start ∧ a ≠ .stop ∧ a ≠ .finish

/-- What is on its way from a process to the source, in order: first what was sent, then what waits in buffers. -/
def onTheWay (s : State) (p : Nat) : List Event := (s.flight.filter fun b => b.1 = p).flatMap (·.2) ++ s.waiting.filter fun e => e.proc = p

def ofProc (p : Nat) (l : List Event) : List Event := l.filter fun e => e.proc = p

/-- **C147** in full: what a finished recording shows is what happened between its start and its stop, for each process in order. -/
def Exact : Prop := ∀ before during after : List Act, Plain during → Plain after → ∀ p,
  ofProc p (run {} (before ++ .start :: during ++ .stop :: after ++ [.finish])).shown = ofProc p (happened during)

/-! ## Proofs -/

/-- Broadcasts hold events of their process. -/
def Own (s : State) : Prop := ∀ b ∈ s.flight, ∀ e ∈ b.2, e.proc = b.1

theorem next_spec (p : Nat) : ∀ (l : List (Nat × List Event)) (b : List Event) (rest : List (Nat × List Event)), next p l = some (b, rest) →
    (p, b) ∈ l ∧ (l.filter fun b => b.1 = p) = (p, b) :: (rest.filter fun b => b.1 = p) ∧ (∀ q, q ≠ p → (l.filter fun b => b.1 = q) = rest.filter fun b => b.1 = q) ∧ ∀ x ∈ rest, x ∈ l
  | [], b, rest, h => by simp [next] at h
  | c :: l, b, rest, h => by
    simp only [next] at h
    split at h
    · rename_i hc
      simp only [Option.some.injEq, Prod.mk.injEq] at h
      obtain ⟨rfl, rfl⟩ := h
      subst hc
      refine ⟨by simp, by simp, ?_, fun x hx => by simp [hx]⟩
      intro q hq
      rw [List.filter_cons_of_neg]
      simpa using fun h => hq h.symm
    · rename_i hc
      simp only [Option.map_eq_some_iff] at h
      obtain ⟨⟨b', r'⟩, h1, h2⟩ := h
      simp only [Prod.mk.injEq] at h2
      obtain ⟨rfl, rfl⟩ := h2
      obtain ⟨h3, h4, h5, h6⟩ := next_spec p l b' r' h1
      refine ⟨by simp [h3], by simp [hc, h4], ?_, ?_⟩
      · intro q hq
        have := h5 q hq
        by_cases hcq : c.1 = q <;> simp [hcq, this]
      · intro x hx
        simp only [List.mem_cons] at hx ⊢
        rcases hx with hx | hx
        · exact Or.inl hx
        · exact Or.inr (h6 x hx)

theorem next_none (p : Nat) : ∀ (l : List (Nat × List Event)), next p l = none → (l.filter fun b => b.1 = p) = []
  | [], _ => rfl
  | c :: l, h => by
    simp only [next] at h
    split at h
    · cases h
    · rename_i hc
      simp only [Option.map_eq_none_iff] at h
      simp [hc, next_none p l h]

theorem Own_step {s : State} (h : Own s) (a : Act) : Own (step s a) := by
  cases a with
  | emit e => exact h
  | collect p =>
    simp only [step]
    split
    · exact h
    · intro b hb
      simp only [List.mem_append, List.mem_singleton] at hb
      rcases hb with hb | rfl
      · exact h b hb
      · intro e he
        simpa using (List.mem_filter.mp he).2
  | arrive p =>
    simp only [step]
    split
    · exact h
    · rename_i b rest hn
      exact fun x hx => h x ((next_spec p _ _ _ hn).2.2.2 x hx)
  | start => exact h
  | stop => exact h
  | finish => exact h

theorem Own_run : ∀ (as : List Act) {s : State}, Own s → Own (run s as)
  | [], _, h => h
  | a :: as, _, h => Own_run as (Own_step h a)

theorem ofProc_self {p : Nat} {l : List Event} (h : ∀ e ∈ l, e.proc = p) : ofProc p l = l := by
  unfold ofProc
  rw [List.filter_eq_self]
  intro e he
  simpa using h e he

theorem ofProc_other {p q : Nat} (hq : q ≠ p) {l : List Event} (h : ∀ e ∈ l, e.proc = q) : ofProc p l = [] := by
  unfold ofProc
  rw [List.filter_eq_nil_iff]
  intro e he
  simpa [h e he] using hq

/-- One step while the recording is on or off: what was on the way or happens is now stored, thrown away or on the way. -/
theorem step_conserves {s : State} (ho : Own s) (a : Act) (ha : a ≠ .start ∧ a ≠ .stop ∧ a ≠ .finish) (p : Nat) :
    (step s a).recording = s.recording ∧ (step s a).shown = s.shown ∧
    (s.recording = true → ofProc p (step s a).store ++ onTheWay (step s a) p = ofProc p s.store ++ onTheWay s p ++ ofProc p (happened [a])) ∧
    (s.recording = false → (step s a).store = s.store ∧ ∃ l, l ++ onTheWay (step s a) p = onTheWay s p ++ ofProc p (happened [a])) := by
  cases a with
  | emit e =>
    refine ⟨rfl, rfl, fun _ => ?_, fun _ => ⟨rfl, [], ?_⟩⟩ <;>
    · simp only [step, onTheWay, happened, ofProc, List.filter_append, List.nil_append, List.append_assoc]
  | collect p' =>
    simp only [step]
    split
    · exact ⟨rfl, rfl, fun _ => by simp [happened, ofProc], fun _ => ⟨rfl, [], by simp [happened, ofProc]⟩⟩
    · have key : onTheWay { s with waiting := s.waiting.filter fun e => e.proc ≠ p', flight := s.flight ++ [(p', s.waiting.filter fun e => e.proc = p')] } p = onTheWay s p := by
        simp only [onTheWay, List.filter_append, List.flatMap_append, List.append_assoc]
        congr 1
        by_cases hp : p' = p
        · subst hp
          simp [List.filter_filter]
        · have h1 : List.filter (fun b : Nat × List Event => decide (b.1 = p)) [(p', s.waiting.filter fun e => e.proc = p')] = [] := by simp [hp]
          rw [h1, List.flatMap_nil, List.nil_append, List.filter_filter]
          apply List.filter_congr
          intro e _
          by_cases he : e.proc = p
          · simp [he, Ne.symm hp]
          · simp [he]
      refine ⟨rfl, rfl, fun _ => ?_, fun _ => ⟨rfl, [], ?_⟩⟩
      · rw [key]; simp [happened, ofProc]
      · rw [key]; simp [happened, ofProc]
  | arrive p' =>
    simp only [step]
    split
    · exact ⟨rfl, rfl, fun _ => by simp [happened, ofProc], fun _ => ⟨rfl, [], by simp [happened, ofProc]⟩⟩
    · rename_i b rest hn
      obtain ⟨h1, h2, h3, _⟩ := next_spec p' _ _ _ hn
      have hb := ho _ h1
      have hway : onTheWay s p = (if p' = p then b else []) ++ ((rest.filter fun b => b.1 = p).flatMap (·.2) ++ s.waiting.filter fun e => e.proc = p) := by
        unfold onTheWay
        by_cases hp : p' = p
        · subst hp; rw [h2]; simp
        · rw [h3 p (Ne.symm hp)]; simp [hp]
      refine ⟨rfl, rfl, fun hr => ?_, fun hr => ⟨by simp [hr], if p' = p then b else [], ?_⟩⟩
      · rw [hway]
        simp only [hr, ↓reduceIte, happened, ofProc, List.filter_nil, List.append_nil, List.filter_append, onTheWay, List.append_assoc]
        congr 2
        by_cases hp : p' = p
        · subst hp
          simpa [ofProc] using ofProc_self hb
        · simpa [hp, ofProc] using ofProc_other hp hb
      · rw [hway]
        simp [happened, ofProc, onTheWay]
  | start => exact absurd rfl ha.1
  | stop => exact absurd rfl ha.2.1
  | finish => exact absurd rfl ha.2.2

theorem happened_cons (a : Act) (as : List Act) : happened (a :: as) = happened [a] ++ happened as := by cases a <;> rfl

theorem ofProc_append (p : Nat) (l m : List Event) : ofProc p (l ++ m) = ofProc p l ++ ofProc p m := List.filter_append ..

theorem on_conserves (p : Nat) : ∀ (as : List Act) (s : State), Own s → Plain as → s.recording = true →
    (run s as).recording = true ∧ ofProc p (run s as).store ++ onTheWay (run s as) p = ofProc p s.store ++ onTheWay s p ++ ofProc p (happened as)
  | [], s, _, _, hr => ⟨hr, by simp [run, happened, ofProc]⟩
  | a :: as, s, ho, hp, hr => by
    obtain ⟨h1, _, h2, _⟩ := step_conserves ho a (hp a (by simp)) p
    obtain ⟨h3, h4⟩ := on_conserves p as (step s a) (Own_step ho a) (fun b hb => hp b (by simp [hb])) (by rw [h1]; exact hr)
    refine ⟨h3, ?_⟩
    show ofProc p (run (step s a) as).store ++ onTheWay (run (step s a) as) p = _
    rw [h4, h2 hr, happened_cons a as, ofProc_append, List.append_assoc]

theorem off_keeps : ∀ (as : List Act) (s : State), Own s → Plain as → s.recording = false → (run s as).recording = false ∧ (run s as).store = s.store
  | [], _, _, _, hr => ⟨hr, rfl⟩
  | a :: as, s, ho, hp, hr => by
    obtain ⟨h1, _, _, h2⟩ := step_conserves ho a (hp a (by simp)) 0
    obtain ⟨h3, h4⟩ := off_keeps as (step s a) (Own_step ho a) (fun b hb => hp b (by simp [hb])) (by rw [h1]; exact hr)
    exact ⟨h3, by show (run (step s a) as).store = _; rw [h4]; exact (h2 hr).1⟩

theorem run_append (s : State) (as bs : List Act) : run s (as ++ bs) = run (run s as) bs := List.foldl_append ..

/-- **C147, exactly.** Whatever happened before and happens after its stop, and for every process: what a finished recording shows, followed by what was on the way when it was stopped, is what was on the way when it was started,
    followed by what happened between. -/
theorem shown_exact (before during after : List Act) (hd : Plain during) (ha : Plain after) (p : Nat) :
    ofProc p (run {} (before ++ .start :: during ++ .stop :: after ++ [.finish])).shown ++ onTheWay (run {} (before ++ .start :: during)) p =
    onTheWay (run {} before) p ++ ofProc p (happened during) := by
  have ho : Own (run {} before) := Own_run before (by intro b hb; simp at hb)
  have ho1 : Own (step (run {} before) .start) := Own_step ho _
  obtain ⟨h1, h2⟩ := on_conserves p during (step (run {} before) .start) ho1 hd rfl
  have e1 : run {} (before ++ .start :: during) = run (step (run {} before) .start) during := by rw [run_append]; rfl
  have ho2 := Own_run during ho1
  obtain ⟨_, h3⟩ := off_keeps after (step (run (step (run {} before) .start) during) .stop) (Own_step ho2 _) ha rfl
  have e2 : (run {} (before ++ .start :: during ++ .stop :: after ++ [.finish])).shown = (run (step (run {} before) .start) during).store := by
    rw [run_append, run_append, e1]
    show (run (step (run (step (run {} before) .start) during) .stop) after).store = _
    rw [h3]; rfl
  rw [e2, e1, h2]
  simp [step, ofProc, onTheWay]

theorem arrivals_drain (p : Nat) : ∀ (k : Nat) (s : State), (s.flight.filter fun b => b.1 = p).length = k → (s.waiting.filter fun e => e.proc = p) = [] →
    onTheWay (run s (List.replicate k (.arrive p))) p = []
  | 0, s, h, hw => by
    simp only [List.length_eq_zero_iff] at h
    simp [run, onTheWay, h, hw]
  | k + 1, s, h, hw => by
    rw [List.replicate_succ]
    show onTheWay (run (step s (.arrive p)) _) p = []
    cases hn : next p s.flight with
    | none => rw [next_none p _ hn] at h; simp at h
    | some x =>
      obtain ⟨b, rest⟩ := x
      obtain ⟨_, h2, _⟩ := next_spec p _ _ _ hn
      apply arrivals_drain p k
      · simp only [step, hn]
        rw [h2] at h
        simpa using h
      · simpa [step, hn] using hw

/-- What is on the way can always arrive: with a round of the sender, and when its broadcasts have arrived, nothing is on the way. -/
theorem drains (s : State) (p : Nat) : ∃ n, onTheWay (run s (.collect p :: List.replicate n (.arrive p))) p = [] := by
  refine ⟨_, arrivals_drain p _ (step s (.collect p)) rfl ?_⟩
  simp only [step]
  split
  · assumption
  · simp [List.filter_filter]

/-- **C147, partial.** It is exact for a process of which nothing was on the way when the recording was started and when it was stopped. -/
theorem exact_partial (before during after : List Act) (hd : Plain during) (ha : Plain after) (p : Nat) (h1 : onTheWay (run {} before) p = []) (h2 : onTheWay (run {} (before ++ .start :: during)) p = []) :
    ofProc p (run {} (before ++ .start :: during ++ .stop :: after ++ [.finish])).shown = ofProc p (happened during) := by
  have := shown_exact before during after hd ha p
  rw [h1, h2] at this
  simpa using this

/-- **C147 fails at the start:** events that happened before the recording was started, and were still on the way, are shown, if as much has arrived by its stop. -/
theorem early_shown (before during after : List Act) (hd : Plain during) (ha : Plain after) (p : Nat) (h : (onTheWay (run {} (before ++ .start :: during)) p).length ≤ (ofProc p (happened during)).length) :
    onTheWay (run {} before) p <+: ofProc p (run {} (before ++ .start :: during ++ .stop :: after ++ [.finish])).shown := by
  have e := shown_exact before during after hd ha p
  have hl := congrArg List.length e
  simp only [List.length_append] at hl
  exact List.prefix_of_prefix_length_le ⟨_, e.symm⟩ ⟨_, rfl⟩ (by omega)

/-- **C147 fails at the end:** the last events that happened before the recording was stopped are missing, as many as were still on the way then; also if they arrive before it is finished. -/
theorem late_missing (before during after : List Act) (hd : Plain during) (ha : Plain after) (p : Nat) (h : (onTheWay (run {} (before ++ .start :: during)) p).length ≤ (ofProc p (happened during)).length) :
    onTheWay (run {} (before ++ .start :: during)) p <:+ ofProc p (happened during) ∧
    (ofProc p (run {} (before ++ .start :: during ++ .stop :: after ++ [.finish])).shown).length + (onTheWay (run {} (before ++ .start :: during)) p).length =
      (onTheWay (run {} before) p).length + (ofProc p (happened during)).length := by
  have e := shown_exact before during after hd ha p
  have hl := congrArg List.length e
  simp only [List.length_append] at hl
  exact ⟨List.suffix_of_suffix_length_le ⟨_, e⟩ ⟨_, rfl⟩ h, hl⟩

/-- **C147 fails in the next recording:** what was on the way when a recording was stopped, and did not arrive until the next one was started, is shown in that one. -/
theorem shown_in_next (before during during' after' : List Act) (hd' : Plain during') (ha' : Plain after') (p : Nat) (e : Event)
    (he : e ∈ onTheWay (run {} (before ++ .start :: during ++ [.stop, .finish])) p)
    (hend : e ∉ onTheWay (run {} (before ++ .start :: during ++ [.stop, .finish] ++ .start :: during')) p) :
    e ∈ (run {} (before ++ .start :: during ++ [.stop, .finish] ++ .start :: during' ++ .stop :: after' ++ [.finish])).shown := by
  have h := shown_exact (before ++ .start :: during ++ [.stop, .finish]) during' after' hd' ha' p
  have hm : e ∈ onTheWay (run {} (before ++ .start :: during ++ [.stop, .finish])) p ++ ofProc p (happened during') := List.mem_append_left _ he
  rw [← h] at hm
  rcases List.mem_append.mp hm with hm | hm
  · exact (List.mem_filter.mp hm).1
  · exact absurd hm hend

theorem not_Exact : ¬ Exact := by
  intro h
  have := h [.emit ⟨1, 1, true, 7, 100⟩, .collect 1] [.arrive 1] [] (by simp [Plain]) (by simp [Plain]) 1
  revert this
  decide

/-- Both edges: an event before the start that is shown, one during it, and one before the stop that is missing and shown in the next recording. -/
def early : Event := ⟨1, 1, false, 7, 99⟩
def inside : Event := ⟨1, 1, true, 8, 101⟩
def late : Event := ⟨1, 1, false, 8, 102⟩

example : (run {} ([.emit early] ++ .start :: [.emit inside, .collect 1, .emit late, .arrive 1] ++ .stop :: [.collect 1] ++ [.finish])).shown = [early, inside] ∧
    onTheWay (run {} ([.emit early] ++ .start :: [.emit inside, .collect 1, .emit late, .arrive 1])) 1 = [late] := by decide
example : late ∈ onTheWay (run {} ([.emit early] ++ .start :: [.emit inside, .collect 1, .emit late, .arrive 1] ++ [.stop, .finish])) 1 ∧
    late ∉ onTheWay (run {} ([.emit early] ++ .start :: [.emit inside, .collect 1, .emit late, .arrive 1] ++ [.stop, .finish] ++ .start :: [.collect 1, .arrive 1])) 1 := by decide
/-- Nothing on the way at both edges. -/
example : onTheWay (run {} [.emit early, .collect 1, .arrive 1]) 1 = [] ∧ onTheWay (run {} ([.emit early, .collect 1, .arrive 1] ++ .start :: [.emit inside, .emit late, .collect 1, .arrive 1])) 1 = [] ∧
    Plain [.emit inside, .emit late, .collect 1, .arrive 1] := by
  refine ⟨by decide, by decide, by simp [Plain]⟩

end Scalopus.C147
