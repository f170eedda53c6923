import Verif.Proofs.LttngSessions

/-!
# C53: LTTng events are delivered to recording sessions only

`Reachable` ranges over all executions: any lines, any number of sources started, stopped and destroyed at any time, and any interleaving with the parser.
-/

namespace Scalopus.C53

open LttngSessions
open Ctf (Event Text)

/-- What the parser makes of the lines it has passed since `n`. -/
def since (keyFirst : Bool) (s : State) (n : Nat) : List (Res Event) := (s.passed.drop n).map (Ctf.parse keyFirst)

/-- **C53, exactly once.** In every execution, a session that is still recording has received, once and in order, the event of every line passed since it was added, as soon as the
    parser has passed the line on. -/
theorem recording_session_has_all (keyFirst : Bool) (s : State) (h : Reachable keyFirst s) (hf : s.fate = .running) (hw : s.parser.locked = false) (c : Nat) (x : Session)
    (hx : s.sessions[c]? = some x) (ha : x.active = true) : x.received.map Res.ok = since keyFirst s x.since := by
  have hi := ((inv_reachable h hf).sess c x hx).ex (.inl ha)
  have hd : due s.parser c = [] := by
    cases hp : s.parser <;> rw [hp] at hw <;> simp [Parser.locked, due, pend] at hw ⊢
  rw [hd, List.append_nil] at hi
  exact hi

/-- **C53, nothing else.** In every execution, what a session has received are the events of the first lines since it was added: nothing twice, nothing out of order, no gaps. -/
theorem received_is_prefix (keyFirst : Bool) (s : State) (h : Reachable keyFirst s) (hf : s.fate = .running) (c : Nat) (x : Session) (hx : s.sessions[c]? = some x) :
    x.received.map Res.ok <+: since keyFirst s x.since :=
  ((inv_reachable h hf).sess c x hx).pre

/-- The states that follow `s`. -/
inductive Later (keyFirst : Bool) (s : State) : State → Prop
  | refl : Later keyFirst s s
  | step {t t' : State} {a : Act} : Later keyFirst s t → step keyFirst t a = some t' → Later keyFirst s t'

theorem recording_sub {keyFirst : Bool} {s s' : State} {a : Act} (hs : step keyFirst s a = some s') (c : Nat) (hc : c < s.sessions.length) (hm : c ∈ s'.recording) :
    c ∈ s.recording := by
  unfold step at hs
  split at hs
  · cases hs
  · split at hs
    · split at hs
      · cases hs; exact hm
      · cases hs
    · unfold parserStep at hs
      grind
    · cases hs; exact hm
    · grind
    · unfold userStep at hs
      have : ∀ p, p ≤ s.recording.length → c ∈ s.recording.insertIdx p s.sessions.length → c ∈ s.recording := by
        intro p hp hm
        rcases (mem_insertIdx hp).mp hm with h | h
        · omega
        · exact h
      grind

theorem received_same {keyFirst : Bool} {s s' : State} {a : Act} (hi : Inv keyFirst s) (hs : step keyFirst s a = some s') (c : Nat) (x : Session)
    (hx : s.sessions[c]? = some x) (hc : c ∉ s.recording) : ∃ x', s'.sessions[c]? = some x' ∧ x'.received = x.received := by
  unfold step at hs
  split at hs
  · cases hs
  · split at hs
    · grind
    · rcases parserStep_cases hs with ⟨h1, h2⟩ | ⟨e, d, todo, y, z, h1, h2, h3, h4, h5⟩
      · exact ⟨x, by rw [h1]; exact hx, rfl⟩
      · have hd := hi.sub d (by rw [h1]; simp [pend])
        have : d ≠ c := by rintro rfl; exact hc hd
        exact ⟨x, by rw [h4, List.getElem?_set_ne this]; exact hx, rfl⟩
    · grind
    · grind
    · unfold userStep at hs
      have : c < s.sessions.length := by
        rw [List.getElem?_eq_some_iff] at hx
        exact hx.1
      have key : ∀ (d : Nat) (w w' : Session), s.sessions[d]? = some w → w'.received = w.received →
          ∃ x', (s.sessions.set d w')[c]? = some x' ∧ x'.received = x.received := by
        intro d w w' hd hw
        by_cases hdc : d = c
        · subst hdc
          rw [hx] at hd
          cases hd
          exact ⟨w', by rw [List.getElem?_set_self this], hw⟩
        · exact ⟨x, by rw [List.getElem?_set_ne hdc]; exact hx, rfl⟩
      split at hs
      · cases hs
      · split at hs
        · cases hs
        · split at hs
          · cases hs
          · split at hs
            · cases hs
            · rename_i w hw
              cases hs
              exact key _ w _ hw rfl
        · split at hs
          · cases hs
          · split at hs
            · cases hs
            · rename_i w hw
              cases hs
              exact key _ w _ hw rfl
        · cases hs
          exact ⟨x, hx, rfl⟩
        · split at hs
          · cases hs
          · cases hs
            exact ⟨x, by rw [List.getElem?_append_left this]; exact hx, rfl⟩

/-- **C53, never after.** In every execution, a session that the parser has found inactive, and removed from the set, never receives anything again. -/
theorem never_after_removed (keyFirst : Bool) (s : State) (h : Reachable keyFirst s) (c : Nat) (x : Session) (hx : s.sessions[c]? = some x) (hc : c ∉ s.recording)
    (t : State) (ht : Later keyFirst s t) : ∃ x', t.sessions[c]? = some x' ∧ x'.received = x.received := by
  have key : Reachable keyFirst t ∧ c ∉ t.recording ∧ ∃ x', t.sessions[c]? = some x' ∧ x'.received = x.received := by
    induction ht with
    | refl => exact ⟨h, hc, x, hx, rfl⟩
    | step _ hs ih =>
      obtain ⟨h1, h2, x', h3, h4⟩ := ih
      have hl : c < _ := (List.getElem?_eq_some_iff.mp h3).1
      obtain ⟨x'', h5, h6⟩ := received_same (inv_reachable h1 (fate_running hs)) hs c x' h3 h2
      exact ⟨.step h1 trivial hs, fun hm => h2 (recording_sub hs c hl hm), x'', h5, h6.trans h4⟩
  exact key.2.2

/-- **C53, partial: sources.** In executions in which no method of a source runs while the parser passes an event on, the events of a recording source are exactly those of the lines
    passed since `startInterval`. Missing: executions in which they do; see below. -/
theorem source_events_partial (keyFirst : Bool) (s : State) (h : ReachableBy keyFirst Quiet s) (hf : s.fate = .running) (hw : s.parser.locked = false)
    (i : Nat) (y : Source) (hy : s.sources[i]? = some y) (c : Nat) (hc : y.current = some c) (hu : y.user = .idle) :
    ∃ x, s.sessions[c]? = some x ∧ y.events.map Res.ok = since keyFirst s x.since := by
  have hq := q_reachable h (fun _ _ h => h) hf
  obtain ⟨x, hx, _, hok⟩ := hq.inv.cur i y c hy hc
  rw [hu] at hok
  refine ⟨x, hx, ?_⟩
  rw [hq.eve i y c x hy hc hx]
  have hi := (hq.inv.sess c x hx).ex (.inl hok.1)
  have hd : due s.parser c = [] := by
    cases hp : s.parser <;> rw [hp] at hw <;> simp [Parser.locked, due, pend] at hw ⊢
  rw [hd, List.append_nil] at hi
  exact hi

/-- A step of a quiet execution in which every line read can be parsed. -/
def QuietParsed (keyFirst : Bool) (s : State) (a : Act) : Prop := Quiet s a ∧ ∀ l, a = .read l → ∃ e, Ctf.parse keyFirst l = .ok e

/-- **C53, partial: no failure.** In such executions, if every line can be parsed, the process goes on. -/
theorem keeps_running_partial (keyFirst : Bool) (s : State) (h : ReachableBy keyFirst (QuietParsed keyFirst) s) : s.fate = .running := by
  have key : s.fate = .running ∧ ∀ l, s.parser = .line l → ∃ e, Ctf.parse keyFirst l = .ok e := by
    induction h with
    | init => exact ⟨rfl, by simp⟩
    | @step s s' a hr hp hs ih =>
      have hq := q_reachable hr (fun _ _ h => h.1) ih.1
      unfold LttngSessions.step at hs
      rw [if_neg (by simp [ih.1])] at hs
      split at hs
      · rename_i l
        split at hs
        · cases hs
          exact ⟨ih.1, fun l' hl => by cases hl; exact hp.2 l rfl⟩
        · cases hs
      · have h1 := hq.act
        have h2 := hq.own
        have h3 := ih.2
        have h4 := ih.1
        unfold parserStep at hs
        split at hs
        · cases hs
        · rename_i l hl
          obtain ⟨e, he⟩ := h3 l hl
          rw [he] at hs
          split at hs <;> cases hs <;> exact ⟨h4, by simp⟩
        · cases hs; exact ⟨h4, by simp⟩
        · split at hs
          · cases hs
          · split at hs <;> cases hs <;> exact ⟨h4, by simp⟩
        · split at hs
          · cases hs
          · split at hs <;> cases hs <;> exact ⟨h4, by simp⟩
        · rename_i e c todo hpar
          obtain ⟨x, hx, _, hx3⟩ := h1 c (by rw [hpar]; rfl)
          rw [hx] at hs
          simp only [hx3, if_true] at hs
          cases hs
          exact ⟨h4, by simp⟩
        · rename_i e c todo hpar
          obtain ⟨x, hx, hx2, hx3⟩ := h1 c (by rw [hpar]; rfl)
          obtain ⟨y, hy, _, hy3⟩ := h2 c x hx hx2
          rw [hx] at hs
          simp only [hy, hy3, if_true] at hs
          cases hs
          exact ⟨h4, by simp⟩
      · cases hs; exact ih
      · split at hs
        · cases hs
        · split at hs <;> cases hs
          exact ih
      · unfold userStep at hs
        have h3 := ih.2
        have h4 := ih.1
        grind
  exact key.1

/-- A line of babeltrace. -/
def line : Text := "[1.000000000] h scalopus_scope_id:scope_entry: { cpu_id = 2 }, { vpid = 7, pthread_id = 8 }, { id = 5 }".toList

theorem line_parsed (keyFirst : Bool) : ∃ e, Ctf.parse keyFirst line = .ok e := by
  have h : (match Ctf.parse keyFirst line with | .ok _ => true | _ => false) = true := by cases keyFirst <;> decide +kernel
  cases hp : Ctf.parse keyFirst line with
  | ok e => exact ⟨e, rfl⟩
  | throws x => rw [hp] at h; cases h
  | ub => rw [hp] at h; cases h
  | terminate => rw [hp] at h; cases h

/-- A source records, and the parser has found its session to be active and its function to be set. -/
def delivering (e : Event) : State :=
  { parser := .call e 0 [], sessions := [{ source := 0, since := 0 }], recording := [0], sources := [{ current := some 0 }], passed := [line] }

theorem delivering_reachable (keyFirst : Bool) (e : Event) (he : Ctf.parse keyFirst line = .ok e) : Reachable keyFirst (delivering e) := by
  refine .step (a := .parser) (s := { delivering e with parser := .test e 0 [] }) ?_ trivial rfl
  refine .step (a := .parser) (s := { delivering e with parser := .scan e [0] }) ?_ trivial rfl
  refine .step (a := .parser) (s := { delivering e with parser := .line line, passed := [] }) ?_ trivial (by simp [LttngSessions.step, parserStep, delivering, he])
  refine .step (a := .read line) (s := { delivering e with parser := .wait, passed := [] }) ?_ trivial rfl
  refine .step (a := .user 0 0) (s := { sources := [{ user := .insert }] }) ?_ trivial rfl
  refine .step (a := .user 0 0) (s := { sources := [{ user := .clear }] }) ?_ trivial rfl
  refine .step (a := .begin 0 .start) (s := { sources := [{}] }) ?_ trivial rfl
  exact .step (a := .make) .init trivial rfl

/-- **C53** in full for sources: no race with the parser, the process goes on, and a source receives nothing while it does not record. -/
def OnlyRecording : Prop :=
  ∀ keyFirst s, Reachable keyFirst s → ¬ Race s ∧
    (∀ a s', (∀ l, s.parser = .line l → ∃ e, Ctf.parse keyFirst l = .ok e) → LttngSessions.step keyFirst s a = some s' → s'.fate = .running) ∧
    ∀ s', LttngSessions.step keyFirst s .parser = some s' → ∀ (i : Nat) (y y' : Source), s.sources[i]? = some y → y.current = none → s'.sources[i]? = some y' → y'.events = y.events

/-- **C53 fails:** `stopInterval` writes the session without the mutex, and races with the parser. -/
theorem stop_races (keyFirst : Bool) : ∃ s, Reachable keyFirst s ∧ Race s := by
  obtain ⟨e, he⟩ := line_parsed keyFirst
  refine ⟨_, .step (a := .begin 0 .stop) (delivering_reachable keyFirst e he) trivial rfl, rfl, 0, ⟨.session 0, false, true⟩, ?_, ⟨.session 0, true, false⟩, ?_, rfl, .inr rfl, by simp⟩
  · simp [parserAccess, delivering]
  · simp [userAccess, delivering]

/-- **C53 fails:** if an interval is stopped between the parser's test of the function and its call, an empty function is called and the process is terminated. -/
theorem stop_can_terminate (keyFirst : Bool) : ∃ s, Reachable keyFirst s ∧ s.fate = .terminated ∧ ∀ l ∈ s.passed, ∃ e, Ctf.parse keyFirst l = .ok e := by
  obtain ⟨e, he⟩ := line_parsed keyFirst
  refine ⟨_, .step (a := .parser) (.step (a := .user 0 0) (.step (a := .user 0 0) (.step (a := .begin 0 .stop) (delivering_reachable keyFirst e he) trivial rfl) trivial rfl) trivial rfl) trivial rfl, rfl, ?_⟩
  intro l hl
  simp only [delivering, List.mem_singleton] at hl
  exact ⟨e, hl ▸ he⟩

/-- **C53 fails:** an event can be pushed to a source after its `stopInterval` has returned. -/
theorem received_while_stopped (keyFirst : Bool) : ∃ s s' : State, Reachable keyFirst s ∧ LttngSessions.step keyFirst s .parser = some s' ∧
    ∃ y y' : Source, s.sources[0]? = some y ∧ y.current = none ∧ y.user = .idle ∧ s'.sources[0]? = some y' ∧ y'.events ≠ y.events := by
  obtain ⟨e, he⟩ := line_parsed keyFirst
  refine ⟨_, _, .step (a := .user 0 0) (.step (a := .user 0 0) (.step (a := .begin 0 .stop) (.step (a := .parser) (delivering_reachable keyFirst e he) trivial rfl) trivial rfl) trivial rfl) trivial rfl,
    rfl, _, _, rfl, rfl, rfl, rfl, ?_⟩
  simp

/-- **C53 fails:** an event can be pushed to a source that has been destroyed: undefined behaviour. -/
theorem pushed_to_destroyed (keyFirst : Bool) : ∃ s, Reachable keyFirst s ∧ s.fate = .ub := by
  obtain ⟨e, he⟩ := line_parsed keyFirst
  exact ⟨_, .step (a := .parser) (.step (a := .user 0 0) (.step (a := .user 0 0) (.step (a := .begin 0 .destroy) (.step (a := .parser) (delivering_reachable keyFirst e he) trivial rfl)
    trivial rfl) trivial rfl) trivial rfl) trivial rfl, rfl⟩

/-- **C53 fails:** a new interval can begin with an event of the one before. -/
theorem event_of_old_interval (keyFirst : Bool) : ∃ s, Reachable keyFirst s ∧ s.fate = .running ∧ s.parser = .wait ∧
    ∃ (y : Source) (c : Nat) (x : Session), s.sources[0]? = some y ∧ y.user = .idle ∧ y.current = some c ∧ s.sessions[c]? = some x ∧ x.since = s.passed.length ∧ y.events ≠ [] := by
  obtain ⟨e, he⟩ := line_parsed keyFirst
  have h1 : Reachable keyFirst _ := .step (a := .user 0 0) (.step (a := .user 0 0) (.step (a := .begin 0 .start) (.step (a := .parser) (delivering_reachable keyFirst e he) trivial rfl)
    trivial rfl) trivial rfl) trivial rfl
  have h2 : Reachable keyFirst _ := .step (a := .parser) (.step (a := .parser) (.step (a := .user 0 0) h1 trivial rfl) trivial rfl) trivial rfl
  refine ⟨_, .step (a := .user 0 0) h2 trivial rfl, rfl, rfl, _, _, _, rfl, rfl, rfl, rfl, rfl, ?_⟩
  simp

/-- **C53 fails** as a whole. -/
theorem not_only_recording : ¬ OnlyRecording := by
  intro h
  obtain ⟨s, h1, h2⟩ := stop_races false
  exact (h false s h1).1 h2

/-- The condition of `source_events_partial` is met: a source records and has received an event. -/
example (keyFirst : Bool) : ∃ s, ReachableBy keyFirst Quiet s ∧ s.fate = .running ∧ s.parser.locked = false ∧
    ∃ y : Source, s.sources[0]? = some y ∧ y.current = some 0 ∧ y.user = .idle ∧ y.events.length = 1 := by
  obtain ⟨e, he⟩ := line_parsed keyFirst
  refine ⟨{ delivering e with parser := .wait, sessions := [{ source := 0, since := 0, received := [e] }], sources := [{ current := some 0, events := [e] }] }, ?_, rfl, rfl, _, rfl, rfl, rfl, rfl⟩
  refine .step (a := .parser) (s := { delivering e with parser := .scan e [], sessions := [{ source := 0, since := 0, received := [e] }], sources := [{ current := some 0, events := [e] }] }) ?_ trivial rfl
  refine .step (a := .parser) (s := { delivering e with parser := .run e 0 [] }) ?_ trivial rfl
  refine .step (a := .parser) (s := delivering e) ?_ trivial rfl
  refine .step (a := .parser) (s := { delivering e with parser := .test e 0 [] }) ?_ trivial rfl
  refine .step (a := .parser) (s := { delivering e with parser := .scan e [0] }) ?_ trivial rfl
  refine .step (a := .parser) (s := { delivering e with parser := .line line, passed := [] }) ?_ trivial (by simp [LttngSessions.step, parserStep, delivering, he])
  refine .step (a := .read line) (s := { delivering e with parser := .wait, passed := [] }) ?_ trivial rfl
  refine .step (a := .user 0 0) (s := { sources := [{ user := .insert }] }) ?_ rfl rfl
  refine .step (a := .user 0 0) (s := { sources := [{ user := .clear }] }) ?_ rfl rfl
  refine .step (a := .begin 0 .start) (s := { sources := [{}] }) ?_ rfl rfl
  exact .step (a := .make) .init trivial rfl

end Scalopus.C53
