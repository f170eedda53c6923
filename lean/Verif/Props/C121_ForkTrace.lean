import Verif.Model.ForkTrace

/-!
# C121: events of programs that fork

Every event is sent at most once, under the id of the process in which it happened; a process that was made with `fork` and sets up tracing has its events sent, and answers with its own process id. The
code keeps this only if nothing waits in the buffers and the mutex of the map is free when the program forks, and if the endpoints are created after the fork.
-/

namespace Scalopus.C121

open ForkTrace

/-! ## Specification -/

/-- The events that wait in the buffers of a process. -/
def waiting (v : Proc) : List Event := v.bufs.flatMap (·.2)

/-- The state after some history. -/
def Reach (s : State) : Prop := ∃ acts, run {} acts = some s

/-- Every event was sent at most once and under the process in which it happened. -/
def OnceUnderOwn (s : State) : Prop := (s.sent.map (·.2)).Nodup ∧ ∀ p e, (p, e) ∈ s.sent → e.origin = p

/-- States of programs that fork only when no event waits. -/
inductive Quiet : State → Prop
  | init : Quiet {}
  | step {s s' : State} {a : Act} (h : Quiet s) (hq : ∀ p t q v, a = .fork p t q → s.procs p = some v → waiting v = []) (hs : step s a = some s') : Quiet s'

/-! ## Buffers -/

theorem push_perm {t : Nat} {e : Event} {bs : List (Nat × List Event)} (h : has bs t = true) : ((push t e bs).flatMap (·.2)).Perm (e :: bs.flatMap (·.2)) := by
  induction bs with
  | nil => simp [has] at h
  | cons b bs ih =>
    obtain ⟨u, l⟩ := b
    simp only [push]
    by_cases hu : u = t
    · rw [if_pos hu]
      simp only [List.flatMap_cons, List.append_assoc, List.cons_append, List.nil_append]
      exact List.perm_middle
    · rw [if_neg hu]
      have h' : has bs t = true := by simpa [has, hu] using h
      simp only [List.flatMap_cons]
      exact ((ih h').append_left l).trans List.perm_middle

theorem take_perm (t : Nat) (bs : List (Nat × List Event)) : ((take t bs).1 ++ (take t bs).2.flatMap (·.2)).Perm (bs.flatMap (·.2)) := by
  induction bs with
  | nil => exact .refl _
  | cons b bs ih =>
    obtain ⟨u, l⟩ := b
    simp only [take]
    by_cases hu : u = t
    · rw [if_pos hu]; exact .refl _
    · rw [if_neg hu]
      simp only [List.flatMap_cons]
      rw [← List.append_assoc]
      refine (List.perm_append_comm.append_right _).trans ?_
      rw [List.append_assoc]
      exact ih.append_left l

/-! ## What a step changes -/

theorem upd_same {f : Nat → Option Proc} {p : Nat} {v : Proc} : upd f p v p = some v := by simp [upd]

theorem upd_ne {f : Nat → Option Proc} {p q : Nat} {v : Proc} (h : q ≠ p) : upd f p v q = f q := by simp [upd, h]

/-- What becomes of the events that wait in a process. -/
theorem waiting_step {s s' : State} {a : Act} (h : step s a = some s') {p : Nat} {v' : Proc} (hv : s'.procs p = some v') :
    (∃ v, s.procs p = some v ∧ waiting v' = waiting v) ∨ waiting v' = [] ∨
      (∃ t v, a = .emit p t ∧ s.procs p = some v ∧ has v.bufs t = true ∧ waiting v' = (push t ⟨p, s.next⟩ v.bufs).flatMap (·.2)) ∨
      (∃ t v, a = .collect p t ∧ s.procs p = some v ∧ waiting v' = (take t v.bufs).2.flatMap (·.2)) ∨
      (∃ r t v, a = .fork r t p ∧ s.procs r = some v ∧ s.procs p = none ∧ waiting v' = waiting v) := by
  cases a <;> simp only [step] at h
  case start q t =>
    split at h
    · cases h
    · cases h
      by_cases hp : p = q
      · subst hp; simp only [upd_same, Option.some.injEq] at hv; subst hv; exact .inr (.inl rfl)
      · simp only [upd_ne hp] at hv; exact .inl ⟨v', hv, rfl⟩
  case fork r t q =>
    split at h
    · rename_i v hr hq
      split at h
      · cases h
        by_cases hp : p = q
        · subst hp; simp only [upd_same, Option.some.injEq] at hv; subst hv
          exact .inr (.inr (.inr (.inr ⟨r, t, v, rfl, hr, hq, rfl⟩)))
        · simp only [upd_ne hp] at hv; exact .inl ⟨v', hv, rfl⟩
      · cases h
    · cases h
  case emit q t =>
    split at h
    · rename_i v hr
      split at h
      · rename_i hc
        cases h
        by_cases hp : p = q
        · subst hp; simp only [upd_same, Option.some.injEq] at hv; subst hv
          exact .inr (.inr (.inl ⟨t, v, rfl, hr, hc.2, rfl⟩))
        · simp only [upd_ne hp] at hv; exact .inl ⟨v', hv, rfl⟩
      · cases h
    · cases h
  case collect q t =>
    split at h
    · rename_i v hr
      split at h
      · cases h
        by_cases hp : p = q
        · subst hp; simp only [upd_same, Option.some.injEq] at hv; subst hv
          exact .inr (.inr (.inr (.inl ⟨t, v, rfl, hr, rfl⟩)))
        · simp only [upd_ne hp] at hv; exact .inl ⟨v', hv, rfl⟩
      · cases h
    · cases h
  case register q t =>
    split at h
    · rename_i v hr
      split at h
      · cases h
        by_cases hp : p = q
        · subst hp; simp only [upd_same, Option.some.injEq] at hv; subst hv
          exact .inl ⟨v, hr, by simp [waiting]⟩
        · simp only [upd_ne hp] at hv; exact .inl ⟨v', hv, rfl⟩
      · cases h
    · cases h
  case newInfo q =>
    split at h
    · rename_i v hr
      cases h
      by_cases hp : p = q
      · subst hp; simp only [upd_same, Option.some.injEq] at hv; subst hv
        exact .inl ⟨v, hr, rfl⟩
      · simp only [upd_ne hp] at hv; exact .inl ⟨v', hv, rfl⟩
    · cases h
  case ask q i =>
    split at h
    · split at h
      · cases h; exact .inl ⟨v', hv, rfl⟩
      · cases h
    · cases h
  case thread q t =>
    split at h
    · rename_i v hr
      split at h
      · cases h
      · cases h
        by_cases hp : p = q
        · subst hp; simp only [upd_same, Option.some.injEq] at hv; subst hv
          exact .inl ⟨v, hr, rfl⟩
        · simp only [upd_ne hp] at hv; exact .inl ⟨v', hv, rfl⟩
    · cases h
  case sender q =>
    split at h
    · rename_i v hr
      split at h
      · cases h
      · cases h
        by_cases hp : p = q
        · subst hp; simp only [upd_same, Option.some.injEq] at hv; subst hv
          exact .inl ⟨v, hr, rfl⟩
        · simp only [upd_ne hp] at hv; exact .inl ⟨v', hv, rfl⟩
    · cases h
  case lock q t =>
    split at h
    · rename_i v hr
      split at h
      · cases h
        by_cases hp : p = q
        · subst hp; simp only [upd_same, Option.some.injEq] at hv; subst hv
          exact .inl ⟨v, hr, rfl⟩
        · simp only [upd_ne hp] at hv; exact .inl ⟨v', hv, rfl⟩
      · cases h
    · cases h
  case unlock q t =>
    split at h
    · rename_i v hr
      split at h
      · cases h
        by_cases hp : p = q
        · subst hp; simp only [upd_same, Option.some.injEq] at hv; subst hv
          exact .inl ⟨v, hr, rfl⟩
        · simp only [upd_ne hp] at hv; exact .inl ⟨v', hv, rfl⟩
      · cases h
    · cases h
  case share q t =>
    split at h
    · rename_i v hr
      split at h
      · cases h
        by_cases hp : p = q
        · subst hp; simp only [upd_same, Option.some.injEq] at hv; subst hv
          exact .inl ⟨v, hr, rfl⟩
        · simp only [upd_ne hp] at hv; exact .inl ⟨v', hv, rfl⟩
      · cases h
    · cases h
  case unshare q t =>
    split at h
    · rename_i v hr
      split at h
      · cases h
        by_cases hp : p = q
        · subst hp; simp only [upd_same, Option.some.injEq] at hv; subst hv
          exact .inl ⟨v, hr, rfl⟩
        · simp only [upd_ne hp] at hv; exact .inl ⟨v', hv, rfl⟩
      · cases h
    · cases h
  case copyMap q =>
    split at h
    · rename_i v hr
      split at h
      · cases h
        by_cases hp : p = q
        · subst hp; simp only [upd_same, Option.some.injEq] at hv; subst hv
          exact .inl ⟨v, hr, rfl⟩
        · simp only [upd_ne hp] at hv; exact .inl ⟨v', hv, rfl⟩
      · cases h
    · cases h

/-- What is sent. -/
theorem sent_step {s s' : State} {a : Act} (h : step s a = some s') :
    (s'.sent = s.sent ∧ ∀ p t, a ≠ .collect p t) ∨
      ∃ p t v, a = .collect p t ∧ s.procs p = some v ∧ v.sender = true ∧ t ∈ v.snap ∧ s'.sent = s.sent ++ (take t v.bufs).1.map fun e => (p, e) := by
  cases a
  case collect q t =>
    simp only [step] at h
    split at h
    · rename_i v hr
      split at h
      · rename_i hc
        cases h
        exact .inr ⟨q, t, v, rfl, hr, hc.1, by simpa using hc.2, rfl⟩
      · cases h
    · cases h
  all_goals
    refine .inl ⟨?_, fun p t => by simp⟩
    simp only [step] at h
    repeat' split at h
    all_goals first | cases h; done | (cases h; rfl)

theorem next_step {s s' : State} {a : Act} (h : step s a = some s') : s.next ≤ s'.next ∧ ((∃ p t, a = .emit p t) → s'.next = s.next + 1) := by
  cases a <;> simp only [step] at h
  all_goals
    repeat' split at h
    all_goals first
      | cases h; done
      | (cases h; simp)

/-! ## Programs that fork when nothing waits -/

structure Inv (s : State) : Prop where
  wait : ∀ p v, s.procs p = some v → ∀ e ∈ waiting v, e.origin = p ∧ e.nr < s.next ∧ ∀ q, (q, e) ∉ s.sent
  nodup : ∀ p v, s.procs p = some v → (waiting v).Nodup
  sent : ∀ p e, (p, e) ∈ s.sent → e.origin = p ∧ e.nr < s.next
  once : (s.sent.map (·.2)).Nodup

theorem quiet_inv {s : State} (h : Quiet s) : Inv s := by
  induction h with
  | init => exact ⟨(fun _ _ h => by cases h), (fun _ _ h => by cases h), (fun _ _ h => by cases h), .nil⟩
  | @step s s' a hq hf hs ih =>
    have hn := next_step hs
    rcases sent_step hs with ⟨hsent, hnc⟩ | ⟨p0, t0, v0, rfl, hp0, _, _, hsent⟩
    · refine ⟨?_, ?_, ?_, by rw [hsent]; exact ih.once⟩
      · intro p v' hv e he
        rw [hsent]
        rcases waiting_step hs hv with ⟨v, h1, h2⟩ | h2 | ⟨t, v, ha, h1, h3, h2⟩ | ⟨t, v, ha, _⟩ | ⟨r, t, v, ha, h1, _, h2⟩
        · obtain ⟨a1, a2, a3⟩ := ih.wait p v h1 e (h2 ▸ he)
          exact ⟨a1, Nat.lt_of_lt_of_le a2 hn.1, a3⟩
        · rw [h2] at he; cases he
        · rw [h2] at he
          have := hn.2 ⟨p, t, ha⟩
          rcases List.mem_cons.1 ((push_perm h3).mem_iff.1 he) with rfl | he
          · refine ⟨rfl, by rw [this]; exact Nat.lt_succ_self _, fun q hq => ?_⟩
            exact absurd (ih.sent q _ hq).2 (Nat.lt_irrefl _)
          · obtain ⟨a1, a2, a3⟩ := ih.wait p v h1 e he
            exact ⟨a1, Nat.lt_of_lt_of_le a2 hn.1, a3⟩
        · exact absurd ha (hnc p t)
        · rw [h2, hf r t p v ha h1] at he; cases he
      · intro p v' hv
        rcases waiting_step hs hv with ⟨v, h1, h2⟩ | h2 | ⟨t, v, ha, h1, h3, h2⟩ | ⟨t, v, ha, _⟩ | ⟨r, t, v, ha, h1, _, h2⟩
        · rw [h2]; exact ih.nodup p v h1
        · rw [h2]; exact .nil
        · rw [h2, (push_perm h3).nodup_iff, List.nodup_cons]
          exact ⟨fun he => absurd (ih.wait p v h1 _ he).2.1 (Nat.lt_irrefl _), ih.nodup p v h1⟩
        · exact absurd ha (hnc p t)
        · rw [h2, hf r t p v ha h1]; exact .nil
      · intro p e he
        rw [hsent] at he
        exact ⟨(ih.sent p e he).1, Nat.lt_of_lt_of_le (ih.sent p e he).2 hn.1⟩
    · have hperm := take_perm t0 v0.bufs
      have hnd : ((take t0 v0.bufs).1 ++ (take t0 v0.bufs).2.flatMap (·.2)).Nodup := hperm.nodup_iff.2 (ih.nodup p0 v0 hp0)
      rw [List.nodup_append] at hnd
      have htake : ∀ e ∈ (take t0 v0.bufs).1, e ∈ waiting v0 := fun e he => hperm.mem_iff.1 (List.mem_append_left _ he)
      have hmem : ∀ q e, (q, e) ∈ s'.sent → (q, e) ∈ s.sent ∨ q = p0 ∧ e ∈ (take t0 v0.bufs).1 := by
        intro q e h
        rw [hsent] at h
        rcases List.mem_append.1 h with h | h
        · exact .inl h
        · obtain ⟨e', h1, h2⟩ := List.mem_map.1 h
          cases h2
          exact .inr ⟨rfl, h1⟩
      refine ⟨?_, ?_, ?_, ?_⟩
      · intro p v' hv e he
        rcases waiting_step hs hv with ⟨v, h1, h2⟩ | h2 | ⟨t, v, ha, _⟩ | ⟨t, v, ha, h1, h2⟩ | ⟨r, t, v, ha, _⟩
        · obtain ⟨a1, a2, a3⟩ := ih.wait p v h1 e (h2 ▸ he)
          refine ⟨a1, Nat.lt_of_lt_of_le a2 hn.1, fun q hq => ?_⟩
          rcases hmem q e hq with hq' | ⟨rfl, hq'⟩
          · exact a3 q hq'
          · have := (ih.wait q v0 hp0 e (htake e hq')).1
            have hpq : p = q := by rw [← a1, this]
            subst hpq
            have hvv : s'.procs p = some { v0 with bufs := (take t0 v0.bufs).2 } := by
              simp only [step, hp0] at hs
              split at hs
              · cases hs; exact upd_same
              · cases hs
            rw [hvv] at hv
            cases hv
            exact hnd.2.2 e hq' e he rfl
        · rw [h2] at he; cases he
        · cases ha
        · cases ha
          rw [hp0] at h1
          cases h1
          rw [h2] at he
          have hw : e ∈ waiting v0 := hperm.mem_iff.1 (List.mem_append_right _ he)
          obtain ⟨a1, a2, a3⟩ := ih.wait p0 v0 hp0 e hw
          refine ⟨a1, Nat.lt_of_lt_of_le a2 hn.1, fun q hq => ?_⟩
          rcases hmem q e hq with hq | ⟨_, hq⟩
          · exact a3 q hq
          · exact hnd.2.2 e hq e he rfl
        · cases ha
      · intro p v' hv
        rcases waiting_step hs hv with ⟨v, h1, h2⟩ | h2 | ⟨t, v, ha, _⟩ | ⟨t, v, ha, h1, h2⟩ | ⟨r, t, v, ha, _⟩
        · rw [h2]; exact ih.nodup p v h1
        · rw [h2]; exact .nil
        · cases ha
        · cases ha
          rw [hp0] at h1
          cases h1
          rw [h2]
          exact hnd.2.1
        · cases ha
      · intro p e he
        rcases hmem p e he with he | ⟨rfl, he⟩
        · exact ⟨(ih.sent p e he).1, Nat.lt_of_lt_of_le (ih.sent p e he).2 hn.1⟩
        · obtain ⟨a1, a2, _⟩ := ih.wait p v0 hp0 e (htake e he)
          exact ⟨a1, Nat.lt_of_lt_of_le a2 hn.1⟩
      · rw [hsent, List.map_append, List.nodup_append]
        refine ⟨ih.once, ?_, ?_⟩
        · simpa [List.map_map, Function.comp_def] using hnd.1
        · intro e he e' he' heq
          subst heq
          obtain ⟨⟨q, e1⟩, h1, h2⟩ := List.mem_map.1 he
          simp only at h2
          subst h2
          have : e1 ∈ (take t0 v0.bufs).1 := by simpa [List.map_map, Function.comp_def] using he'
          exact (ih.wait p0 v0 hp0 e1 (htake e1 this)).2.2 q h1

/-- **C121, partial.** If the program forks only when no event waits, every event is sent at most once and under the process in which it happened. -/
theorem own_events_partial {s : State} (h : Quiet s) : OnceUnderOwn s := ⟨(quiet_inv h).once, fun p e he => ((quiet_inv h).sent p e he).1⟩

/-! ## All programs that fork -/

theorem run_append {s : State} (as bs : List Act) : run s (as ++ bs) = (run s as).bind fun s' => run s' bs := by
  induction as generalizing s with
  | nil => rfl
  | cons a as ih =>
    simp only [List.cons_append, run]
    cases step s a with
    | none => rfl
    | some s1 => exact ih

/-- The history forks process `q`, at a moment when `P` holds of the parent. -/
def ForkedWith (acts : List Act) (q : Nat) (P : Proc → Prop) : Prop :=
  ∃ pre post r t s0 v, acts = pre ++ .fork r t q :: post ∧ run {} pre = some s0 ∧ s0.procs r = some v ∧ P v

theorem ForkedWith.snoc {acts : List Act} {q : Nat} {P : Proc → Prop} (h : ForkedWith acts q P) (a : Act) : ForkedWith (acts ++ [a]) q P := by
  obtain ⟨pre, post, r, t, s0, v, rfl, h1, h2, h3⟩ := h
  exact ⟨pre, post ++ [a], r, t, s0, v, by simp, h1, h2, h3⟩

/-- Induction over histories, at their end. -/
theorem run_induction {P : List Act → State → Prop} (h0 : P [] {}) (hs : ∀ acts s a s', run {} acts = some s → P acts s → step s a = some s' → P (acts ++ [a]) s') :
    ∀ acts s, run {} acts = some s → P acts s := by
  intro acts
  suffices h : ∀ n (acts : List Act), acts.length = n → ∀ s, run {} acts = some s → P acts s from h _ acts rfl
  intro n
  induction n with
  | zero =>
    intro acts hl s h
    have : acts = [] := List.length_eq_zero_iff.1 hl
    subst this
    cases h
    exact h0
  | succ n ih =>
    intro acts hl s h
    have hne : acts ≠ [] := by intro hh; subst hh; cases hl
    have hsplit := List.dropLast_concat_getLast hne
    rw [← hsplit] at h ⊢
    rw [run_append] at h
    rcases hr : run {} acts.dropLast with _ | s1
    · rw [hr] at h; cases h
    · rw [hr] at h
      have hst : step s1 (acts.getLast hne) = some s := by
        simp only [Option.bind_some, run] at h
        rcases hk : step s1 (acts.getLast hne) with _ | s2
        · rw [hk] at h; cases h
        · rw [hk] at h; cases h; rfl
      exact hs _ s1 _ s hr (ih _ (by simp [hl]) s1 hr) hst

theorem sent_or_waiting {acts : List Act} {s : State} (h : run {} acts = some s) (p : Nat) (e : Event) :
    ((p, e) ∈ s.sent ∨ ∃ v, s.procs p = some v ∧ e ∈ waiting v) → e.origin = p ∨ ForkedWith acts p fun v => e ∈ waiting v := by
  revert p e
  refine run_induction (P := fun acts s => ∀ p e, ((p, e) ∈ s.sent ∨ ∃ v, s.procs p = some v ∧ e ∈ waiting v) → e.origin = p ∨ ForkedWith acts p fun v => e ∈ waiting v) ?_ ?_ acts s h
  · rintro p e (h | ⟨v, h, _⟩) <;> cases h
  · intro acts s a s' hr ih hs p e hh
    have old : ((p, e) ∈ s.sent ∨ ∃ v, s.procs p = some v ∧ e ∈ waiting v) → e.origin = p ∨ ForkedWith (acts ++ [a]) p fun v => e ∈ waiting v := fun hh =>
      (ih p e hh).imp id fun h => h.snoc a
    rcases hh with hh | ⟨v', hv, he⟩
    · rcases sent_step hs with ⟨hsent, _⟩ | ⟨p0, t0, v0, rfl, hp0, _, _, hsent⟩
      · exact old (.inl (hsent ▸ hh))
      · rw [hsent] at hh
        rcases List.mem_append.1 hh with hh | hh
        · exact old (.inl hh)
        · obtain ⟨e', h1, h2⟩ := List.mem_map.1 hh
          cases h2
          exact old (.inr ⟨v0, hp0, (take_perm t0 v0.bufs).mem_iff.1 (List.mem_append_left _ h1)⟩)
    · rcases waiting_step hs hv with ⟨v, h1, h2⟩ | h2 | ⟨t, v, ha, h1, h3, h2⟩ | ⟨t, v, ha, h1, h2⟩ | ⟨r, t, v, ha, h1, _, h2⟩
      · exact old (.inr ⟨v, h1, h2 ▸ he⟩)
      · rw [h2] at he; cases he
      · rw [h2] at he
        rcases List.mem_cons.1 ((push_perm h3).mem_iff.1 he) with rfl | he
        · exact .inl rfl
        · exact old (.inr ⟨v, h1, he⟩)
      · rw [h2] at he
        exact old (.inr ⟨v, h1, (take_perm t v.bufs).mem_iff.1 (List.mem_append_right _ he)⟩)
      · subst ha
        rw [h2] at he
        exact .inr ⟨acts, [], r, t, s, v, rfl, hr, h1, he⟩

/-- What a process sends happened in it, or waited in its parent when it was forked. -/
theorem sent_whose {acts : List Act} {s : State} (h : run {} acts = some s) {p : Nat} {e : Event} (he : (p, e) ∈ s.sent) :
    e.origin = p ∨ ForkedWith acts p fun v => e ∈ waiting v := sent_or_waiting h p e (.inl he)

theorem mem_take {t : Nat} {l : List Event} {bs : List (Nat × List Event)} (h : bs.find? (fun b => b.1 == t) = some (t, l)) : (take t bs).1 = l := by
  induction bs with
  | nil => cases h
  | cons b bs ih =>
    obtain ⟨u, m⟩ := b
    simp only [take]
    by_cases hu : u = t
    · rw [if_pos hu]
      subst hu
      simp at h
      exact h
    · rw [if_neg hu]
      rw [List.find?_cons_of_neg (by simpa using hu)] at h
      exact ih h

/-- **The other programs.** Whenever an event waits in a process that has a sender at work, and one of its threads forks while the mutex is free: if a sender is created in the new process, the event is sent
    twice, once under the wrong process. -/
theorem sent_twice {s : State} {p t u q : Nat} {v : Proc} {l : List Event} {e : Event} (hv : s.procs p = some v) (hq : s.procs q = none) (ht : t ∈ v.threads)
    (hw : v.writer = none) (hr : v.readers = []) (hb : v.bufs.find? (fun b => b.1 == u) = some (u, l)) (he : e ∈ l) (hs : v.sender = true) (hsnap : u ∈ v.snap) :
    ∃ s', run s [.fork p t q, .sender q, .share q .sender, .copyMap q, .collect q u, .collect p u] = some s' ∧ (p, e) ∈ s'.sent ∧ (q, e) ∈ s'.sent := by
  have hpq : p ≠ q := by intro h; subst h; rw [hv] at hq; cases hq
  have hmem : (u, l) ∈ v.bufs := List.mem_of_find?_eq_some hb
  have hk := mem_take hb
  have hex : ∃ x, (u, x) ∈ v.bufs := ⟨l, hmem⟩
  simp [run, step, hv, hq, ht, hw, hr, child, upd, lives, hpq, hs, hsnap, hk, hex, he]

/-! ## Locks at the time of the fork -/

/-- A process whose copy of the mutex is held for writing by nobody. -/
def Stuck (s : State) (q : Nat) : Prop := ∃ v, s.procs q = some v ∧ v.writer = some .gone ∧ v.snap = [] ∧ .sender ∉ v.readers ∧ ∀ e, (q, e) ∉ s.sent

/-- A process whose copy of the mutex is shared by nobody. -/
def Shared (s : State) (q : Nat) : Prop := ∃ v, s.procs q = some v ∧ .gone ∈ v.readers ∧ ∀ t, v.writer ≠ some (.thread t)

theorem stuck_step {s s' : State} {a : Act} {q : Nat} (h : step s a = some s') (hq : Stuck s q) : Stuck s' q ∧ ∀ t, a ≠ .register q t ∧ a ≠ .collect q t ∧ a ≠ .lock q t := by
  obtain ⟨v, hv, hw, hsn, hrd, hse⟩ := hq
  refine ⟨?_, fun t => ⟨?_, ?_, ?_⟩⟩
  · cases a <;> simp only [step] at h
    all_goals
      repeat' split at h
      all_goals first
        | (cases h; done)
        | (cases h; unfold Stuck; grind [upd, lives])
  all_goals
    intro ha
    subst ha
    simp [step, hv, hw, hsn] at h

theorem keep_gone {v : Proc} {h : Holder} {l : List Holder} (hl : lives v h = true) (hg : .gone ∈ l) : .gone ∈ l.erase h := by
  refine (List.mem_erase_of_ne ?_).2 hg
  rintro rfl
  cases hl

theorem shared_step {s s' : State} {a : Act} {q : Nat} (h : step s a = some s') (hq : Shared s q) : Shared s' q ∧ ∀ t, a ≠ .register q t ∧ a ≠ .lock q t := by
  obtain ⟨v, hv, hw, hn⟩ := hq
  refine ⟨?_, fun t => ⟨?_, ?_⟩⟩
  · cases a <;> simp only [step] at h
    all_goals
      repeat' split at h
      all_goals first
        | (cases h; done)
        | (cases h; unfold Shared; grind [upd, lives, keep_gone])
  all_goals
    intro ha
    subst ha
    simp only [step, hv] at h
    grind

theorem run_keeps {P : State → Prop} (hP : ∀ s a s', P s → step s a = some s' → P s') : ∀ (acts : List Act) (s s' : State), P s → run s acts = some s' → P s'
  | [], s, s', h, hr => by cases hr; exact h
  | a :: as, s, s', h, hr => by
    rw [run] at hr
    rcases hk : step s a with _ | s1
    · rw [hk] at hr; cases hr
    · rw [hk] at hr
      exact run_keeps hP as s1 s' (hP s a s1 h hk) hr

/-- Nothing was sent under a process that does not exist. -/
theorem not_sent_before {s : State} (h : Reach s) {q : Nat} (hq : s.procs q = none) : ∀ e, (q, e) ∉ s.sent := by
  obtain ⟨acts, h⟩ := h
  revert hq
  refine run_induction (P := fun _ s => s.procs q = none → ∀ e, (q, e) ∉ s.sent) (fun _ e he => by cases he) ?_ acts s h
  intro acts s a s' _ ih hs hq e he
  have hq0 : s.procs q = none := by
    cases a <;> simp only [step] at hs
    all_goals
      repeat' split at hs
      all_goals first
        | (cases hs; done)
        | (cases hs; grind [upd])
  rcases sent_step hs with ⟨hsent, _⟩ | ⟨p0, t0, v0, rfl, hp0, _, _, hsent⟩
  · exact ih hq0 e (hsent ▸ he)
  · rw [hsent] at he
    rcases List.mem_append.1 he with he | he
    · exact ih hq0 e he
    · obtain ⟨e', _, h2⟩ := List.mem_map.1 he
      cases h2
      rw [hq0] at hp0
      cases hp0

/-- **A fork while a thread registers its buffer.** The new process never sends an event, whatever it does, and none of its threads ever gets a buffer: they wait for ever. -/
theorem fork_in_insert {s s1 s2 : State} (h : Reach s) {p t q : Nat} {v : Proc} (hv : s.procs p = some v) (hw : v.writer ≠ none) (hf : step s (.fork p t q) = some s1)
    {acts : List Act} (hr : run s1 acts = some s2) : (∀ e, (q, e) ∉ s2.sent) ∧ ∀ u, step s2 (.lock q u) = none ∧ step s2 (.register q u) = none := by
  have hq : s.procs q = none := by
    simp only [step, hv] at hf
    split at hf
    · assumption
    · cases hf
  have hns := not_sent_before h hq
  have h1 : Stuck s1 q := by
    simp only [step, hv, hq] at hf
    split at hf
    · cases hf
      refine ⟨child v t, upd_same, ?_, rfl, ?_, hns⟩
      · cases hww : v.writer with
        | none => exact absurd hww hw
        | some x => simp [child, hww]
      · simp [child]
    · cases hf
  have h2 : Stuck s2 q := run_keeps (P := fun s => Stuck s q) (fun s a s' hs hk => (stuck_step hk hs).1) acts s1 s2 h1 hr
  refine ⟨h2.elim fun v h => h.2.2.2.2, fun u => ⟨?_, ?_⟩⟩
  · rcases hk : step s2 (.lock q u) with _ | s3
    · rfl
    · exact absurd rfl ((stuck_step hk h2).2 u).2.2
  · rcases hk : step s2 (.register q u) with _ | s3
    · rfl
    · exact absurd rfl ((stuck_step hk h2).2 u).1

/-- **A fork while the map is read**, by the sender of the parent for example. None of the threads that the new process starts ever gets a buffer: their first tracepoint waits for ever. -/
theorem fork_in_read {s s1 s2 : State} {p t q : Nat} {v : Proc} (hv : s.procs p = some v) (hw : v.writer = none) (hrd : v.readers ≠ []) (hf : step s (.fork p t q) = some s1)
    {acts : List Act} (hr : run s1 acts = some s2) (u : Nat) : step s2 (.lock q u) = none ∧ step s2 (.register q u) = none := by
  have hq : s.procs q = none := by
    simp only [step, hv] at hf
    split at hf
    · assumption
    · cases hf
  have h1 : Shared s1 q := by
    simp only [step, hv, hq] at hf
    split at hf
    · cases hf
      refine ⟨child v t, upd_same, ?_, ?_⟩
      · cases hl : v.readers with
        | nil => exact absurd hl hrd
        | cons a l => simp [child, hl]
      · simp [child, hw]
    · cases hf
  have h2 : Shared s2 q := run_keeps (P := fun s => Shared s q) (fun s a s' hs hk => (shared_step hk hs).1) acts s1 s2 h1 hr
  refine ⟨?_, ?_⟩
  · rcases hk : step s2 (.lock q u) with _ | s3
    · rfl
    · exact absurd rfl ((shared_step hk h2).2 u).2
  · rcases hk : step s2 (.register q u) with _ | s3
    · rfl
    · exact absurd rfl ((shared_step hk h2).2 u).1

/-- If the mutex is free, the new process works: once it has a sender, what it traces is sent under its own id, also from a new thread. -/
theorem child_works_partial {s : State} {p t u q : Nat} {v : Proc} (hv : s.procs p = some v) (hq : s.procs q = none) (ht : t ∈ v.threads) (hw : v.writer = none) (hr : v.readers = [])
    (hu : u ≠ t) (hb : has v.bufs u = false) :
    ∃ s', run s [.fork p t q, .thread q u, .lock q u, .register q u, .unlock q u, .emit q u, .sender q, .share q .sender, .copyMap q, .unshare q .sender, .collect q u] = some s' ∧
      s'.sent = s.sent ++ [(q, ⟨q, s.next⟩)] := by
  have hhas : has (v.bufs ++ [(u, [])]) u = true := by simp [has]
  have hpush : ∀ bs : List (Nat × List Event), has bs u = false → ∀ e, push u e (bs ++ [(u, [])]) = bs ++ [(u, [e])] := by
    intro bs
    induction bs with
    | nil => intro _ e; simp [push]
    | cons b bs ih =>
      intro hbs e
      obtain ⟨w, l⟩ := b
      have hwu : w ≠ u := by intro hh; subst hh; simp [has] at hbs
      have hbs' : has bs u = false := by
        simp only [has, List.any_cons, Bool.or_eq_false_iff] at hbs
        exact hbs.2
      simp only [List.cons_append, push, if_neg hwu, ih hbs' e]
  have htake : ∀ bs : List (Nat × List Event), has bs u = false → ∀ e, (take u (bs ++ [(u, [e])])).1 = [e] := by
    intro bs
    induction bs with
    | nil => intro _ e; simp [take]
    | cons b bs ih =>
      intro hbs e
      obtain ⟨w, l⟩ := b
      have hwu : w ≠ u := by intro hh; subst hh; simp [has] at hbs
      have hbs' : has bs u = false := by
        simp only [has, List.any_cons, Bool.or_eq_false_iff] at hbs
        exact hbs.2
      simp only [List.cons_append, take, if_neg hwu, ih hbs' e]
  simp [run, step, hv, hq, ht, hw, hr, child, upd, lives, hu, hb, hhas, hpush _ hb, htake _ hb]

/-- Without a sender of its own, the new process sends nothing: the one of its parent is not there. -/
theorem no_sender_no_events {s s1 s2 : State} (h : Reach s) {p t q : Nat} (hf : step s (.fork p t q) = some s1) {acts : List Act} (hn : .sender q ∉ acts)
    (hr : run s1 acts = some s2) : ∀ e, (q, e) ∉ s2.sent := by
  have h1 : (∃ v, s1.procs q = some v ∧ v.sender = false) ∧ ∀ e, (q, e) ∉ s1.sent := by
    simp only [step] at hf
    split at hf
    · rename_i v hv hq
      have := not_sent_before h hq
      split at hf
      · cases hf
        exact ⟨⟨child v t, upd_same, rfl⟩, this⟩
      · cases hf
    · cases hf
  have key : ∀ (acts : List Act) (s s' : State), .sender q ∉ acts → ((∃ v, s.procs q = some v ∧ v.sender = false) ∧ ∀ e, (q, e) ∉ s.sent) → run s acts = some s' → ∀ e, (q, e) ∉ s'.sent := by
    intro acts
    induction acts with
    | nil => intro s s' _ h hr; cases hr; exact h.2
    | cons a as ih =>
      intro s s' hn h hr
      rw [run] at hr
      rcases hk : step s a with _ | s1
      · rw [hk] at hr; cases hr
      · rw [hk] at hr
        refine ih s1 s' (fun hh => hn (List.mem_cons_of_mem _ hh)) ?_ hr
        have ha : a ≠ .sender q := fun hh => hn (hh ▸ List.mem_cons_self)
        obtain ⟨⟨v, hv, hs⟩, hse⟩ := h
        constructor
        · cases a <;> simp only [step] at hk
          all_goals
            repeat' split at hk
            all_goals first
              | (cases hk; done)
              | (cases hk; grind [upd])
        · intro e he
          rcases sent_step hk with ⟨hsent, _⟩ | ⟨p0, t0, v0, rfl, hp0, hs0, _, hsent⟩
          · exact hse e (hsent ▸ he)
          · rw [hsent] at he
            rcases List.mem_append.1 he with he | he
            · exact hse e he
            · obtain ⟨e', _, h2⟩ := List.mem_map.1 he
              cases h2
              rw [hv] at hp0
              cases hp0
              rw [hs] at hs0
              cases hs0
  exact key acts s1 s2 hn h1 hr

/-! ## Process information -/

/-- The process ids in answers: that of the process, or that of the process in which the endpoint was created, if it was created before the fork. -/
theorem answers_whose {acts : List Act} {s : State} (h : run {} acts = some s) {p pid : Nat} (ha : (p, pid) ∈ s.answers) : pid = p ∨ ForkedWith acts p fun v => pid ∈ v.infos := by
  have main : ∀ p pid, ((p, pid) ∈ s.answers ∨ ∃ v, s.procs p = some v ∧ pid ∈ v.infos) → pid = p ∨ ForkedWith acts p fun v => pid ∈ v.infos := by
    refine run_induction (P := fun acts s => ∀ p pid, ((p, pid) ∈ s.answers ∨ ∃ v, s.procs p = some v ∧ pid ∈ v.infos) → pid = p ∨ ForkedWith acts p fun v => pid ∈ v.infos) ?_ ?_ acts s h
    · rintro p e (h | ⟨v, h, _⟩) <;> cases h
    · intro acts s a s' hr ih hs p pid hh
      have old : ((p, pid) ∈ s.answers ∨ ∃ v, s.procs p = some v ∧ pid ∈ v.infos) → pid = p ∨ ForkedWith (acts ++ [a]) p fun v => pid ∈ v.infos := fun hh =>
        (ih p pid hh).imp id fun h => h.snoc a
      have : ((p, pid) ∈ s.answers ∨ ∃ v, s.procs p = some v ∧ pid ∈ v.infos) ∨ pid = p ∨ ∃ r t v, a = .fork r t p ∧ s.procs r = some v ∧ pid ∈ v.infos := by
        clear old ih hr h ha
        cases a <;> simp only [step] at hs
        case fork r t q =>
          split at hs
          · rename_i v hv hq
            split at hs
            · cases hs
              rcases hh with hh | ⟨w, hw, hi⟩
              · exact .inl (.inl hh)
              · by_cases hp : p = q
                · subst hp
                  simp only [upd_same, Option.some.injEq] at hw
                  subst hw
                  exact .inr (.inr ⟨r, t, v, rfl, hv, hi⟩)
                · simp only [upd_ne hp] at hw
                  exact .inl (.inr ⟨w, hw, hi⟩)
            · cases hs
          · cases hs
        all_goals
          repeat' split at hs
          all_goals first
            | (cases hs; done)
            | (cases hs; grind [upd, child])
      rcases this with h | h | ⟨r, t, v, rfl, h1, h2⟩
      · exact old h
      · exact .inl h
      · exact .inr ⟨acts, [], r, t, s, v, rfl, hr, h1, h2⟩
  exact main p pid (.inl ha)

/-- An endpoint that was created before the fork answers in the new process with the id of another process. -/
theorem wrong_pid {s : State} {p t q i : Nat} {v : Proc} (hv : s.procs p = some v) (hq : s.procs q = none) (ht : t ∈ v.threads) (hw : v.writer = none) (hr : v.readers = [])
    (hi : v.infos[i]? = some p) : p ≠ q ∧ ∃ s', run s [.fork p t q, .ask q i] = some s' ∧ (q, p) ∈ s'.answers := by
  have hpq : p ≠ q := by intro h; subst h; rw [hv] at hq; cases hq
  exact ⟨hpq, by simp [run, step, hv, hq, ht, hw, hr, child, upd, hi]⟩

/-! ## Examples -/

/-- A program whose main thread traces an event and forks before the sender has taken it. -/
def early : List Act :=
  [.start 1 0, .newInfo 1, .sender 1, .lock 1 0, .register 1 0, .unlock 1 0, .share 1 .sender, .copyMap 1, .unshare 1 .sender, .emit 1 0, .fork 1 0 2,
   .sender 2, .share 2 .sender, .copyMap 2, .collect 2 0, .collect 1 0, .ask 2 0]

/-- The full property fails. -/
theorem not_OnceUnderOwn : ∃ s, Reach s ∧ ¬ OnceUnderOwn s ∧ (2, 1) ∈ s.answers := by
  have hd : (run {} early).map (fun s => (s.sent, s.answers)) = some ([(2, ⟨1, 0⟩), (1, ⟨1, 0⟩)], [(2, 1)]) := by decide +kernel
  rcases h : run {} early with _ | s
  · rw [h] at hd; cases hd
  · rw [h] at hd
    simp only [Option.map_some, Option.some.injEq, Prod.mk.injEq] at hd
    refine ⟨s, ⟨early, h⟩, fun ho => ?_, by simp [hd.2]⟩
    have := ho.2 2 ⟨1, 0⟩ (by simp [hd.1])
    simp at this

/-- A program that forks when nothing waits, and has both processes send an event. -/
example : ∃ s, Quiet s ∧ (1, ⟨1, 0⟩) ∈ s.sent ∧ (2, ⟨2, 1⟩) ∈ s.sent := by
  have key : ∀ (acts : List Act) (s s' : State), Quiet s → (∀ a ∈ acts, ∀ p t q, a ≠ .fork p t q) → run s acts = some s' → Quiet s' := by
    intro acts
    induction acts with
    | nil => intro s s' h _ hr; cases hr; exact h
    | cons a as ih =>
      intro s s' h hn hr
      rw [run] at hr
      rcases hk : step s a with _ | s1
      · rw [hk] at hr; cases hr
      · rw [hk] at hr
        exact ih s1 s' (.step h (fun p t q v ha => absurd ha (hn a List.mem_cons_self p t q)) hk) (fun b hb => hn b (List.mem_cons_of_mem _ hb)) hr
  let as1 : List Act := [.start 1 0, .sender 1, .lock 1 0, .register 1 0, .unlock 1 0, .share 1 .sender, .copyMap 1, .unshare 1 .sender, .emit 1 0, .collect 1 0]
  let as2 : List Act := [.emit 2 0, .sender 2, .share 2 .sender, .copyMap 2, .collect 2 0]
  have hw : ((run {} as1).bind fun s => (s.procs 1).map waiting) = some [] := by decide +kernel
  have hd : (run {} (as1 ++ .fork 1 0 2 :: as2)).map (fun s => s.sent) = some [(1, ⟨1, 0⟩), (2, ⟨2, 1⟩)] := by decide +kernel
  rw [run_append] at hd
  rcases h : run {} as1 with _ | s
  · rw [h] at hd; cases hd
  · rw [h] at hd hw
    have hs : Quiet s := key as1 _ _ .init (by simp [as1]) h
    simp only [Option.bind_some, run] at hd hw
    rcases h1 : step s (.fork 1 0 2) with _ | s1
    · rw [h1] at hd; cases hd
    · rw [h1] at hd
      have hs1 : Quiet s1 := by
        refine .step hs ?_ h1
        intro p t q v ha hv
        cases ha
        rw [hv] at hw
        simpa using hw
      simp only [Option.bind_some] at hd
      rcases h2 : run s1 as2 with _ | s2
      · rw [h2] at hd; cases hd
      · rw [h2] at hd
        simp only [Option.map_some, Option.some.injEq] at hd
        exact ⟨s2, key as2 _ _ hs1 (by simp [as2]) h2, by simp [hd]⟩

/-- A thread registers its buffer while another one forks: the hypotheses of `fork_in_insert` are met. -/
example : ∃ s v s1, Reach s ∧ s.procs 1 = some v ∧ v.writer ≠ none ∧ step s (.fork 1 0 2) = some s1 := by
  rcases h : run {} [.start 1 0, .thread 1 7, .lock 1 7] with _ | s
  · simp [run, step, upd, lives] at h
  · have hr : Reach s := ⟨_, h⟩
    simp [run, step, upd, lives] at h
    subst h
    exact ⟨_, _, _, hr, rfl, by simp, rfl⟩

/-- The sender reads the map while a thread forks: the hypotheses of `fork_in_read` are met. -/
example : ∃ s v s1, Reach s ∧ s.procs 1 = some v ∧ v.writer = none ∧ v.readers ≠ [] ∧ step s (.fork 1 0 2) = some s1 := by
  rcases h : run {} [.start 1 0, .sender 1, .share 1 .sender] with _ | s
  · simp [run, step, upd, lives] at h
  · have hr : Reach s := ⟨_, h⟩
    simp [run, step, upd, lives] at h
    subst h
    exact ⟨_, _, _, hr, rfl, rfl, by simp, rfl⟩

/-- A thread can fork exactly when it runs and is not inside the map: it does not hold the lock of the map itself. Other threads may hold it. -/
theorem fork_iff {s : State} {p t q : Nat} : (∃ s', step s (.fork p t q) = some s') ↔
    ∃ v, s.procs p = some v ∧ s.procs q = none ∧ t ∈ v.threads ∧ v.writer ≠ some (.thread t) ∧ .thread t ∉ v.readers := by
  simp only [step]
  cases hp : s.procs p with
  | none => simp
  | some v =>
    cases hq : s.procs q with
    | some w => simp
    | none => simp

/-- A thread that has looked into the map, or changed nothing in it, leaves it as it was. -/
theorem lock_returned {s s1 : State} {p t : Nat} {h : Holder} :
    (step s (.share p h) = some s1 → step s1 (.unshare p h) = some s) ∧ (step s (.lock p t) = some s1 → step s1 (.unlock p t) = some s) := by
  have same : ∀ (w v : Proc), s.procs p = some v → upd (upd s.procs p w) p v = s.procs := by
    intro w v hv
    funext q
    simp only [upd]
    split
    · rename_i e; rw [e, hv]
    · rfl
  constructor
  · intro e
    simp only [step] at e
    cases hp : s.procs p with
    | none => simp [hp] at e
    | some v =>
      simp only [hp] at e
      split at e
      · rename_i hc
        injection e with e
        subst e
        have hl : lives { v with readers := h :: v.readers } h = lives v h := by cases h <;> rfl
        have e2 : ({ v with readers := ((h :: v.readers).erase h) } : Proc) = v := by simp
        simp only [step, upd_same, List.mem_cons, true_or, hl, hc.2.1, and_self, if_true, e2, same _ _ hp]
      · cases e
  · intro e
    simp only [step] at e
    cases hp : s.procs p with
    | none => simp [hp] at e
    | some v =>
      simp only [hp] at e
      split at e
      · rename_i hc
        injection e with e
        subst e
        have e2 : ({ v with writer := none } : Proc) = v := by
          have := hc.1
          cases v
          simp_all
        simp only [step, upd_same, if_true, e2, same _ _ hp]
      · cases e

end Scalopus.C121
