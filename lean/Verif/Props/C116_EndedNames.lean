import Verif.Model.EndedNames
import Verif.Props.C35_ScopeNames

/-!
# C116: events keep their names when the process ends

An event is shown under the name that its process had registered for it, also if the process has ended before the recording is finished.

This is false: the names are asked for when the recording is finished, and only of the processes that still run then.
-/

namespace Scalopus.C116
open Scalopus.EndedNames Scalopus.ScopeNames
open Endpoints (TraceMap)

/-- The full claim: every event whose tracepoint had a name is shown under it. -/
def NamesKept : Prop := ∀ as s s', run {} as = some s → step s .finish = some s' → ∀ x ∈ s'.shown, ∀ n, x.1.name = some n → x.2 = n

theorem run_cons (s : State) (a : Act) (as : List Act) : run s (a :: as) = (step s a).bind fun t => run t as := rfl

/-- Running processes have their own pids and numbers. -/
structure Inv (s : State) : Prop where
  pids : ∀ p ∈ s.procs, ∀ q ∈ s.procs, p.pid = q.pid → p = q
  insts : ∀ p ∈ s.procs, ∀ q ∈ s.procs, p.inst = q.inst → p = q
  next : ∀ p ∈ s.procs, p.inst < s.next

theorem inv_init : Inv {} := ⟨fun _ h => (by cases h), fun _ h => (by cases h), fun _ h => (by cases h)⟩

theorem inv_step {s s' : State} {a : Act} (h : Inv s) (e : step s a = some s') : Inv s' := by
  obtain ⟨h1, h2, h3⟩ := h
  cases a with
  | start pid =>
    simp only [step] at e
    split at e
    · cases e
    · rename_i hn
      obtain rfl := Option.some.inj e
      refine ⟨fun p hp q hq hpq => ?_, fun p hp q hq hpq => ?_, fun p hp => ?_⟩
      · simp only [List.mem_append, List.mem_singleton] at hp hq
        rcases hp with hp | rfl <;> rcases hq with hq | rfl
        · exact h1 p hp q hq hpq
        · exact absurd ⟨p, hp, hpq⟩ hn
        · exact absurd ⟨q, hq, hpq.symm⟩ hn
        · rfl
      · simp only [List.mem_append, List.mem_singleton] at hp hq
        rcases hp with hp | rfl <;> rcases hq with hq | rfl
        · exact h2 p hp q hq hpq
        · have := h3 p hp; simp only at hpq; omega
        · have := h3 q hq; simp only at hpq; omega
        · rfl
      · simp only [List.mem_append, List.mem_singleton] at hp
        rcases hp with hp | rfl
        · exact Nat.lt_succ_of_lt (h3 p hp)
        · exact Nat.lt_succ_self _
  | register inst id name =>
    simp only [step] at e
    split at e
    · cases e
    · obtain rfl := Option.some.inj e
      have key : ∀ p : Proc, (if p.inst = inst then { p with names := (id, name) :: p.names.filter fun x => x.1 != id } else p).pid = p.pid ∧
          (if p.inst = inst then { p with names := (id, name) :: p.names.filter fun x => x.1 != id } else p).inst = p.inst := by
        intro p; split <;> exact ⟨rfl, rfl⟩
      refine ⟨fun p hp q hq hpq => ?_, fun p hp q hq hpq => ?_, fun p hp => ?_⟩
      · obtain ⟨p0, hp0, rfl⟩ := List.mem_map.1 hp
        obtain ⟨q0, hq0, rfl⟩ := List.mem_map.1 hq
        rw [(key p0).1, (key q0).1] at hpq
        rw [h1 p0 hp0 q0 hq0 hpq]
      · obtain ⟨p0, hp0, rfl⟩ := List.mem_map.1 hp
        obtain ⟨q0, hq0, rfl⟩ := List.mem_map.1 hq
        rw [(key p0).2, (key q0).2] at hpq
        rw [h2 p0 hp0 q0 hq0 hpq]
      · obtain ⟨p0, hp0, rfl⟩ := List.mem_map.1 hp
        rw [(key p0).2]; exact h3 p0 hp0
  | emit inst id =>
    simp only [step] at e
    split at e
    · cases e
    · split at e <;> obtain rfl := Option.some.inj e <;> exact ⟨h1, h2, h3⟩
  | exit inst =>
    simp only [step] at e
    split at e
    · cases e
    · obtain rfl := Option.some.inj e
      exact ⟨fun p hp q hq => h1 p (List.mem_filter.1 hp).1 q (List.mem_filter.1 hq).1, fun p hp q hq => h2 p (List.mem_filter.1 hp).1 q (List.mem_filter.1 hq).1,
        fun p hp => h3 p (List.mem_filter.1 hp).1⟩
  | poll => obtain rfl := Option.some.inj e; exact ⟨h1, h2, h3⟩
  | begin =>
    simp only [step] at e
    split at e
    · cases e
    · obtain rfl := Option.some.inj e; exact ⟨h1, h2, h3⟩
  | finish =>
    simp only [step] at e
    split at e
    · split at e
      · obtain rfl := Option.some.inj e; exact ⟨h1, h2, h3⟩
      · cases e
    · cases e

theorem inv_run (as : List Act) : ∀ (s s' : State), Inv s → run s as = some s' → Inv s' := by
  induction as with
  | nil => intro s s' h e; obtain rfl := Option.some.inj e; exact h
  | cons a as ih =>
    intro s s' h e
    rw [run_cons] at e
    obtain ⟨t, ht, e⟩ := Option.bind_eq_some_iff.1 e
    exact ih t s' (inv_step h ht) e

theorem proc_some {s : State} {inst : Nat} {p : Proc} (h : s.proc inst = some p) : p ∈ s.procs ∧ p.inst = inst := by
  unfold State.proc at h
  exact ⟨List.mem_of_find?_eq_some h, by have := List.find?_some h; simpa using this⟩

theorem proc_of_mem {s : State} (h : Inv s) {p : Proc} (hp : p ∈ s.procs) : s.proc p.inst = some p := by
  cases hq : s.proc p.inst with
  | none =>
    unfold State.proc at hq
    have := List.find?_eq_none.1 hq p hp
    simp at this
  | some q =>
    obtain ⟨h1, h2⟩ := proc_some hq
    rw [h.insts q h1 p hp h2]

theorem fails_false (s : State) (l : List Nat) : fails (l.map (answer s)) = false := by
  unfold fails
  rw [List.any_eq_false]
  intro x hx
  obtain ⟨i, _, rfl⟩ := List.mem_map.1 hx
  unfold answer
  cases s.proc i <;> exact Bool.false_ne_true

theorem answers_eq (s : State) (l : List Nat) : answers (l.map (answer s)) = l.map fun i => match s.proc i with | some p => [(p.pid, p.names)] | none => [] := by
  induction l with
  | nil => rfl
  | cons i l ih =>
    rw [List.map_cons, List.map_cons, ← ih]
    unfold answer
    cases s.proc i <;> rfl

/-- The mapping that is made when the recording is finished: a pid has the names of the process that runs under it and is connected. -/
theorem mapping_at_finish {s : State} (h : Inv s) : ∃ m, updateMapping s.mapping (some (s.conns.map (answer s))) = .ok m ∧
    (∀ p ∈ s.procs, p.inst ∈ s.conns → m.lookup p.pid = some p.names) ∧
    ∀ pid, (∀ p ∈ s.procs, p.pid = pid → p.inst ∉ s.conns) → m.lookup pid = none := by
  obtain ⟨m, h1, h2⟩ := C35.refresh_merges s.mapping (s.conns.map (answer s)) (fails_false s s.conns)
  refine ⟨m, h1, fun p hp hc => ?_, fun pid hpid => ?_⟩
  · rw [h2, answers_eq]
    clear h1 h2
    generalize s.conns = l at *
    induction l with
    | nil => cases hc
    | cons i l ih =>
      rw [List.map_cons, List.findSome?_cons]
      cases hq : s.proc i with
      | none =>
        simp only [List.lookup_nil]
        rcases List.mem_cons.1 hc with rfl | hc
        · rw [proc_of_mem h hp] at hq; cases hq
        · exact ih hc
      | some q =>
        simp only [List.lookup_cons, List.lookup_nil]
        by_cases hpid : p.pid = q.pid
        · rw [h.pids p hp q (proc_some hq).1 hpid]
          simp
        · have : (p.pid == q.pid) = false := by simp [hpid]
          rw [this]
          rcases List.mem_cons.1 hc with hi | hc
          · rw [← hi, proc_of_mem h hp] at hq
            cases hq
            exact absurd rfl hpid
          · exact ih hc
  · rw [h2, answers_eq]
    rw [List.findSome?_eq_none_iff]
    intro x hx
    obtain ⟨i, hi, rfl⟩ := List.mem_map.1 hx
    cases hq : s.proc i with
    | none => rfl
    | some q =>
      simp only [List.lookup_cons, List.lookup_nil]
      have : (pid == q.pid) = false := by
        cases hz : (pid == q.pid)
        · rfl
        · have hz' : pid = q.pid := by simpa using hz
          obtain ⟨h3, h4⟩ := proc_some hq
          exact absurd (h4 ▸ hi) (hpid q h3 hz'.symm)
      rw [this]

/-- A process runs under this pid and the consumer is connected with it. -/
def Answers (s : State) (p : Proc) (pid : Int) : Prop := p ∈ s.procs ∧ p.pid = pid ∧ p.inst ∈ s.conns

/-- **C116, exactly.** When a recording is finished, whatever happened before, an event is shown under the name that the process registered which runs under its pid at that time and is connected, and as unknown
    if there is none or it has not registered that id. Nothing that was recorded is missing. -/
theorem shown_as (as : List Act) (s s' : State) (e : run {} as = some s) (e' : step s .finish = some s') :
    s'.shown.map (·.1) = s.store ∧ ∀ x ∈ s'.shown,
      (∀ p, Answers s p x.1.pid → ∀ n, p.names.lookup x.1.id = some n → x.2 = n) ∧
      (∀ p, Answers s p x.1.pid → p.names.lookup x.1.id = none → C35.UnknownText x.1.id x.2) ∧
      ((¬ ∃ p, Answers s p x.1.pid) → C35.UnknownText x.1.id x.2) := by
  have hi := inv_run as {} s inv_init e
  obtain ⟨m, h1, h2, h3⟩ := mapping_at_finish hi
  simp only [step, h1] at e'
  split at e'
  · obtain rfl := Option.some.inj e'
    refine ⟨by simp only [List.map_map]; exact List.map_id _, fun x hx => ?_⟩
    obtain ⟨ev, hev, rfl⟩ := List.mem_map.1 hx
    refine ⟨fun p hp n hn => ?_, fun p hp hn => ?_, fun hp => ?_⟩
    · exact (C35.name_of_own_process m ev.pid ev.id).1 p.names n (by rw [← hp.2.1]; exact h2 p hp.1 hp.2.2) hn
    · refine (C35.name_of_own_process m ev.pid ev.id).2 fun names hnames => ?_
      have h4 := h2 p hp.1 hp.2.2
      rw [hp.2.1] at h4
      rw [h4] at hnames
      cases hnames
      exact hn
    · refine (C35.name_of_own_process m ev.pid ev.id).2 fun names hnames => ?_
      exact absurd hnames (by rw [h3 ev.pid fun p hq hpid hc => hp ⟨p, hq, hpid, hc⟩]; intro z; cases z)
  · cases e'

/-- What is known about the events in the store and the processes that still run; `R inst id n`: the process has registered this name for this id. -/
structure Known (R : Nat → Nat → String → Prop) (s : State) : Prop where
  names : ∀ p ∈ s.procs, ∀ id n, p.names.lookup id = some n → R p.inst id n
  store : ∀ ev ∈ s.store, ∀ n, ev.name = some n → R ev.inst ev.id n
  inst : ∀ ev ∈ s.store, ev.inst < s.next
  same : ∀ ev ∈ s.store, ∀ p ∈ s.procs, p.inst = ev.inst → p.pid = ev.pid ∧ (ev.name ≠ none → p.names.lookup ev.id ≠ none)

theorem lookup_assign (l : List (Nat × String)) (id k : Nat) (name : String) :
    (((id, name) :: l.filter fun x => x.1 != id).lookup k) = if k = id then some name else l.lookup k := by
  rw [List.lookup_cons]
  by_cases h : k = id
  · simp [h]
  · have : (k == id) = false := by simp [h]
    rw [this, if_neg h]
    simp only
    induction l with
    | nil => rfl
    | cons x l ih =>
      rw [List.filter_cons]
      by_cases hx : x.1 = id
      · rw [if_neg (by simp [hx]), ih]
        obtain ⟨a, b⟩ := x
        simp only at hx
        rw [List.lookup_cons, show (k == a) = false from by simp [hx, h]]
      · rw [if_pos (by simp [hx])]
        obtain ⟨a, b⟩ := x
        rw [List.lookup_cons, List.lookup_cons, ih]

theorem known_step {R : Nat → Nat → String → Prop} {s s' : State} {a : Act} (hi : Inv s) (h : Known R s) (hr : ∀ i id n, a = .register i id n → R i id n) (e : step s a = some s') : Known R s' := by
  obtain ⟨h1, h2, h3, h4⟩ := h
  cases a with
  | start pid =>
    simp only [step] at e
    split at e
    · cases e
    · obtain rfl := Option.some.inj e
      refine ⟨fun p hp id n hl => ?_, h2, fun ev hev => Nat.lt_succ_of_lt (h3 ev hev), fun ev hev p hp hpi => ?_⟩
      · simp only [List.mem_append, List.mem_singleton] at hp
        rcases hp with hp | rfl
        · exact h1 p hp id n hl
        · cases hl
      · simp only [List.mem_append, List.mem_singleton] at hp
        rcases hp with hp | rfl
        · exact h4 ev hev p hp hpi
        · have := h3 ev hev; simp only at hpi; omega
  | register inst id name =>
    simp only [step] at e
    split at e
    · cases e
    · obtain rfl := Option.some.inj e
      refine ⟨fun p hp k n hl => ?_, h2, h3, fun ev hev p hp hpi => ?_⟩
      · obtain ⟨p0, hp0, rfl⟩ := List.mem_map.1 hp
        by_cases hq : p0.inst = inst
        · rw [if_pos hq] at hl ⊢
          simp only [lookup_assign] at hl
          by_cases hk : k = id
          · rw [if_pos hk] at hl
            cases hl
            rw [hk, hq]
            exact hr inst id name rfl
          · rw [if_neg hk] at hl
            exact h1 p0 hp0 k n hl
        · rw [if_neg hq] at hl ⊢
          exact h1 p0 hp0 k n hl
      · obtain ⟨p0, hp0, rfl⟩ := List.mem_map.1 hp
        by_cases hq : p0.inst = inst
        · rw [if_pos hq] at hpi ⊢
          obtain ⟨k1, k2⟩ := h4 ev hev p0 hp0 hpi
          refine ⟨k1, fun hne => ?_⟩
          simp only [lookup_assign]
          split
          · simp
          · exact k2 hne
        · rw [if_neg hq] at hpi ⊢
          exact h4 ev hev p0 hp0 hpi
  | emit inst id =>
    simp only [step] at e
    split at e
    · cases e
    · rename_i p hp
      split at e
      · obtain rfl := Option.some.inj e
        obtain ⟨hpm, hpi⟩ := proc_some hp
        refine ⟨h1, fun ev hev n hn => ?_, fun ev hev => ?_, fun ev hev q hq hqi => ?_⟩
        · rcases List.mem_append.1 hev with hev | hev
          · exact h2 ev hev n hn
          · rw [List.mem_singleton] at hev; subst hev
            have := h1 p hpm id n hn
            rw [hpi] at this
            exact this
        · rcases List.mem_append.1 hev with hev | hev
          · exact h3 ev hev
          · rw [List.mem_singleton] at hev; subst hev
            rw [← hpi]; exact hi.next p hpm
        · rcases List.mem_append.1 hev with hev | hev
          · exact h4 ev hev q hq hqi
          · rw [List.mem_singleton] at hev; subst hev
            obtain rfl := hi.insts q hq p hpm (hqi.trans hpi.symm)
            exact ⟨rfl, fun z => z⟩
      · obtain rfl := Option.some.inj e; exact ⟨h1, h2, h3, h4⟩
  | exit inst =>
    simp only [step] at e
    split at e
    · cases e
    · obtain rfl := Option.some.inj e
      exact ⟨fun p hp => h1 p (List.mem_filter.1 hp).1, h2, h3, fun ev hev p hp => h4 ev hev p (List.mem_filter.1 hp).1⟩
  | poll => obtain rfl := Option.some.inj e; exact ⟨h1, h2, h3, h4⟩
  | begin =>
    simp only [step] at e
    split at e
    · cases e
    · obtain rfl := Option.some.inj e
      exact ⟨h1, fun _ h => (by cases h), fun _ h => (by cases h), fun _ h => (by cases h)⟩
  | finish =>
    simp only [step] at e
    split at e
    · split at e
      · obtain rfl := Option.some.inj e; exact ⟨h1, h2, h3, h4⟩
      · cases e
    · cases e

theorem known_run {R : Nat → Nat → String → Prop} (as : List Act) : ∀ (s s' : State), Inv s → Known R s → (∀ i id n, .register i id n ∈ as → R i id n) → run s as = some s' → Known R s' := by
  induction as with
  | nil => intro s s' _ h _ e; obtain rfl := Option.some.inj e; exact h
  | cons a as ih =>
    intro s s' hi h hr e
    rw [run_cons] at e
    obtain ⟨t, ht, e⟩ := Option.bind_eq_some_iff.1 e
    exact ih t s' (inv_step hi ht) (known_step hi h (fun i id n q => hr i id n (by rw [q]; exact List.mem_cons_self)) ht) (fun i id n q => hr i id n (List.mem_cons_of_mem _ q)) e

/-- **C116, where it holds.** In every history in which a process gives an id only one name: an event whose process still runs and is connected when the recording is finished is shown under its name, whatever other
    processes do. -/
theorem running_named_partial (as : List Act) (s s' : State) (e : run {} as = some s) (e' : step s .finish = some s')
    (hone : ∀ i id n n', .register i id n ∈ as → .register i id n' ∈ as → n = n') (x : Event × String) (hx : x ∈ s'.shown) (n : String) (hn : x.1.name = some n)
    (hrun : ∃ p ∈ s.procs, p.inst = x.1.inst) (hconn : x.1.inst ∈ s.conns) : x.2 = n := by
  have hi := inv_run as {} s inv_init e
  have hk : Known (fun i id n => Act.register i id n ∈ as) s :=
    known_run as {} s inv_init ⟨fun _ h => (by cases h), fun _ h => (by cases h), fun _ h => (by cases h), fun _ h => (by cases h)⟩ (fun _ _ _ h => h) e
  obtain ⟨h1, h2⟩ := shown_as as s s' e e'
  obtain ⟨p, hp, hpi⟩ := hrun
  have hst : x.1 ∈ s.store := by rw [← h1]; exact List.mem_map.2 ⟨x, hx, rfl⟩
  obtain ⟨k1, k2⟩ := hk.same x.1 hst p hp hpi
  have k3 := k2 (by rw [hn]; intro z; cases z)
  cases hl : p.names.lookup x.1.id with
  | none => exact absurd hl k3
  | some n' =>
    have r1 := hk.names p hp _ n' hl
    rw [hpi] at r1
    have r2 := hk.store x.1 hst n hn
    rw [hone _ _ _ _ r2 r1]
    exact (h2 x hx).1 p ⟨hp, k1, by rw [hpi]; exact hconn⟩ n' hl

/-- **C116, the violation.** Whenever a process has ended before the recording is finished and its pid is not used again, all its events are shown as unknown, whatever they were called and however long the
    consumer was connected with it. -/
theorem ended_unknown (as : List Act) (s s' : State) (e : run {} as = some s) (e' : step s .finish = some s') (x : Event × String) (hx : x ∈ s'.shown) (hend : ∀ p ∈ s.procs, p.pid ≠ x.1.pid) :
    C35.UnknownText x.1.id x.2 :=
  ((shown_as as s s' e e').2 x hx).2.2 fun ⟨p, h1, h2, _⟩ => hend p h1 h2

/-- **C116, the violation, worse.** If its pid is used again by another process with which the consumer is connected, its events are shown under the names of that one. -/
theorem reused_misnamed (as : List Act) (s s' : State) (e : run {} as = some s) (e' : step s .finish = some s') (x : Event × String) (hx : x ∈ s'.shown) (q : Proc) (hq : q ∈ s.procs)
    (_ : q.inst ≠ x.1.inst) (hpid : q.pid = x.1.pid) (hconn : q.inst ∈ s.conns) (n : String) (hn : q.names.lookup x.1.id = some n) : x.2 = n :=
  ((shown_as as s s' e e').2 x hx).1 q ⟨hq, hpid, hconn⟩ n hn

/-- An event is recorded if the recording runs and its process is connected, and otherwise it is not. -/
theorem emit_recorded (s : State) (p : Proc) (id : Nat) (hp : s.proc p.inst = some p) :
    ∃ s', step s (.emit p.inst id) = some s' ∧ s'.store = s.store ++ (if s.recording = true ∧ p.inst ∈ s.conns then [⟨p.inst, p.pid, id, p.names.lookup id⟩] else []) := by
  simp only [step, hp]
  by_cases h : s.recording = true ∧ p.inst ∈ s.conns
  · rw [if_pos h, if_pos h]; exact ⟨_, rfl, rfl⟩
  · rw [if_neg h, if_neg h]; exact ⟨_, rfl, by simp⟩

/-- After a poll the consumer is connected with exactly the processes that run. -/
theorem poll_connects (as : List Act) (s : State) (e : run {} as = some s) : ∃ s', step s .poll = some s' ∧ ∀ i, i ∈ s'.conns ↔ ∃ p ∈ s.procs, p.inst = i := by
  have hi := inv_run as {} s inv_init e
  refine ⟨_, rfl, fun i => ?_⟩
  have hs : (s.proc i).isSome = true ↔ ∃ p ∈ s.procs, p.inst = i := by
    constructor
    · intro h
      obtain ⟨p, hp⟩ := Option.isSome_iff_exists.1 h
      exact ⟨p, proc_some hp⟩
    · rintro ⟨p, hp, rfl⟩
      rw [proc_of_mem hi hp]; rfl
  simp only [List.mem_append, List.mem_filter, List.mem_map, hs]
  constructor
  · rintro (⟨_, h⟩ | ⟨h, _⟩)
    · exact h
    · exact h
  · intro h
    by_cases hc : i ∈ s.conns
    · exact .inl ⟨hc, h⟩
    · exact .inr ⟨h, by simp [hc]⟩

/-- A process that is found, recorded and gone. -/
def short : List Act := [.start 7, .register 0 1 "f", .poll, .begin, .emit 0 1, .exit 0]

/-- **C116 does not hold.** -/
theorem not_NamesKept : ¬ NamesKept := by
  intro h
  have := h short _ _ rfl rfl ({ inst := 0, pid := 7, id := 1, name := some "f" }, "Unknown 0x1") (by decide +kernel) "f" rfl
  exact absurd this (by decide)

/-- The hypotheses are met: a recording of a process that runs on, one that ends, and one whose pid is used again. -/
example : (∃ s s', run {} [.start 7, .register 0 1 "f", .poll, .begin, .emit 0 1] = some s ∧ step s .finish = some s' ∧ s'.shown.map (·.2) = ["f"]) ∧
    (∃ s s', run {} short = some s ∧ step s .finish = some s' ∧ s'.shown.map (·.2) = ["Unknown 0x1"]) ∧
    ∃ s s', run {} (short ++ [.start 7, .register 1 1 "g", .poll]) = some s ∧ step s .finish = some s' ∧ s'.shown.map (·.2) = ["g"] := by
  refine ⟨⟨_, _, rfl, rfl, ?_⟩, ⟨_, _, rfl, rfl, ?_⟩, ⟨_, _, rfl, rfl, ?_⟩⟩ <;> decide +kernel

end Scalopus.C116
