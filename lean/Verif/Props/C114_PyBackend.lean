import Verif.Model.PyBackend

/-!
# C114: swapping the tracing backend

A Python program may swap the backend with `setBackend` at any time: every scope is reported by the backend that was set, with the times at which it was entered and left, and nothing else is.

This is false: entry and exit each go to the backend that is set at that moment.
-/

namespace Scalopus.C114
open Scalopus.PyBackend

/-! ## What a viewer makes of the events of one backend and one thread: an exit closes the innermost entry that is open -/

structure View where
  opened : List (Nat × Nat) := []
  scopes : List Scope := []

def View.step (t : Nat) (v : View) (e : Event) : View :=
  if e.entry then { v with opened := (e.id, e.time) :: v.opened }
  else match v.opened with
    | [] => v
    | (id, start) :: rest => { opened := rest, scopes := v.scopes ++ [{ thread := t, id := id, start := start, stop := e.time }] }

/-- What is shown of thread `t` from the events of backend `b`. -/
def shown (es : List Event) (b : Backend) (t : Nat) : View := (es.filter fun e => e.backend == b && e.thread == t).foldl (View.step t) {}

/-- The scopes that the program has left and that were entered while backend `b` was set. -/
def scopes (s : State) (b : Backend) (t : Nat) : List Scope := (s.closed.filter fun l => l.2.1 == b && l.1.thread == t).map (·.1)

/-- Every scope is shown, by the backend that was set when it was entered, and nothing else is, and no entry is left open once the thread has left all its scopes. -/
def Exact (s : State) : Prop := ∀ b t, b ≠ .nop → (shown s.events b t).scopes = scopes s b t ∧ (s.opened t = [] → (shown s.events b t).opened = [])

/-- The full claim. -/
def AlwaysExact : Prop := ∀ as s, run {} as = some s → Exact s

/-- The scope was left while the same backend was set as when it was entered. -/
def AllWhole (s : State) : Prop := ∀ l ∈ s.closed, l.2.1 = l.2.2

theorem run_cons (s : State) (a : Act) (as : List Act) : run s (a :: as) = (step s a).bind fun t => run t as := rfl

theorem run_append (as bs : List Act) : ∀ s, run s (as ++ bs) = (run s as).bind fun t => run t bs := by
  induction as with
  | nil => intro s; rfl
  | cons a as ih =>
    intro s
    rw [List.cons_append, run_cons, run_cons]
    cases step s a with
    | none => rfl
    | some t => exact ih t

theorem shown_snoc (es : List Event) (e : Event) (b : Backend) (t : Nat) :
    shown (es ++ [e]) b t = if e.backend = b ∧ e.thread = t then (shown es b t).step t e else shown es b t := by
  unfold shown
  rw [List.filter_append, List.foldl_append]
  by_cases h : e.backend = b ∧ e.thread = t
  · rw [if_pos h]
    simp [h.1, h.2]
  · rw [if_neg h]
    have : (e.backend == b && e.thread == t) = false := by
      cases hq : (e.backend == b && e.thread == t)
      · rfl
      · simp only [Bool.and_eq_true, beq_iff_eq] at hq; exact absurd hq h
    simp [List.filter_cons, this]

theorem left_kept {s s' : State} {a : Act} (e : step s a = some s') : ∃ l, s'.closed = s.closed ++ l := by
  cases a with
  | enter t id => obtain rfl := Option.some.inj e; exact ⟨[], by simp⟩
  | exit t =>
    simp only [step] at e
    split at e
    · cases e
    · obtain rfl := Option.some.inj e; exact ⟨_, rfl⟩
  | setBackend b => obtain rfl := Option.some.inj e; exact ⟨[], by simp⟩

theorem left_kept_run (as : List Act) : ∀ (s s' : State), run s as = some s' → ∃ l, s'.closed = s.closed ++ l := by
  induction as with
  | nil => intro s s' e; obtain rfl := Option.some.inj e; exact ⟨[], by simp⟩
  | cons a as ih =>
    intro s s' e
    rw [run_cons] at e
    obtain ⟨t, h, e⟩ := Option.bind_eq_some_iff.1 e
    obtain ⟨l1, h1⟩ := left_kept h
    obtain ⟨l2, h2⟩ := ih t s' e
    exact ⟨l1 ++ l2, by rw [h2, h1, List.append_assoc]⟩

/-- What is shown while all scopes are whole. -/
def Fits (s : State) : Prop := ∀ b t, b ≠ .nop → (shown s.events b t).scopes = scopes s b t ∧ (shown s.events b t).opened = ((s.opened t).filter fun o => o.backend == b).map fun o => (o.id, o.start)

theorem scopes_snoc (s : State) (l : Scope × Backend × Backend) (b : Backend) (t : Nat) :
    scopes { s with closed := s.closed ++ [l] } b t = scopes s b t ++ if l.2.1 = b ∧ l.1.thread = t then [l.1] else [] := by
  unfold scopes
  simp only [List.filter_append, List.map_append]
  congr 1
  by_cases h : l.2.1 = b ∧ l.1.thread = t
  · rw [if_pos h]; simp [h.1, h.2]
  · rw [if_neg h]
    have : (l.2.1 == b && l.1.thread == t) = false := by
      cases hq : (l.2.1 == b && l.1.thread == t)
      · rfl
      · simp only [Bool.and_eq_true, beq_iff_eq] at hq; exact absurd hq h
    simp [List.filter_cons, this]

theorem fits_step {s s' : State} {a : Act} (h : Fits s) (e : step s a = some s') (hw : AllWhole s') : Fits s' := by
  cases a with
  | setBackend b => obtain rfl := Option.some.inj e; exact h
  | enter t id =>
    obtain rfl := Option.some.inj e
    intro b u hb
    obtain ⟨h1, h2⟩ := h b u hb
    simp only [emit]
    by_cases hn : s.backend = .nop
    · rw [if_pos hn]
      refine ⟨h1, ?_⟩
      rw [h2]
      by_cases hu : u = t
      · subst hu
        rw [if_pos rfl, List.filter_cons, if_neg]
        simp only [hn, beq_iff_eq]; exact fun q => hb q.symm
      · rw [if_neg hu]
    · rw [if_neg hn, shown_snoc]
      by_cases hq : s.backend = b ∧ t = u
      · obtain ⟨rfl, rfl⟩ := hq
        rw [if_pos ⟨rfl, rfl⟩]
        simp only [View.step, if_true]
        refine ⟨h1, ?_⟩
        rw [h2, List.filter_cons, if_pos (by simp)]
        rfl
      · rw [if_neg hq]
        refine ⟨h1, ?_⟩
        rw [h2]
        by_cases hu : u = t
        · subst hu
          rw [if_pos rfl, List.filter_cons, if_neg]
          simp only [beq_iff_eq]; exact fun q => hq ⟨q, rfl⟩
        · rw [if_neg hu]
  | exit t =>
    simp only [step] at e
    split at e
    · cases e
    · rename_i o rest ho
      obtain rfl := Option.some.inj e
      have hl : o.backend = s.backend := hw ({ thread := t, id := o.id, start := o.start, stop := s.time }, o.backend, s.backend) (by simp)
      intro b u hb
      obtain ⟨h1, h2⟩ := h b u hb
      have hsc : scopes ({ s with time := s.time + 1, opened := fun u => if u = t then rest else s.opened u, events := emit s t false o.id, closed := s.closed ++ [({ thread := t, id := o.id, start := o.start, stop := s.time }, o.backend, s.backend)] } : State) b u =
          scopes s b u ++ if o.backend = b ∧ t = u then [{ thread := t, id := o.id, start := o.start, stop := s.time }] else [] :=
        scopes_snoc s ({ thread := t, id := o.id, start := o.start, stop := s.time }, o.backend, s.backend) b u
      rw [hsc]
      simp only [emit]
      by_cases hn : s.backend = .nop
      · rw [if_pos hn, if_neg (fun q => hb (by rw [← q.1, hl, hn])), List.append_nil]
        refine ⟨h1, ?_⟩
        rw [h2]
        by_cases hu : u = t
        · subst hu
          rw [if_pos rfl, ho, List.filter_cons, if_neg]
          simp only [hl, hn, beq_iff_eq]; exact fun q => hb q.symm
        · rw [if_neg hu]
      · rw [if_neg hn, shown_snoc]
        by_cases hq : s.backend = b ∧ t = u
        · obtain ⟨rfl, rfl⟩ := hq
          rw [if_pos ⟨rfl, rfl⟩, if_pos ⟨hl, rfl⟩]
          rw [ho, List.filter_cons, if_pos (by simp [hl]), List.map_cons] at h2
          simp only [View.step, Bool.false_eq_true, if_false, h2, h1, if_true, and_self]
        · rw [if_neg hq, if_neg (fun q => hq ⟨by rw [← hl]; exact q.1, q.2⟩), List.append_nil]
          refine ⟨h1, ?_⟩
          rw [h2]
          by_cases hu : u = t
          · subst hu
            rw [if_pos rfl, ho, List.filter_cons, if_neg]
            simp only [hl, beq_iff_eq]; exact fun q => hq ⟨q, rfl⟩
          · rw [if_neg hu]

theorem fits_run (as : List Act) : ∀ (s s' : State), Fits s → run s as = some s' → AllWhole s' → Fits s' := by
  induction as with
  | nil => intro s s' h e _; obtain rfl := Option.some.inj e; exact h
  | cons a as ih =>
    intro s s' h e hw
    rw [run_cons] at e
    obtain ⟨t, ht, e⟩ := Option.bind_eq_some_iff.1 e
    obtain ⟨l, hl⟩ := left_kept_run as t s' e
    have hwt : AllWhole t := fun x hx => hw x (by rw [hl]; exact List.mem_append_left _ hx)
    exact ih t s' (fits_step h ht hwt) e hw

theorem fits_init : Fits {} := fun _ _ _ => ⟨rfl, rfl⟩

/-! ## Times -/

/-- Events and scopes carry times of the past, an event's time is that of one step. -/
structure Timed (s : State) : Prop where
  event : ∀ e ∈ s.events, e.time < s.time
  opened : ∀ t, ∀ o ∈ s.opened t, o.start < s.time
  closed : ∀ l ∈ s.closed, l.1.stop < s.time
  /-- what was emitted when a scope was left, was emitted by the backend at that time -/
  exit : ∀ l ∈ s.closed, ∀ e ∈ s.events, e.time = l.1.stop → e.backend = l.2.2
  /-- and so for its entry -/
  entry : ∀ l ∈ s.closed, ∀ e ∈ s.events, e.time = l.1.start → e.backend = l.2.1
  inside : ∀ t, ∀ o ∈ s.opened t, ∀ e ∈ s.events, e.time = o.start → e.backend = o.backend
  order : ∀ l ∈ s.closed, l.1.start < s.time

theorem timed_step {s s' : State} {a : Act} (h : Timed s) (e : step s a = some s') : Timed s' := by
  obtain ⟨h1, h2, h3, h4, h5, h6, h7⟩ := h
  have hemit : ∀ t en id, ∀ ev ∈ emit s t en id, ev ∈ s.events ∨ (ev.time = s.time ∧ ev.backend = s.backend) := by
    intro t en id ev hev
    simp only [emit] at hev
    split at hev
    · exact .inl hev
    · rcases List.mem_append.1 hev with q | q
      · exact .inl q
      · rw [List.mem_singleton] at q; subst q; exact .inr ⟨rfl, rfl⟩
  cases a with
  | setBackend b =>
    obtain rfl := Option.some.inj e
    exact ⟨fun e he => Nat.lt_succ_of_lt (h1 e he), fun t o ho => Nat.lt_succ_of_lt (h2 t o ho), fun l hl => Nat.lt_succ_of_lt (h3 l hl), h4, h5, h6, fun l hl => Nat.lt_succ_of_lt (h7 l hl)⟩
  | enter t id =>
    obtain rfl := Option.some.inj e
    refine ⟨fun ev hev => ?_, fun u o ho => ?_, fun l hl => Nat.lt_succ_of_lt (h3 l hl), fun l hl ev hev ht => ?_, fun l hl ev hev ht => ?_, fun u o ho ev hev ht => ?_, fun l hl => Nat.lt_succ_of_lt (h7 l hl)⟩
    · simp only at hev ⊢
      rcases hemit t true id ev hev with q | q
      · have := h1 ev q; omega
      · omega
    · simp only at ho ⊢
      split at ho
      · rcases List.mem_cons.1 ho with rfl | q
        · simp
        · have := h2 t o q; omega
      · have := h2 u o ho; omega
    · rcases hemit t true id ev hev with q | q
      · exact h4 l hl ev q ht
      · have := h3 l hl; omega
    · rcases hemit t true id ev hev with q | q
      · exact h5 l hl ev q ht
      · have := h7 l hl; omega
    · simp only at ho
      split at ho
      · rcases List.mem_cons.1 ho with rfl | q
        · rcases hemit t true id ev hev with r | r
          · have := h1 ev r; simp only at ht; omega
          · exact r.2
        · rcases hemit t true id ev hev with r | r
          · exact h6 t o q ev r ht
          · have := h2 t o q; omega
      · rcases hemit t true id ev hev with r | r
        · exact h6 u o ho ev r ht
        · have := h2 u o ho; omega
  | exit t =>
    simp only [step] at e
    split at e
    · cases e
    · rename_i o rest ho
      obtain rfl := Option.some.inj e
      refine ⟨fun ev hev => ?_, fun u p hp => ?_, fun l hl => ?_, fun l hl ev hev ht => ?_, fun l hl ev hev ht => ?_, fun u p hp ev hev ht => ?_, fun l hl => ?_⟩
      · simp only at hev ⊢
        rcases hemit t false o.id ev hev with q | q
        · have := h1 ev q; omega
        · omega
      · simp only at hp ⊢
        split at hp
        · have := h2 t p (by rw [ho]; exact List.mem_cons_of_mem _ hp); omega
        · have := h2 u p hp; omega
      · simp only at hl ⊢
        rcases List.mem_append.1 hl with q | q
        · have := h3 l q; omega
        · rw [List.mem_singleton] at q; subst q; simp
      · rcases List.mem_append.1 hl with q | q
        · rcases hemit t false o.id ev hev with r | r
          · exact h4 l q ev r ht
          · have := h3 l q; omega
        · rw [List.mem_singleton] at q; subst q
          rcases hemit t false o.id ev hev with r | r
          · have := h1 ev r; simp only at ht; omega
          · exact r.2
      · have hold := h2 t o (by rw [ho]; exact List.mem_cons_self)
        rcases List.mem_append.1 hl with q | q
        · rcases hemit t false o.id ev hev with r | r
          · exact h5 l q ev r ht
          · have := h7 l q; omega
        · rw [List.mem_singleton] at q; subst q
          rcases hemit t false o.id ev hev with r | r
          · exact h6 t o (by rw [ho]; exact List.mem_cons_self) ev r ht
          · simp only at ht; omega
      · have hmem : p ∈ s.opened u := by
          simp only at hp
          split at hp
          · rename_i hu; rw [hu, ho]; exact List.mem_cons_of_mem _ hp
          · exact hp
        rcases hemit t false o.id ev hev with r | r
        · exact h6 u p hmem ev r ht
        · have := h2 u p hmem; omega
      · simp only at hl ⊢
        rcases List.mem_append.1 hl with q | q
        · have := h7 l q; omega
        · rw [List.mem_singleton] at q; subst q
          have := h2 t o (by rw [ho]; exact List.mem_cons_self)
          simp only; omega

theorem timed_run (as : List Act) : ∀ (s s' : State), Timed s → run s as = some s' → Timed s' := by
  induction as with
  | nil => intro s s' h e; obtain rfl := Option.some.inj e; exact h
  | cons a as ih =>
    intro s s' h e
    rw [run_cons] at e
    obtain ⟨t, ht, e⟩ := Option.bind_eq_some_iff.1 e
    exact ih t s' (timed_step h ht) e

theorem timed_init : Timed {} := ⟨fun _ h => (by cases h), fun _ _ h => (by cases h), fun _ h => (by cases h), fun _ h => (by cases h), fun _ h => (by cases h), fun _ _ h => (by cases h), fun _ h => (by cases h)⟩

/-- What is shown ends at the time of an event of that backend. -/
theorem shown_stop (es : List Event) (b : Backend) (t : Nat) : ∀ x ∈ (shown es b t).scopes, ∃ e ∈ es, e.backend = b ∧ e.time = x.stop := by
  unfold shown
  have key : ∀ (l : List Event) (v : View), (∀ e ∈ l, e ∈ es ∧ e.backend = b) → (∀ x ∈ v.scopes, ∃ e ∈ es, e.backend = b ∧ e.time = x.stop) →
      ∀ x ∈ (l.foldl (View.step t) v).scopes, ∃ e ∈ es, e.backend = b ∧ e.time = x.stop := by
    intro l
    induction l with
    | nil => intro v _ h; exact h
    | cons e l ih =>
      intro v hl h
      rw [List.foldl_cons]
      refine ih _ (fun e he => hl e (List.mem_cons_of_mem _ he)) fun x hx => ?_
      simp only [View.step] at hx
      split at hx
      · exact h x hx
      · split at hx
        · exact h x hx
        · rcases List.mem_append.1 hx with q | q
          · exact h x q
          · rw [List.mem_singleton] at q; subst q
            exact ⟨e, (hl e List.mem_cons_self).1, (hl e List.mem_cons_self).2, rfl⟩
  refine key _ {} (fun e he => ?_) (fun _ h => (by cases h))
  obtain ⟨h1, h2⟩ := List.mem_filter.1 he
  simp only [Bool.and_eq_true, beq_iff_eq] at h2
  exact ⟨h1, h2.1⟩

/-- And starts at the time of one. -/
theorem shown_start (es : List Event) (b : Backend) (t : Nat) : ∀ x ∈ (shown es b t).scopes, ∃ e ∈ es, e.backend = b ∧ e.time = x.start := by
  unfold shown
  have key : ∀ (l : List Event) (v : View), (∀ e ∈ l, e ∈ es ∧ e.backend = b) → (∀ p ∈ v.opened, ∃ e ∈ es, e.backend = b ∧ e.time = p.2) →
      (∀ x ∈ v.scopes, ∃ e ∈ es, e.backend = b ∧ e.time = x.start) → ∀ x ∈ (l.foldl (View.step t) v).scopes, ∃ e ∈ es, e.backend = b ∧ e.time = x.start := by
    intro l
    induction l with
    | nil => intro v _ _ h; exact h
    | cons e l ih =>
      intro v hl ho h
      rw [List.foldl_cons]
      refine ih _ (fun e he => hl e (List.mem_cons_of_mem _ he)) (fun p hp => ?_) fun x hx => ?_
      · simp only [View.step] at hp
        split at hp
        · rcases List.mem_cons.1 hp with rfl | q
          · exact ⟨e, (hl e List.mem_cons_self).1, (hl e List.mem_cons_self).2, rfl⟩
          · exact ho p q
        · split at hp
          · exact ho p hp
          · rename_i hv; exact ho p (by rw [hv]; exact List.mem_cons_of_mem _ hp)
      · simp only [View.step] at hx
        split at hx
        · exact h x hx
        · split at hx
          · exact h x hx
          · rename_i hv
            rcases List.mem_append.1 hx with q | q
            · exact h x q
            · rw [List.mem_singleton] at q; subst q
              exact ho _ (by rw [hv]; exact List.mem_cons_self)
  refine key _ {} (fun e he => ?_) (fun _ h => (by cases h)) (fun _ h => (by cases h))
  obtain ⟨h1, h2⟩ := List.mem_filter.1 he
  simp only [Bool.and_eq_true, beq_iff_eq] at h2
  exact ⟨h1, h2.1⟩

/-! ## The theorems -/

/-- **C114, where it holds.** Whatever the threads do: if every scope was left under the backend under which it was entered, every scope is shown exactly. -/
theorem whole_partial (as : List Act) (s : State) (e : run {} as = some s) (hw : AllWhole s) : Exact s := by
  intro b t hb
  obtain ⟨h1, h2⟩ := fits_run as {} s fits_init e hw b t hb
  exact ⟨h1, fun h => by rw [h2, h]; rfl⟩

/-- **C114, one scope.** A scope that was left under another backend than the one under which it was entered is not shown by any backend, whatever happened before and after. -/
theorem torn_lost (as : List Act) (s : State) (e : run {} as = some s) (x : Scope) (b b' : Backend) (hx : (x, b, b') ∈ s.closed) (hb : b ≠ b') (c : Backend) (t : Nat) :
    x ∉ (shown s.events c t).scopes := by
  intro h
  obtain ⟨ev, he, h1, h2⟩ := shown_stop _ _ _ x h
  obtain ⟨ev', he', h1', h2'⟩ := shown_start _ _ _ x h
  have i := timed_run as {} s timed_init e
  have e1 := i.exit _ hx ev he h2
  have e2 := i.entry _ hx ev' he' h2'
  exact hb (by rw [h1] at e1; rw [h1'] at e2; exact e2.symm.trans e1)

/-- **C114, exactly.** Of a program that entered no scope under the backend that shows nothing, what is shown is exact if and only if every scope was left under the backend under which it was entered. -/
theorem exact_iff (as : List Act) (s : State) (e : run {} as = some s) (hnop : ∀ l ∈ s.closed, l.2.1 ≠ .nop) : Exact s ↔ AllWhole s := by
  constructor
  · intro hx l hl
    by_cases q : l.2.1 = l.2.2
    · exact q
    · refine absurd ?_ (torn_lost as s e l.1 l.2.1 l.2.2 hl q l.2.1 l.1.thread)
      rw [(hx l.2.1 l.1.thread (hnop l hl)).1]
      exact List.mem_map.2 ⟨l, List.mem_filter.2 ⟨hl, by simp⟩, rfl⟩
  · exact whole_partial as s e

/-- Nobody is in a scope. -/
def Quiet (s : State) : Prop := ∀ t, s.opened t = []

/-- The backend is only swapped while no thread is in a scope. -/
def SwapsQuiet (s : State) : List Act → Prop
  | [] => True
  | a :: as => (∀ b, a = .setBackend b → Quiet s) ∧ ∀ t, step s a = some t → SwapsQuiet t as

/-- **C114 for programs.** A program that swaps the backend only while no thread is in a scope is shown exactly. -/
theorem quiet_swaps_partial (as : List Act) (s : State) (e : run {} as = some s) (hq : SwapsQuiet {} as) : Exact s := by
  refine whole_partial as s e ?_
  have key : ∀ (as : List Act) (s s' : State), (∀ t, ∀ o ∈ s.opened t, o.backend = s.backend) → AllWhole s → SwapsQuiet s as → run s as = some s' → AllWhole s' := by
    intro as
    induction as with
    | nil => intro s s' _ h _ e; obtain rfl := Option.some.inj e; exact h
    | cons a as ih =>
      intro s s' ho hw hq e
      rw [run_cons] at e
      obtain ⟨u, hu, e⟩ := Option.bind_eq_some_iff.1 e
      refine ih u s' ?_ ?_ (hq.2 u hu) e
      · cases a with
        | setBackend b =>
          obtain rfl := Option.some.inj hu
          intro t o h
          rw [show ({ s with time := s.time + 1, backend := b } : State).opened t = [] from hq.1 b rfl t] at h
          cases h
        | enter t id =>
          obtain rfl := Option.some.inj hu
          intro u o h
          simp only at h
          split at h
          · rcases List.mem_cons.1 h with rfl | q
            · rfl
            · exact ho t o q
          · exact ho u o h
        | exit t =>
          simp only [step] at hu
          split at hu
          · cases hu
          · rename_i p rest hp
            obtain rfl := Option.some.inj hu
            intro u o h
            simp only at h
            split at h
            · exact ho t o (by rw [hp]; exact List.mem_cons_of_mem _ h)
            · exact ho u o h
      · cases a with
        | setBackend b => obtain rfl := Option.some.inj hu; exact hw
        | enter t id => obtain rfl := Option.some.inj hu; exact hw
        | exit t =>
          simp only [step] at hu
          split at hu
          · cases hu
          · rename_i p rest hp
            obtain rfl := Option.some.inj hu
            intro l hl
            rcases List.mem_append.1 hl with q | q
            · exact hw l q
            · rw [List.mem_singleton] at q; subst q
              exact ho t p (by rw [hp]; exact List.mem_cons_self)
  exact key as {} s (fun _ _ h => (by cases h)) (fun _ h => (by cases h)) hq e

/-- **C114, the violation.** Whenever any thread is in a scope, swapping the backend loses that scope if it is left before the backend is swapped again: no continuation shows it. -/
theorem swap_loses (as bs : List Act) (s s' : State) (e : run {} as = some s) (t : Nat) (o : Opened) (rest : List Opened) (ho : s.opened t = o :: rest) (b : Backend) (hb : o.backend ≠ b)
    (e' : run s (.setBackend b :: .exit t :: bs) = some s') :
    ∃ x : Scope, x.thread = t ∧ x.id = o.id ∧ x.start = o.start ∧ (x, o.backend, b) ∈ s'.closed ∧ ∀ c u, x ∉ (shown s'.events c u).scopes := by
  refine ⟨{ thread := t, id := o.id, start := o.start, stop := s.time + 1 }, rfl, rfl, rfl, ?_, ?_⟩
  · rw [run_cons, show step s (.setBackend b) = some { s with time := s.time + 1, backend := b } from rfl, Option.bind_some, run_cons] at e'
    simp only [step, ho, Option.bind_some] at e'
    obtain ⟨l, hl⟩ := left_kept_run bs _ s' e'
    rw [hl]
    simp
  · intro c u
    have hre : run {} (as ++ (.setBackend b :: .exit t :: bs)) = some s' := by rw [run_append, e]; exact e'
    refine torn_lost _ s' hre _ o.backend b ?_ hb c u
    rw [run_cons, show step s (.setBackend b) = some { s with time := s.time + 1, backend := b } from rfl, Option.bind_some, run_cons] at e'
    simp only [step, ho, Option.bind_some] at e'
    obtain ⟨l, hl⟩ := left_kept_run bs _ s' e'
    rw [hl]
    simp

/-- **C114, other scopes, every time.** Whenever a thread is in two scopes of one backend and no scope was torn before: if another backend is set while the inner one is left, then the backend shows, instead of both, the inner
one with the end of the outer one. -/
theorem torn_inside_always (as : List Act) (s : State) (e : run {} as = some s) (hw : AllWhole s) (t : Nat) (o o' : Opened) (rest : List Opened) (ho : s.opened t = o :: o' :: rest) (b : Backend) (hb : s.backend ≠ b)
    (hn : s.backend ≠ .nop) (h1 : o.backend = s.backend) (h2 : o'.backend = s.backend) :
    ∃ s', run s [.setBackend b, .exit t, .setBackend s.backend, .exit t] = some s' ∧
      (shown s'.events s.backend t).scopes = scopes s s.backend t ++ [{ thread := t, id := o.id, start := o.start, stop := s.time + 3 }] ∧
      scopes s' s.backend t = scopes s s.backend t ++ [{ thread := t, id := o.id, start := o.start, stop := s.time + 1 }, { thread := t, id := o'.id, start := o'.start, stop := s.time + 3 }] := by
  obtain ⟨f1, f2⟩ := fits_run as {} s fits_init e hw s.backend t hn
  rw [ho, List.filter_cons, if_pos (by simp [h1]), List.map_cons] at f2
  have hev : ∀ es : List Event, (∀ e ∈ es, e.backend ≠ s.backend) → shown (s.events ++ es) s.backend t = shown s.events s.backend t := by
    intro es hes
    unfold shown
    have h0 : es.filter (fun e => e.backend == s.backend && e.thread == t) = [] := by
      rw [List.filter_eq_nil_iff]
      intro e he
      simp [hes e he]
    rw [List.filter_append, h0, List.append_nil]
  refine ⟨_, by simp only [run_cons, step, ho, Option.bind_some, if_true]; rfl, ?_, ?_⟩
  · simp only [emit]
    rw [if_neg hn, shown_snoc, if_pos ⟨rfl, rfl⟩]
    have : shown (if b = Backend.nop then s.events else s.events ++ [{ backend := b, thread := t, entry := false, id := o.id, time := s.time + 1 }]) s.backend t = shown s.events s.backend t := by
      split
      · rfl
      · exact hev _ (by simp; exact fun h => hb h.symm)
    rw [this]
    simp only [View.step, Bool.false_eq_true, if_false, f2, f1]
  · simp [scopes, List.filter_append, h1, h2]

example : ∃ s, run {} [.enter 1 7, .exit 1, .enter 0 1, .enter 0 2] = some s ∧ AllWhole s ∧ s.opened 0 = [⟨2, 3, .native⟩, ⟨1, 2, .native⟩] ∧ s.backend = .native := by
  refine ⟨_, rfl, ?_, rfl, rfl⟩
  intro l hl
  simp [step, emit] at hl
  subst hl
  rfl

/-- **C114, the violation, other scopes.** One that is torn inside of a whole one also spoils what is shown of that one: the entry that stays open takes its exit. -/
theorem torn_inside : ∃ s, run {} [.enter 0 1, .enter 0 2, .setBackend .lttng, .exit 0, .setBackend .native, .exit 0] = some s ∧
    (shown s.events .native 0).scopes = [{ thread := 0, id := 2, start := 1, stop := 5 }] ∧ scopes s .native 0 = [{ thread := 0, id := 2, start := 1, stop := 3 }, { thread := 0, id := 1, start := 0, stop := 5 }] :=
  ⟨_, rfl, rfl, rfl⟩

/-- **C114 does not hold.** -/
theorem not_AlwaysExact : ¬ AlwaysExact := by
  intro h
  obtain ⟨s, e, h1, h2⟩ := torn_inside
  have := (h _ s e .native 0 (by decide)).1
  rw [h1, h2] at this
  cases this

/-- The hypotheses are met: two threads with nested scopes, a swap in between and one back again. -/
example : ∃ s, run {} [.enter 0 1, .enter 1 5, .enter 0 2, .exit 0, .exit 1, .exit 0, .setBackend .lttng, .enter 1 6, .exit 1, .setBackend .native, .enter 0 1, .exit 0] = some s ∧ AllWhole s ∧
    s.closed.length = 5 ∧ (shown s.events .native 0).scopes.length = 3 ∧ (shown s.events .lttng 1).scopes = [{ thread := 1, id := 6, start := 7, stop := 8 }] := by
  refine ⟨_, rfl, ?_, rfl, rfl, rfl⟩
  unfold AllWhole
  decide +kernel

/-- A program that swaps only in between. -/
example : SwapsQuiet {} [.enter 0 1, .exit 0, .setBackend .nop] := by
  refine ⟨fun _ h => (by cases h), fun t ht => ?_⟩
  obtain rfl := Option.some.inj ht
  refine ⟨fun _ h => (by cases h), fun t ht => ?_⟩
  obtain rfl := Option.some.inj ht
  refine ⟨fun b _ t => ?_, fun t ht => trivial⟩
  by_cases h : t = 0 <;> simp [h]

end Scalopus.C114
