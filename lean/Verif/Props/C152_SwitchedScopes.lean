import Verif.Model.SwitchedScopes
import Verif.Props.C151_Overrun

/-!
# C152: what is shown of a thread whose tracing is switched while it is in scopes

All statements quantify over every program of scopes, marks and counters of a thread, every history of its switches, and every set of batches with the events of other threads
and processes.
-/

namespace Scalopus.C152

open Sections SwitchedScopes NativeSource Endpoints Cbor

/-- A scope of a program: its number, the times of its entry and its exit, and which of the thread's events these are. -/
structure Span where
  id : Nat
  start : Nat
  stop : Nat
  entry : Nat
  exit : Nat
  deriving Repr, DecidableEq

/-- The scopes of a program whose first event has number `k`, in the order in which they end. -/
def spans : Nat → Prog → List Span
  | _, .done => []
  | k, .scope id start stop body rest =>
    spans (k + 1) body ++ ⟨id, start, stop, k, k + 1 + body.emitted.length⟩ :: spans (k + 2 + body.emitted.length) rest
  | k, .mark _ _ _ rest => spans (k + 1) rest
  | k, .count _ _ _ rest => spans (k + 1) rest

/-- Section `s` is this scope. -/
def Is (names : TraceMap) (pid : Nat) (s : Section) (x : Span) : Prop :=
  s.name = ScopeNames.getScopeName names pid x.id ∧ s.start = Double.ts x.start ∧ s.stop = Double.ts x.stop

/-- This scope is shown as begun and not ended. -/
def Begun (names : TraceMap) (pid : Nat) (b : String × ℚ) (x : Span) : Prop := b = (ScopeNames.getScopeName names pid x.id, Double.ts x.start)

/-- What should be shown: exactly the scopes that were entered and left with tracing on, in the order of their ends; and as begun and not ended those that were entered with tracing on and during which it was
    switched off for good. -/
structure Right (names : TraceMap) (pid : Nat) (on : Nat → Bool) (p : Prog) (r : Row) : Prop where
  sections : List.Forall₂ (Is names pid) r.sections ((spans 0 p).filter fun x => on x.entry && on x.exit)
  opened : List.Forall₂ (Begun names pid) r.opened ((spans 0 p).filter fun x => on x.entry && !on x.exit)

/-- The full claim. -/
def AlwaysRight : Prop :=
  ∀ (p : Prog) (on : Nat → Bool), p.emitted.Pairwise (fun a b => a.time ≤ b.time) →
    ∀ (names : TraceMap) (batches : List (Nat × Threads)), Valid batches → (∀ r ∈ Spec.recorded batches, Spec.Known r.event) →
    ∀ (pid tid : Nat), C150.eventsOf pid tid batches = (recorded on 0 p.emitted).map Moment.event →
      ∃ res, finishInterval (some (.ok names)) (encoded batches) = .ok res ∧ Right names pid on p (look pid tid (res.map Entry.shape))

/-! ### What is recorded -/

theorem recorded_append (on : Nat → Bool) (a b : List Moment) : ∀ k, recorded on k (a ++ b) = recorded on k a ++ recorded on (k + a.length) b := by
  induction a with
  | nil => intro k; simp [recorded]
  | cons m a ih =>
    intro k
    simp only [List.cons_append, recorded, ih, List.length_cons]
    rw [show k + 1 + a.length = k + (a.length + 1) by omega]
    split <;> simp

theorem recorded_sublist (on : Nat → Bool) (l : List Moment) : ∀ k, List.Sublist (recorded on k l) l := by
  induction l with
  | nil => intro k; exact List.Sublist.refl _
  | cons m l ih =>
    intro k
    simp only [recorded]
    split
    · exact (ih _).cons₂ _
    · exact (ih _).cons _

theorem recorded_none (on : Nat → Bool) (l : List Moment) : ∀ k, (∀ i, k ≤ i → on i = false) → recorded on k l = [] := by
  induction l with
  | nil => intro k _; rfl
  | cons m l ih =>
    intro k h
    simp only [recorded, h k (Nat.le_refl k)]
    exact ih _ fun i hi => h i (by omega)

theorem span_bounds (p : Prog) : ∀ k, ∀ x ∈ spans k p, k ≤ x.entry ∧ x.entry < x.exit ∧ x.exit < k + p.emitted.length := by
  induction p with
  | done => intro k x h; cases h
  | scope id a b body rest h1 h2 =>
    intro k x h
    simp only [Prog.emitted, List.length_cons, List.length_append]
    rcases List.mem_append.1 h with h | h
    · have := h1 _ x h; omega
    · rcases List.mem_cons.1 h with rfl | h
      · simp only; omega
      · have := h2 _ x h; omega
  | mark id t l rest ih =>
    intro k x h
    have := ih _ x h
    simp only [Prog.emitted, List.length_cons]; omega
  | count id t v rest ih =>
    intro k x h
    have := ih _ x h
    simp only [Prog.emitted, List.length_cons]; omega

section
variable (name : Nat → String) (time : Nat → ℚ) (pid : Int) (tid : Nat)

/-- How a scope is shown, apart from its depth. -/
def key (x : Span) : String × ℚ × ℚ := (name x.id, time x.start, time x.stop)
def skey (s : Section) : String × ℚ × ℚ := (s.name, s.start, s.stop)

/-- What the viewer makes of these moments. -/
def play (l : List Moment) (r : Row) : Row := (l.map (C150.entryOf name time pid tid)).foldl Row.step r

theorem play_append (a b : List Moment) (r : Row) : play name time pid tid (a ++ b) r = play name time pid tid b (play name time pid tid a r) := by
  simp [play]

theorem play_mark (t id : Nat) (l : TraceState.Level) (r : Row) : play name time pid tid [⟨t, .mark id l⟩] r = r := by
  cases l <;> rfl

theorem play_count (t id : Nat) (v : Int) (r : Row) : play name time pid tid [⟨t, .count id v⟩] r = r := rfl

theorem cons_play (m : Moment) (l : List Moment) (r : Row) : play name time pid tid (m :: l) r = play name time pid tid l (play name time pid tid [m] r) := rfl

theorem recorded_cons (on : Nat → Bool) (k : Nat) (m : Moment) (l : List Moment) (r : Row) :
    play name time pid tid (recorded on k (m :: l)) r = play name time pid tid (recorded on (k + 1) l) (if on k then play name time pid tid [m] r else r) := by
  simp only [recorded]
  split
  · rfl
  · rfl

/-- Every scope is entered and left with the switches in the same position. -/
theorem play_whole (on : Nat → Bool) (p : Prog) : ∀ k r, (∀ x ∈ spans k p, on x.entry = on x.exit) →
    (play name time pid tid (recorded on k p.emitted) r).opened = r.opened ∧
    (play name time pid tid (recorded on k p.emitted) r).sections.map skey = r.sections.map skey ++ ((spans k p).filter fun x => on x.entry && on x.exit).map (key name time) := by
  induction p with
  | done => intro k r _; exact ⟨rfl, by simp [Prog.emitted, recorded, play, spans]⟩
  | scope id a b body rest h1 h2 =>
    intro k r h
    have hs : on k = on (k + 1 + body.emitted.length) := h ⟨id, a, b, k, k + 1 + body.emitted.length⟩ (by simp [spans])
    have hb : ∀ x ∈ spans (k + 1) body, on x.entry = on x.exit := fun x hx => h x (by simp [spans, hx])
    have hr : ∀ x ∈ spans (k + 2 + body.emitted.length) rest, on x.entry = on x.exit := fun x hx => h x (by simp [spans, hx])
    simp only [Prog.emitted]
    rw [recorded_cons, recorded_append, play_append, recorded_cons]
    rw [show k + 1 + body.emitted.length + 1 = k + 2 + body.emitted.length by omega]
    cases hk : on k with
    | false =>
      rw [← hs, hk]
      simp only [Bool.false_eq_true, if_false]
      obtain ⟨b1, b2⟩ := h1 (k + 1) r hb
      obtain ⟨r1, r2⟩ := h2 (k + 2 + body.emitted.length) (play name time pid tid (recorded on (k + 1) body.emitted) r) hr
      refine ⟨by rw [r1, b1], ?_⟩
      rw [r2, b2]
      simp [spans, List.filter_append, List.filter_cons, hk]
    | true =>
      rw [← hs, hk]
      simp only [if_true]
      obtain ⟨b1, b2⟩ := h1 (k + 1) (play name time pid tid [⟨a, .entry id⟩] r) hb
      generalize he : play name time pid tid (recorded on (k + 1) body.emitted) (play name time pid tid [⟨a, .entry id⟩] r) = r1 at b1 b2
      obtain ⟨o1, s1⟩ := r1
      have e1 : play name time pid tid [⟨a, .entry id⟩] r = ⟨(name id, time a) :: r.opened, r.sections⟩ := rfl
      rw [e1] at b1 b2
      simp only at b1 b2
      subst b1
      have e2 : play name time pid tid [⟨b, .exit id⟩] ⟨(name id, time a) :: r.opened, s1⟩ = ⟨r.opened, s1 ++ [⟨name id, time a, time b, r.opened.length⟩]⟩ := rfl
      rw [e2]
      obtain ⟨r1, r2⟩ := h2 (k + 2 + body.emitted.length) ⟨r.opened, s1 ++ [⟨name id, time a, time b, r.opened.length⟩]⟩ hr
      refine ⟨r1, ?_⟩
      rw [r2]
      simp only [List.map_append, b2, spans, List.filter_append, List.filter_cons, hk, ← hs, Bool.and_self, if_true, List.map_cons, List.map_nil]
      simp [key, skey]
  | mark id t l rest ih =>
    intro k r h
    simp only [Prog.emitted, recorded_cons, play_mark, ite_self]
    exact ih _ r h
  | count id t v rest ih =>
    intro k r h
    simp only [Prog.emitted, recorded_cons, play_count, ite_self]
    exact ih _ r h

/-- Tracing is on from one moment to another. -/
def During (lo hi : Nat) (i : Nat) : Bool := decide (lo ≤ i ∧ i < hi)

theorem play_during (lo hi : Nat) (p : Prog) : ∀ k r, (lo ≤ k ∨ r.opened = []) →
    (play name time pid tid (recorded (During lo hi) k p.emitted) r).opened =
      ((spans k p).filter fun x => During lo hi x.entry && !During lo hi x.exit).map (fun x => (name x.id, time x.start)) ++ r.opened ∧
    (play name time pid tid (recorded (During lo hi) k p.emitted) r).sections.map skey =
      r.sections.map skey ++ ((spans k p).filter fun x => During lo hi x.entry && During lo hi x.exit).map (key name time) := by
  induction p with
  | done => intro k r _; exact ⟨rfl, by simp [Prog.emitted, recorded, play, spans]⟩
  | scope id a b body rest h1 h2 =>
    intro k r hk
    simp only [Prog.emitted]
    rw [recorded_cons, recorded_append, play_append, recorded_cons]
    rw [show k + 1 + body.emitted.length + 1 = k + 2 + body.emitted.length by omega]
    have hro : hi ≤ k + 1 + body.emitted.length → ∀ x ∈ spans (k + 2 + body.emitted.length) rest, During lo hi x.entry = false := by
      intro hj x hx
      have := span_bounds rest _ x hx
      simp only [During, decide_eq_false_iff_not]
      omega
    have hbo : ¬ hi ≤ k + 1 + body.emitted.length → (spans (k + 1) body).filter (fun x => During lo hi x.entry && !During lo hi x.exit) = [] := by
      intro hj
      apply List.filter_eq_nil_iff.2
      intro x hx
      have := span_bounds body _ x hx
      simp only [During, Bool.and_eq_true, decide_eq_true_eq, Bool.not_eq_true', decide_eq_false_iff_not]
      omega
    have hbl : k + 1 + body.emitted.length < lo → (spans (k + 1) body).filter (fun x => During lo hi x.entry && !During lo hi x.exit) = [] := by
      intro hj
      apply List.filter_eq_nil_iff.2
      intro x hx
      have := span_bounds body _ x hx
      simp only [During, Bool.and_eq_true, decide_eq_true_eq, Bool.not_eq_true', decide_eq_false_iff_not]
      omega
    have hr0 : hi ≤ k + 1 + body.emitted.length → (spans (k + 2 + body.emitted.length) rest).filter (fun x => During lo hi x.entry && !During lo hi x.exit) = [] := by
      intro hj
      exact List.filter_eq_nil_iff.2 fun x hx => by simp [hro hj x hx]
    have hcase : (spans (k + 1) body).filter (fun x => During lo hi x.entry && !During lo hi x.exit) = [] ∨
        (spans (k + 2 + body.emitted.length) rest).filter (fun x => During lo hi x.entry && !During lo hi x.exit) = [] :=
      (Classical.em (hi ≤ k + 1 + body.emitted.length)).elim (fun h => .inr (hr0 h)) (fun h => .inl (hbo h))
    cases hk1 : During lo hi k with
    | true =>
      have hk2 : lo ≤ k ∧ k < hi := by simpa [During] using hk1
      simp only [if_true]
      obtain ⟨b1, b2⟩ := h1 (k + 1) (play name time pid tid [⟨a, .entry id⟩] r) (.inl (by omega))
      generalize play name time pid tid (recorded (During lo hi) (k + 1) body.emitted) (play name time pid tid [⟨a, .entry id⟩] r) = r1 at b1 b2
      obtain ⟨o1, s1⟩ := r1
      have e1 : play name time pid tid [⟨a, .entry id⟩] r = ⟨(name id, time a) :: r.opened, r.sections⟩ := rfl
      rw [e1] at b1 b2
      simp only at b1 b2
      cases hj1 : During lo hi (k + 1 + body.emitted.length) with
      | true =>
        have hj2 : ¬ hi ≤ k + 1 + body.emitted.length := by
          have : lo ≤ k + 1 + body.emitted.length ∧ k + 1 + body.emitted.length < hi := by simpa [During] using hj1
          omega
        rw [hbo hj2] at b1
        simp only [List.map_nil, List.nil_append] at b1
        subst b1
        have e2 : play name time pid tid [⟨b, .exit id⟩] ⟨(name id, time a) :: r.opened, s1⟩ = ⟨r.opened, s1 ++ [⟨name id, time a, time b, r.opened.length⟩]⟩ := rfl
        simp only [if_true]
        rw [e2]
        obtain ⟨r1, r2⟩ := h2 (k + 2 + body.emitted.length) ⟨r.opened, s1 ++ [⟨name id, time a, time b, r.opened.length⟩]⟩ (.inl (by omega))
        refine ⟨?_, ?_⟩
        · rw [r1]
          simp [spans, List.filter_append, List.filter_cons, hbo hj2, hk1, hj1]
        · rw [r2]
          simp only [List.map_append, b2, spans, List.filter_append, List.filter_cons, hk1, hj1, Bool.and_self, if_true, List.map_cons, List.map_nil]
          simp [key, skey]
      | false =>
        have hj2 : hi ≤ k + 1 + body.emitted.length := by
          have : ¬ (lo ≤ k + 1 + body.emitted.length ∧ k + 1 + body.emitted.length < hi) := by simpa [During] using hj1
          omega
        simp only [Bool.false_eq_true, if_false]
        obtain ⟨r1, r2⟩ := h2 (k + 2 + body.emitted.length) ⟨o1, s1⟩ (.inl (by omega))
        refine ⟨?_, ?_⟩
        · rw [r1, hr0 hj2, b1]
          simp [spans, List.filter_append, List.filter_cons, hr0 hj2, hk1, hj1]
        · rw [r2, b2]
          simp [spans, List.filter_append, List.filter_cons, hk1, hj1]
    | false =>
      have hk2 : ¬ (lo ≤ k ∧ k < hi) := by simpa [During] using hk1
      simp only [Bool.false_eq_true, if_false]
      obtain ⟨b1, b2⟩ := h1 (k + 1) r (hk.imp (fun h => by omega) _root_.id)
      generalize play name time pid tid (recorded (During lo hi) (k + 1) body.emitted) r = r1 at b1 b2
      obtain ⟨o1, s1⟩ := r1
      simp only at b1 b2
      have hx : (if During lo hi (k + 1 + body.emitted.length) = true then play name time pid tid [⟨b, .exit id⟩] ⟨o1, s1⟩ else ⟨o1, s1⟩) = (⟨o1, s1⟩ : Row) := by
        split
        · rename_i hj1
          have hj2 : lo ≤ k + 1 + body.emitted.length ∧ k + 1 + body.emitted.length < hi := by simpa [During] using hj1
          have : r.opened = [] := hk.elim (fun h => by omega) _root_.id
          rw [hbo (by omega), this] at b1
          subst b1
          rfl
        · rfl
      rw [hx]
      obtain ⟨r1, r2⟩ := h2 (k + 2 + body.emitted.length) ⟨o1, s1⟩ (by
        by_cases hlj : lo ≤ k + 1 + body.emitted.length
        · exact .inl (by omega)
        · have : r.opened = [] := hk.elim (fun h => by omega) _root_.id
          rw [hbl (by omega), this] at b1
          exact .inr b1)
      refine ⟨?_, ?_⟩
      · rw [r1, b1]
        rcases hcase with h | h
        · simp [spans, List.filter_append, List.filter_cons, h, hk1]
        · simp [spans, List.filter_append, List.filter_cons, h, hk1]
      · rw [r2, b2]
        simp [spans, List.filter_append, List.filter_cons, hk1]
  | mark id t l rest ih =>
    intro k r h
    simp only [Prog.emitted, recorded_cons, play_mark, ite_self]
    exact ih _ r (h.imp (fun h => by omega) _root_.id)
  | count id t v rest ih =>
    intro k r h
    simp only [Prog.emitted, recorded_cons, play_count, ite_self]
    exact ih _ r (h.imp (fun h => by omega) _root_.id)

end

theorem forall₂_of_keys (names : TraceMap) (pid : Nat) : ∀ (l : List Section) (m : List Span), l.map skey = m.map (key (ScopeNames.getScopeName names pid) Double.ts) →
    List.Forall₂ (Is names pid) l m := by
  intro l
  induction l with
  | nil => intro m h; cases m with
    | nil => exact .nil
    | cons y m => simp at h
  | cons x l ih => intro m h; cases m with
    | nil => simp at h
    | cons y m =>
      simp only [List.map_cons, List.cons.injEq, skey, key, Prod.mk.injEq] at h
      exact .cons ⟨h.1.1, h.1.2.1, h.1.2.2⟩ (ih m h.2)

theorem forall₂_begun (names : TraceMap) (pid : Nat) (m : List Span) :
    List.Forall₂ (Begun names pid) (m.map fun x => (ScopeNames.getScopeName names pid x.id, Double.ts x.start)) m := by
  induction m with
  | nil => exact .nil
  | cons x m ih => exact .cons rfl ih

/-- **C152, partial: scopes that are not torn.** If every scope is entered and left with the switches in the same position, as with switches that are themselves scoped, exactly the scopes that were entered with
    tracing on are shown. Missing: other switches. -/
theorem whole_partial (p : Prog) (on : Nat → Bool) (hw : ∀ x ∈ spans 0 p, on x.entry = on x.exit) (hc : p.emitted.Pairwise fun a b => a.time ≤ b.time)
    (names : TraceMap) (batches : List (Nat × Threads)) (hv : Valid batches) (hn : ∀ r ∈ Spec.recorded batches, Spec.Known r.event) (pid tid : Nat)
    (hb : C150.eventsOf pid tid batches = (recorded on 0 p.emitted).map Moment.event) :
    ∃ res, finishInterval (some (.ok names)) (encoded batches) = .ok res ∧ Right names pid on p (look pid tid (res.map Entry.shape)) := by
  obtain ⟨res, h1, h2⟩ := C151.row_of_moments _ (hc.sublist (recorded_sublist on _ 0)) names batches hv hn pid tid hb
  refine ⟨res, h1, ?_⟩
  obtain ⟨g1, g2⟩ := play_whole (ScopeNames.getScopeName names pid) Double.ts pid tid on p 0 {} hw
  rw [h2]
  refine ⟨forall₂_of_keys names pid _ _ (by simpa [play] using g2), ?_⟩
  have e : (spans 0 p).filter (fun x => on x.entry && !on x.exit) = [] := List.filter_eq_nil_iff.2 fun x hx => by simp [hw x hx]
  rw [e]
  have : (((recorded on 0 p.emitted).map (C150.entryOf (ScopeNames.getScopeName names pid) Double.ts pid tid)).foldl Row.step {}).opened = [] := g1
  rw [this]
  exact .nil

/-- **C152, partial: tracing is on from one moment to another.** If tracing is switched on once and later off, at any moments, what is shown is right: the scopes that were entered and left in between, and as begun
    those that were entered in between and left later. This also says what is shown of a recording that begins and ends at any moments. Missing: tracing that is switched off and on again. -/
theorem once_partial (p : Prog) (on : Nat → Bool) (lo hi : Nat) (ho : ∀ i, on i = true ↔ lo ≤ i ∧ i < hi) (hc : p.emitted.Pairwise fun a b => a.time ≤ b.time)
    (names : TraceMap) (batches : List (Nat × Threads)) (hv : Valid batches) (hn : ∀ r ∈ Spec.recorded batches, Spec.Known r.event) (pid tid : Nat)
    (hb : C150.eventsOf pid tid batches = (recorded on 0 p.emitted).map Moment.event) :
    ∃ res, finishInterval (some (.ok names)) (encoded batches) = .ok res ∧ Right names pid on p (look pid tid (res.map Entry.shape)) := by
  have e : on = During lo hi := by
    funext i
    rw [Bool.eq_iff_iff, ho]
    simp [During]
  subst e
  obtain ⟨res, h1, h2⟩ := C151.row_of_moments _ (hc.sublist (recorded_sublist _ _ 0)) names batches hv hn pid tid hb
  refine ⟨res, h1, ?_⟩
  obtain ⟨g1, g2⟩ := play_during (ScopeNames.getScopeName names pid) Double.ts pid tid lo hi p 0 {} (.inr rfl)
  rw [h2]
  refine ⟨forall₂_of_keys names pid _ _ (by simpa [play] using g2), ?_⟩
  rw [List.append_nil] at g1
  unfold play at g1
  rw [g1]
  exact forall₂_begun names pid _

/-! ### Scoped switches -/

/-- The sections of a thread with scoped switches: those of the scopes that are entered where the innermost switch for the process around them, if any, is on, and so is the innermost one for the thread. `p` and
    `t` are the switches around the program, and `d` the number of shown scopes around it. -/
def shown (name : Nat → String) (time : Nat → ℚ) : Bool → Bool → Nat → Guarded → List Section
  | _, _, _, .done => []
  | true, true, d, .scope id start stop body rest => shown name time true true (d + 1) body ++ ⟨name id, time start, time stop, d⟩ :: shown name time true true d rest
  | p, t, d, .scope _ _ _ body rest => shown name time p t d body ++ shown name time p t d rest
  | p, t, d, .mark _ _ _ rest => shown name time p t d rest
  | p, t, d, .count _ _ _ rest => shown name time p t d rest
  | p, t, d, .switch true new body rest => shown name time new t d body ++ shown name time p t d rest
  | p, t, d, .switch false new body rest => shown name time p new d body ++ shown name time p t d rest

/-- The times at which the clock is read, with tracing on all the time. -/
def times : Guarded → List Nat
  | .done => []
  | .scope _ start stop body rest => start :: (times body ++ stop :: times rest)
  | .mark _ time _ rest => time :: times rest
  | .count _ time _ rest => time :: times rest
  | .switch _ _ body rest => times body ++ times rest

/-- The program without what is done with tracing off. -/
def kept : Bool → Bool → Guarded → Prog
  | _, _, .done => .done
  | true, true, .scope id start stop body rest => .scope id start stop (kept true true body) (kept true true rest)
  | p, t, .scope _ _ _ body rest => C151.append (kept p t body) (kept p t rest)
  | true, true, .mark id time level rest => .mark id time level (kept true true rest)
  | p, t, .mark _ _ _ rest => kept p t rest
  | true, true, .count id time value rest => .count id time value (kept true true rest)
  | p, t, .count _ _ _ rest => kept p t rest
  | p, t, .switch true new body rest => C151.append (kept new t body) (kept p t rest)
  | p, t, .switch false new body rest => C151.append (kept p new body) (kept p t rest)

/-- **C152: scoped switches are restored.** After a program with scoped switches both switches are as before, and what was recorded is what the rest of the program emits. -/
theorem run_kept (g : Guarded) : ∀ s : Switches, g.run s = ((kept s.process s.thread g).emitted, s) := by
  induction g with
  | done => intro s; rcases s with ⟨_ | _, _ | _⟩ <;> rfl
  | scope id a b body rest ih1 ih2 =>
    intro s
    rcases s with ⟨_ | _, _ | _⟩ <;> simp [Guarded.run, ih1, ih2, kept, Switches.point, Switches.on, Prog.emitted, C151.emitted_append]
  | mark id t l rest ih =>
    intro s
    rcases s with ⟨_ | _, _ | _⟩ <;> simp [Guarded.run, ih, kept, Switches.point, Switches.on, Prog.emitted]
  | count id t v rest ih =>
    intro s
    rcases s with ⟨_ | _, _ | _⟩ <;> simp [Guarded.run, ih, kept, Switches.point, Switches.on, Prog.emitted]
  | «switch» pr new body rest ih1 ih2 =>
    intro s
    rcases s with ⟨p, t⟩
    cases pr <;> cases p <;> cases t <;> simp [Guarded.run, ih1, ih2, kept, Switches.set, C151.emitted_append]

/-- After a program with scoped switches both switches are as before. -/
theorem switches_restored (g : Guarded) (s : Switches) : (g.run s).2 = s := by rw [run_kept]

theorem sections_append (name : Nat → String) (time : Nat → ℚ) (p q : Prog) : ∀ d, (C151.append p q).sections name time d = p.sections name time d ++ q.sections name time d := by
  induction p with
  | done => intro d; rfl
  | scope id a b body rest _ ih => intro d; simp [C151.append, Prog.sections, ih]
  | mark id t l rest ih => intro d; simp [C151.append, Prog.sections, ih]
  | count id t v rest ih => intro d; simp [C151.append, Prog.sections, ih]

theorem kept_sections (name : Nat → String) (time : Nat → ℚ) (g : Guarded) : ∀ p t d, (kept p t g).sections name time d = shown name time p t d g := by
  induction g with
  | done => intro p t d; cases p <;> cases t <;> rfl
  | scope id a b body rest ih1 ih2 => intro p t d; cases p <;> cases t <;> simp [kept, shown, Prog.sections, sections_append, ih1, ih2]
  | mark id x l rest ih => intro p t d; cases p <;> cases t <;> simp [kept, shown, Prog.sections, ih]
  | count id x v rest ih => intro p t d; cases p <;> cases t <;> simp [kept, shown, Prog.sections, ih]
  | «switch» pr new body rest ih1 ih2 => intro p t d; cases pr <;> cases p <;> cases t <;> simp [kept, shown, sections_append, ih1, ih2]

theorem kept_times (g : Guarded) : ∀ p t, List.Sublist ((kept p t g).emitted.map Moment.time) (times g) := by
  induction g with
  | done => intro p t; cases p <;> cases t <;> exact List.Sublist.refl _
  | scope id a b body rest ih1 ih2 =>
    intro p t
    have h : List.Sublist ((C151.append (kept p t body) (kept p t rest)).emitted.map Moment.time) (times (.scope id a b body rest)) := by
      rw [C151.emitted_append, List.map_append]
      exact ((ih1 p t).append ((ih2 p t).cons _)).cons _
    have h' : List.Sublist ((Prog.scope id a b (kept p t body) (kept p t rest)).emitted.map Moment.time) (times (.scope id a b body rest)) := by
      simp only [Prog.emitted, List.map_cons, List.map_append]
      exact ((ih1 p t).append ((ih2 p t).cons₂ _)).cons₂ _
    cases p <;> cases t <;> first | exact h | exact h'
  | mark id x l rest ih =>
    intro p t
    have h := (ih p t).cons x
    have h' := (ih p t).cons₂ x
    cases p <;> cases t <;> first | exact h | exact h'
  | count id x v rest ih =>
    intro p t
    have h := (ih p t).cons x
    have h' := (ih p t).cons₂ x
    cases p <;> cases t <;> first | exact h | exact h'
  | «switch» pr new body rest ih1 ih2 =>
    intro p t
    cases pr <;> cases p <;> cases t <;> simp only [kept, C151.emitted_append, List.map_append, times] <;> exact (ih1 _ _).append (ih2 _ _)

/-- **C152, partial: scoped switches.** If a thread switches tracing only by scoped switches, of the process or of itself and nested with its scopes in any way, exactly the scopes that it enters where tracing is on
    are shown, each as deep as it is nested in such scopes, and none as begun and not ended. Missing: switches by others meanwhile. -/
theorem scoped_partial (g : Guarded) (s : Switches) (hc : (times g).Pairwise (· ≤ ·))
    (names : TraceMap) (batches : List (Nat × Threads)) (hv : Valid batches) (hn : ∀ r ∈ Spec.recorded batches, Spec.Known r.event) (pid tid : Nat)
    (hb : C150.eventsOf pid tid batches = (g.run s).1.map Moment.event) :
    ∃ res, finishInterval (some (.ok names)) (encoded batches) = .ok res ∧
      look pid tid (res.map Entry.shape) = { sections := shown (ScopeNames.getScopeName names pid) Double.ts s.process s.thread 0 g, opened := [] } := by
  have h2 : ({ inside := kept s.process s.thread g } : History).emitted = (kept s.process s.thread g).emitted := by simp [History.emitted]
  obtain ⟨res, r1, r2⟩ := C150.native_partial names batches hv hn pid tid { inside := kept s.process s.thread g } (by rw [hb, run_kept, h2])
    (by unfold C150.Forward; rw [h2]; exact List.pairwise_map.1 (hc.sublist (kept_times g _ _)))
  refine ⟨res, r1, r2.trans ?_⟩
  simp [History.row, openedSections, kept_sections]

/-! ### Where it fails -/

/-- A thread that is in two scopes while its tracing is off: it does `a`, enters `o`, does `b`, enters `i`, does `c`; tracing is switched off; it does `c'`, leaves `i`, does `d'`; tracing is switched on; it does
    `d`, leaves `o` and does `e`. -/
def inside (a : Prog) (o : Nat × Nat × Nat) (b : Prog) (i : Nat × Nat × Nat) (c c' d' d e : Prog) : Prog := C151.nested a o b i (C151.append c c') (C151.append d' d) e

/-- The number of the first event with tracing off, and of the first one with tracing on again. -/
def offFrom (a b c : Prog) : Nat := a.emitted.length + b.emitted.length + c.emitted.length + 2
def offTo (a b c c' d' : Prog) : Nat := offFrom a b c + c'.emitted.length + d'.emitted.length + 1

theorem recorded_all (on : Nat → Bool) (l : List Moment) : ∀ k, (∀ i, k ≤ i → i < k + l.length → on i = true) → recorded on k l = l := by
  induction l with
  | nil => intro k _; rfl
  | cons m l ih =>
    intro k h
    simp only [recorded, h k (Nat.le_refl k) (by simp), if_true]
    rw [ih _ fun i h1 h2 => h i (by omega) (by simp only [List.length_cons]; omega)]

theorem recorded_off (on : Nat → Bool) (l : List Moment) : ∀ k, (∀ i, k ≤ i → i < k + l.length → on i = false) → recorded on k l = [] := by
  induction l with
  | nil => intro k _; rfl
  | cons m l ih =>
    intro k h
    simp only [recorded, h k (Nat.le_refl k) (by simp), Bool.false_eq_true, if_false]
    rw [ih _ fun i h1 h2 => h i (by omega) (by simp only [List.length_cons]; omega)]

/-- **C152 fails: tracing that is switched off and on again in the middle of scopes.** The inner scope is shown as if it had lasted to the end of the outer one, and the outer one as if it had not ended. -/
theorem off_and_on_shown (a : Prog) (o : Nat × Nat × Nat) (b : Prog) (i : Nat × Nat × Nat) (c c' d' d e : Prog)
    (hc : (inside a o b i c c' d' d e).emitted.Pairwise fun a b => a.time ≤ b.time) (on : Nat → Bool) (ho : ∀ n, on n = true ↔ n < offFrom a b c ∨ offTo a b c c' d' ≤ n)
    (names : TraceMap) (batches : List (Nat × Threads)) (hv : Valid batches) (hn : ∀ r ∈ Spec.recorded batches, Spec.Known r.event) (pid tid : Nat)
    (hb : C150.eventsOf pid tid batches = (recorded on 0 (inside a o b i c c' d' d e).emitted).map Moment.event) :
    ∃ res, finishInterval (some (.ok names)) (encoded batches) = .ok res ∧
      (look pid tid (res.map Entry.shape)).opened = [(ScopeNames.getScopeName names pid o.1, Double.ts o.2.1)] ∧
      ⟨ScopeNames.getScopeName names pid i.1, Double.ts i.2.1, Double.ts o.2.2, 1⟩ ∈ (look pid tid (res.map Entry.shape)).sections := by
  have hoff : ∀ n, on n = false ↔ offFrom a b c ≤ n ∧ n < offTo a b c c' d' := by
    intro n
    have := ho n
    rw [← Bool.not_eq_true, this]
    omega
  have e1 : (inside a o b i c c' d' d e).emitted =
      (a.emitted ++ ⟨o.2.1, .entry o.1⟩ :: (b.emitted ++ ⟨i.2.1, .entry i.1⟩ :: c.emitted)) ++ ((c'.emitted ++ ⟨i.2.2, .exit i.1⟩ :: d'.emitted) ++ (d.emitted ++ ⟨o.2.2, .exit o.1⟩ :: e.emitted)) := by
    rw [inside, C151.nested_emitted, C151.emitted_append, C151.emitted_append]
    simp
  have e2 : recorded on 0 (inside a o b i c c' d' d e).emitted =
      a.emitted ++ ⟨o.2.1, .entry o.1⟩ :: (b.emitted ++ ⟨i.2.1, .entry i.1⟩ :: (c.emitted ++ (d.emitted ++ ⟨o.2.2, .exit o.1⟩ :: e.emitted))) := by
    rw [e1, recorded_append on (a.emitted ++ _), recorded_append on (c'.emitted ++ _)]
    rw [recorded_all on (a.emitted ++ _), recorded_off on (c'.emitted ++ _), recorded_all on (d.emitted ++ _)]
    · simp
    · intro n h1 h2
      refine (ho n).2 (.inr ?_)
      simp only [offTo, offFrom, List.length_append, List.length_cons] at h1 h2 ⊢
      omega
    · intro n h1 h2
      refine (hoff n).2 ?_
      simp only [offTo, offFrom, List.length_append, List.length_cons] at h1 h2 ⊢
      omega
    · intro n h1 h2
      refine (ho n).2 (.inl ?_)
      simp only [offFrom, List.length_append, List.length_cons] at h1 h2 ⊢
      omega
  have hc' : (C151.nested a o b i c d e).emitted.Pairwise fun a b => a.time ≤ b.time := by
    refine hc.sublist ?_
    rw [e1, C151.nested_emitted]
    simp only [List.append_assoc, List.cons_append]
    refine (List.Sublist.refl _).append (((List.Sublist.refl _).append (((List.Sublist.refl _).append ?_).cons₂ _)).cons₂ _)
    refine List.Sublist.trans ?_ (List.sublist_append_right _ _)
    exact (List.sublist_append_right _ _).cons₂ _
  exact C151.lost_exit_shown a o b i c d e hc' names batches hv hn pid tid (by rw [hb, e2])

/-- **C152 does not hold.** -/
theorem not_AlwaysRight : ¬ AlwaysRight := by
  intro h
  let p := inside .done (1, 1000, 5000) .done (2, 1500, 2000) .done .done .done .done .done
  let on : Nat → Bool := fun n => decide (n < 2 ∨ 3 ≤ n)
  have hc : p.emitted.Pairwise fun a b => a.time ≤ b.time := by decide +kernel
  let bs : List (Nat × Threads) := [(1, [(1, [⟨1000, 1, 1, none⟩, ⟨1500, 2, 1, none⟩, ⟨5000, 1, 2, none⟩])])]
  have hv : Valid bs := by
    have g : ∀ b ∈ bs, b.1 < 2 ^ 31 ∧ (b.2.Pairwise fun x y => x.1 < y.1) ∧ (∀ x ∈ b.2, x.1 < 2 ^ 64) ∧ b.2.length < 2 ^ 64 ∧ (∀ x ∈ b.2, x.2.length < 2 ^ 64) ∧
        ∀ x ∈ b.2, ∀ e ∈ x.2, e.time < 2 ^ 64 ∧ e.id < 2 ^ 32 ∧ e.type < 2 ^ 8 ∧ e.data = none := by decide +kernel
    intro b hb
    obtain ⟨g1, g2, g3, g4, g5, g6⟩ := g b hb
    refine ⟨g1, ⟨g2, g3, g4, g5, fun x hx e he => ?_⟩⟩
    obtain ⟨k1, k2, k3, k4⟩ := g6 x hx e he
    exact ⟨k1, k2, k3, fun d hd => by rw [k4] at hd; cases hd⟩
  have hn : ∀ r ∈ Spec.recorded bs, Spec.Known r.event := by
    have g : ∀ r ∈ Spec.recorded bs, (Spec.phase r.event.type).isSome ∧ r.event.type ≠ 6 := by decide +kernel
    exact fun r hr => ⟨(g r hr).1, fun h => absurd h (g r hr).2⟩
  have hb : C150.eventsOf 1 1 bs = (recorded on 0 p.emitted).map Moment.event := by decide +kernel
  obtain ⟨res, r1, r2⟩ := h p on hc [] bs hv hn 1 1 hb
  obtain ⟨res', r3, r4, _⟩ := off_and_on_shown .done (1, 1000, 5000) .done (2, 1500, 2000) .done .done .done .done .done hc on
    (fun n => by simp [on, offFrom, offTo, Prog.emitted]) [] bs hv hn 1 1 hb
  rw [r1] at r3
  cases r3
  have h5 := r2.opened
  rw [r4] at h5
  have h6 : (spans 0 p).filter (fun x => on x.entry && !on x.exit) = [⟨2, 1500, 2000, 1, 2⟩] := by decide +kernel
  rw [h6] at h5
  cases h5 with
  | cons h7 _ =>
    have : Double.ts 1000 = Double.ts 1500 := congrArg Prod.snd h7
    exact absurd this (by decide +kernel)

/-! ### The hypotheses are met -/

/-- Three scopes. -/
def sample : Prog := .scope 1 10 90 (.scope 2 20 50 (.scope 3 30 40 .done .done) .done) .done

/-- The one in the middle is entered and left with tracing off. -/
example : (∀ x ∈ spans 0 sample, (fun i => decide (i ≠ 1 ∧ i ≠ 4)) x.entry = (fun i => decide (i ≠ 1 ∧ i ≠ 4)) x.exit) ∧ spans 0 sample = [⟨3, 30, 40, 2, 3⟩, ⟨2, 20, 50, 1, 4⟩, ⟨1, 10, 90, 0, 5⟩] := by
  decide +kernel

/-- Tracing is switched on in the outer scope and off in the one in the middle. -/
example : recorded (During 1 4) 0 sample.emitted = [⟨20, .entry 2⟩, ⟨30, .entry 3⟩, ⟨40, .exit 3⟩] ∧ sample.emitted.Pairwise (fun a b => a.time ≤ b.time) := by decide +kernel

/-- Tracing of the thread is off in the outer scope, and on again in the one in the middle. -/
example : ((Guarded.scope 1 10 90 (.switch false false (.scope 2 20 50 (.switch false true (.scope 3 30 40 .done .done) .done) .done) .done) .done).run {}) =
    ([⟨10, .entry 1⟩, ⟨30, .entry 3⟩, ⟨40, .exit 3⟩, ⟨90, .exit 1⟩], {}) := by decide +kernel

end Scalopus.C152
