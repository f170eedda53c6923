import Verif.Props.C101_LttngEndToEnd
import Verif.Spec.Sections

/-!
# C150: the sections that are shown of a thread are the scopes that it was in

All statements quantify over every program of traced scopes, marks and counters of a thread, every clock, every set of batches with events of other threads and
processes before, between and after, and every table of names.
-/

namespace Scalopus.C150

open Sections NativeSource Endpoints Cbor
open TraceState (Point)
open NativeSource.Spec (Shown Rec)

/-! ### Sorting -/

/-- Two lists that are both ordered by time and have the same entries in the same order at each time are equal. -/
theorem eq_of_sorted : ∀ (a b : List Shown), a.Pairwise (fun x y => x.ts ≤ y.ts) → b.Pairwise (fun x y => x.ts ≤ y.ts) →
    (∀ t, a.filter (fun x => x.ts = t) = b.filter fun x => x.ts = t) → a = b := by
  intro a
  induction a with
  | nil =>
    intro b _ _ h
    cases b with
    | nil => rfl
    | cons y b => have := h y.ts; simp at this
  | cons x a ih =>
    intro b ha hb h
    cases b with
    | nil => have := h x.ts; simp at this
    | cons y b =>
      have hxy : x.ts = y.ts := by
        apply le_antisymm
        · have hy : y ∈ (x :: a).filter fun z => z.ts = y.ts := by rw [h]; simp
          have := (List.mem_filter.1 hy).1
          rcases List.mem_cons.1 this with e | e
          · rw [e]
          · exact (List.pairwise_cons.1 ha).1 _ e
        · have hx : x ∈ (y :: b).filter fun z => z.ts = x.ts := by rw [← h]; simp
          have := (List.mem_filter.1 hx).1
          rcases List.mem_cons.1 this with e | e
          · rw [e]
          · exact (List.pairwise_cons.1 hb).1 _ e
      have e : x = y := by
        have := h x.ts
        rw [List.filter_cons_of_pos (by simp), List.filter_cons_of_pos (by simp [hxy])] at this
        exact (List.cons.inj this).1
      subst e
      congr 1
      apply ih b (List.pairwise_cons.1 ha).2 (List.pairwise_cons.1 hb).2
      intro t
      have := h t
      by_cases ht : x.ts = t
      · rw [List.filter_cons_of_pos (by simp [ht]), List.filter_cons_of_pos (by simp [ht])] at this
        exact (List.cons.inj this).2
      · rw [List.filter_cons_of_neg (by simp [ht]), List.filter_cons_of_neg (by simp [ht])] at this
        exact this

/-- The entries of a row come in the order in which they were recorded, if the clock did not go back. -/
theorem row_kept (res rec : List Shown) (q : Shown → Bool) (hs : res.Pairwise fun x y => x.ts ≤ y.ts)
    (hf : ∀ t, res.filter (fun x => x.ts = t) = rec.filter fun x => x.ts = t) (hq : (rec.filter q).Pairwise fun x y => x.ts ≤ y.ts) : res.filter q = rec.filter q := by
  apply eq_of_sorted _ _ (hs.sublist List.filter_sublist) hq
  intro t
  rw [List.filter_comm, hf, List.filter_comm]

/-! ### What the viewer makes of it -/

/-- The entry for an event of a thread. -/
def entryOf (name : Nat → String) (time : Nat → ℚ) (pid : Int) (tid : Nat) (m : Moment) : Shown :=
  { ts := time m.time, tid := tid, pid := pid, name := EndToEnd.shownAs m.point (name (EndToEnd.idOf m.point)), ph := (EndToEnd.phaseOf m.point).1, s := (EndToEnd.phaseOf m.point).2 }

theorem walk_prog (name : Nat → String) (time : Nat → ℚ) (pid : Int) (tid : Nat) (p : Prog) : ∀ o s,
    (p.emitted.map (entryOf name time pid tid)).foldl Row.step ⟨o, s⟩ = ⟨o, s ++ p.sections name time o.length⟩ := by
  induction p with
  | done => intro o s; simp [Prog.emitted, Prog.sections]
  | scope id start stop body rest h1 h2 =>
    intro o s
    simp only [Prog.emitted, List.map_cons, List.map_append, List.foldl_cons, List.foldl_append]
    have e1 : Row.step ⟨o, s⟩ (entryOf name time pid tid ⟨start, .entry id⟩) = ⟨(name id, time start) :: o, s⟩ := rfl
    rw [e1, h1]
    have e2 : ∀ l, Row.step ⟨(name id, time start) :: o, l⟩ (entryOf name time pid tid ⟨stop, .exit id⟩) = ⟨o, l ++ [⟨name id, time start, time stop, o.length⟩]⟩ := fun _ => rfl
    rw [e2, h2]
    simp [Prog.sections]
  | mark id t level rest h =>
    intro o s
    have e1 : Row.step ⟨o, s⟩ (entryOf name time pid tid ⟨t, .mark id level⟩) = ⟨o, s⟩ := by cases level <;> rfl
    simp only [Prog.emitted, List.map_cons, List.foldl_cons, e1, h, Prog.sections]
  | count id t v rest h =>
    intro o s
    have e1 : Row.step ⟨o, s⟩ (entryOf name time pid tid ⟨t, .count id v⟩) = ⟨o, s⟩ := rfl
    simp only [Prog.emitted, List.map_cons, List.foldl_cons, e1, h, Prog.sections]

theorem walk_left (name : Nat → String) (time : Nat → ℚ) (pid : Int) (tid : Nat) (l : List (Prog × Nat × Nat)) : ∀ s,
    ((l.flatMap fun x => x.1.emitted ++ [⟨x.2.2, .exit x.2.1⟩]).map (entryOf name time pid tid)).foldl Row.step ⟨[], s⟩ = ⟨[], s ++ l.flatMap fun x => x.1.sections name time 0⟩ := by
  induction l with
  | nil => intro s; simp
  | cons x l ih =>
    intro s
    simp only [List.flatMap_cons, List.map_append, List.foldl_append, walk_prog, List.map_cons, List.map_nil, List.foldl_cons, List.foldl_nil]
    have e2 : ∀ l, Row.step ⟨[], l⟩ (entryOf name time pid tid ⟨x.2.2, .exit x.2.1⟩) = ⟨[], l⟩ := fun _ => rfl
    rw [e2, ih]
    simp

theorem walk_opened (name : Nat → String) (time : Nat → ℚ) (pid : Int) (tid : Nat) (l : List ((Nat × Nat) × Prog)) : ∀ o s,
    ((l.flatMap fun x => (⟨x.1.2, .entry x.1.1⟩ : Moment) :: x.2.emitted).map (entryOf name time pid tid)).foldl Row.step ⟨o, s⟩ =
      ⟨(l.map fun x => (name x.1.1, time x.1.2)).reverse ++ o, s ++ openedSections name time o.length l⟩ := by
  induction l with
  | nil => intro o s; simp [openedSections]
  | cons x l ih =>
    intro o s
    simp only [List.flatMap_cons, List.map_append, List.foldl_append, List.map_cons, List.foldl_cons, List.cons_append]
    have e1 : Row.step ⟨o, s⟩ (entryOf name time pid tid ⟨x.1.2, .entry x.1.1⟩) = ⟨(name x.1.1, time x.1.2) :: o, s⟩ := rfl
    rw [e1, walk_prog, ih]
    obtain ⟨⟨_, _⟩, p⟩ := x
    simp [openedSections]

theorem walk_history (name : Nat → String) (time : Nat → ℚ) (pid : Int) (tid : Nat) (h : History) :
    (h.emitted.map (entryOf name time pid tid)).foldl Row.step {} = h.row name time := by
  unfold History.emitted
  rw [List.map_append, List.foldl_append, walk_left name time pid tid h.left, List.map_append, List.foldl_append, walk_prog name time pid tid h.inside,
    walk_opened name time pid tid h.opened]
  simp [History.row]

/-! ### The native backend -/

theorem shown_event (names : TraceMap) (pid tid : Nat) (m : Moment) :
    Spec.shown names ⟨pid, tid, m.event⟩ = entryOf (ScopeNames.getScopeName names pid) Double.ts pid tid m := by
  obtain ⟨t, p⟩ := m
  cases p with
  | entry id => rfl
  | exit id => rfl
  | mark id l => cases l <;> rfl
  | count id v =>
    show (⟨_, _, _, (ScopeNames.splitCounterSeriesName _).1, _, _⟩ : Shown) = _
    rw [EndToEnd.split_first]
    rfl

/-- The events of thread `tid` of process `pid` in these batches, in the order of recording. -/
def eventsOf (pid tid : Nat) (batches : List (Nat × Threads)) : List Event :=
  ((Spec.recorded batches).filter fun r => r.pid = pid ∧ r.tid = tid).map (·.event)

/-- The full claim: whatever times the clock gives, the row of every thread shows the scopes of the thread. -/
def AlwaysExact : Prop :=
  ∀ (names : TraceMap) (batches : List (Nat × Threads)), Valid batches → (∀ r ∈ Spec.recorded batches, Spec.Known r.event) →
    ∀ (pid tid : Nat) (h : History), eventsOf pid tid batches = h.emitted.map Moment.event →
      ∃ res, finishInterval (some (.ok names)) (encoded batches) = .ok res ∧ look pid tid (res.map Entry.shape) = h.row (ScopeNames.getScopeName names pid) Double.ts

/-- The clock does not go back between two events of the thread. -/
def Forward (h : History) : Prop := h.emitted.Pairwise fun a b => a.time ≤ b.time

theorem row_of (pid tid : Nat) (rec : List Rec) (names : TraceMap) :
    (rec.map (Spec.shown names)).filter (fun x => decide (x.pid = (pid : Int) ∧ x.tid = tid)) =
      (((rec.filter fun r => r.pid = pid ∧ r.tid = tid).map (·.event)).map fun e => Spec.shown names ⟨pid, tid, e⟩) := by
  induction rec with
  | nil => rfl
  | cons r rec ih =>
    obtain ⟨p, t, e⟩ := r
    by_cases h : p = pid ∧ t = tid
    · obtain ⟨rfl, rfl⟩ := h
      rw [List.map_cons, List.filter_cons_of_pos (by simp [Spec.shown]), List.filter_cons_of_pos (by simp), ih]
      rfl
    · rw [List.map_cons, List.filter_cons_of_neg (by simpa [Spec.shown] using h), List.filter_cons_of_neg (by simpa using h), ih]

theorem entries_of (pid tid : Nat) (batches : List (Nat × Threads)) (names : TraceMap) (h : History) (he : eventsOf pid tid batches = h.emitted.map Moment.event) :
    ((Spec.recorded batches).map (Spec.shown names)).filter (fun x => decide (x.pid = (pid : Int) ∧ x.tid = tid)) =
      h.emitted.map (entryOf (ScopeNames.getScopeName names pid) Double.ts pid tid) := by
  rw [row_of]
  unfold eventsOf at he
  rw [he, List.map_map]
  exact List.map_congr_left fun m _ => shown_event names pid tid m

/-- **C150, partial.** If the clock does not go back, the row of a thread shows exactly its scopes, each under its name, from its entry to its own exit, and as deep as it was nested: however the events are
    spread over batches and whatever other threads and processes do. Missing: clocks that are set back. -/
theorem native_partial (names : TraceMap) (batches : List (Nat × Threads)) (hv : Valid batches) (hk : ∀ r ∈ Spec.recorded batches, Spec.Known r.event)
    (pid tid : Nat) (h : History) (he : eventsOf pid tid batches = h.emitted.map Moment.event) (hf : Forward h) :
    ∃ res, finishInterval (some (.ok names)) (encoded batches) = .ok res ∧ look pid tid (res.map Entry.shape) = h.row (ScopeNames.getScopeName names pid) Double.ts := by
  obtain ⟨res, h1, _, h3, h4⟩ := C31.interval_exact names batches hv hk
  refine ⟨res, h1, ?_⟩
  unfold look
  rw [row_kept (res.map Entry.shape) ((Spec.recorded batches).map (Spec.shown names)) _ (List.pairwise_map.2 h3) h4, entries_of pid tid batches names h he, walk_history]
  rw [entries_of pid tid batches names h he]
  exact List.pairwise_map.2 (hf.imp fun hab => C64.timestamps_monotone _ _ hab)

/-! ### LTTng -/

/-- How LTTng's time is shown. -/
def lttngTime (ns : Nat) : ℚ := Double.nearest (Double.nearest (((ns / 10 ^ 9 : Nat) : ℚ) + ((ns % 10 ^ 9 : Nat) : ℚ) / 10 ^ 9) * 10 ^ 6)

/-- When and what this call was. -/
def momentOf (c : C101.Call) : Moment := ⟨c.secs * 10 ^ 9 + c.nanos, c.point⟩

theorem view_eq (names : TraceMap) (c : C101.Call) (hv : c.Valid) :
    C101.view names c = entryOf (ScopeNames.getScopeName names c.pid) lttngTime c.pid c.tid (momentOf c) := by
  have h1 : (c.secs * 10 ^ 9 + c.nanos) / 10 ^ 9 = c.secs := by have := hv.nanos; omega
  have h2 : (c.secs * 10 ^ 9 + c.nanos) % 10 ^ 9 = c.nanos := by have := hv.nanos; omega
  simp only [C101.view, entryOf, momentOf, lttngTime, h1, h2]

theorem lttngTime_mono (a b : Nat) (h : a ≤ b) : lttngTime a ≤ lttngTime b := by
  have e : ∀ n : Nat, (((n / 10 ^ 9 : Nat) : ℚ) + ((n % 10 ^ 9 : Nat) : ℚ) / 10 ^ 9) = (n : ℚ) / 10 ^ 9 := by
    intro n
    have : (n : ℚ) = ((10 ^ 9 * (n / 10 ^ 9) + n % 10 ^ 9 : Nat) : ℚ) := by rw [Nat.div_add_mod]
    rw [this]
    push_cast
    ring
  have n0 : Double.nearest 0 = 0 := by unfold Double.nearest; simp [Double.roundEven]
  unfold lttngTime
  rw [e, e]
  have hab : (a : ℚ) / 10 ^ 9 ≤ (b : ℚ) / 10 ^ 9 := div_le_div_of_nonneg_right (by exact_mod_cast h) (by norm_num)
  have ha : (0 : ℚ) ≤ (a : ℚ) / 10 ^ 9 := by positivity
  have hna : 0 ≤ Double.nearest ((a : ℚ) / 10 ^ 9) := by
    have := Double.nearest_mono (le_refl 0) ha
    rwa [n0] at this
  exact Double.nearest_mono (by positivity) (mul_le_mul_of_nonneg_right (Double.nearest_mono ha hab) (by norm_num))

/-- **C150, partial, LTTng.** The same holds for the LTTng backend, for calls that are printed in the order in which the thread made them. -/
theorem lttng_partial (names : TraceMap) (keyFirst : Bool) (l : List C101.Traffic) (hv : ∀ x ∈ l, x.Valid) (events : List Ctf.Event)
    (hp : List.Forall₂ (fun x e => ∃ t, C101.Traffic.text x = some t ∧ Ctf.parse keyFirst t = .ok e) l events) (pid tid : Nat) (h : History)
    (he : ((C101.callsOf l).filter fun c => c.pid = pid ∧ c.tid = tid).map momentOf = h.emitted) (hf : Forward h) :
    ∃ res, LttngSource.finishInterval (.ok names) events = .ok res ∧ look pid tid (res.map Entry.shape) = h.row (ScopeNames.getScopeName names pid) lttngTime := by
  obtain ⟨res, h1, _, h3, h4⟩ := C101.viewer_shows_calls names keyFirst l hv events hp
  have hcv : ∀ c ∈ C101.callsOf l, c.Valid := by
    intro c hc
    obtain ⟨x, hx, hxc⟩ := List.mem_filterMap.1 hc
    cases x with
    | call c' => cases hxc; exact hv _ hx
    | other _ => cases hxc
  have key : ((C101.callsOf l).map (C101.view names)).filter (fun x => decide (x.pid = (pid : Int) ∧ x.tid = tid)) =
      h.emitted.map (entryOf (ScopeNames.getScopeName names pid) lttngTime pid tid) := by
    rw [← he]
    generalize C101.callsOf l = cs at hcv
    induction cs with
    | nil => rfl
    | cons c cs ih =>
      have ih := ih (fun x hx => hcv x (by simp [hx]))
      have hvw := view_eq names c (hcv c (by simp))
      by_cases hc : c.pid = pid ∧ c.tid = tid
      · rw [List.map_cons, List.filter_cons_of_pos (by simpa [C101.view] using hc), List.filter_cons_of_pos (by simpa using hc), ih, hvw, hc.1, hc.2]
        rfl
      · rw [List.map_cons, List.filter_cons_of_neg (by simpa [C101.view] using hc), List.filter_cons_of_neg (by simpa using hc), ih]
  refine ⟨res, h1, ?_⟩
  unfold look
  rw [row_kept (res.map Entry.shape) ((C101.callsOf l).map (C101.view names)) _ (List.pairwise_map.2 h3) h4, key, walk_history]
  rw [key]
  exact List.pairwise_map.2 (hf.imp fun hab => lttngTime_mono _ _ hab)

/-! ### Where it fails -/

/-- Of entries in the order of time no section ends before it begins. -/
theorem forward_sections : ∀ (l : List Shown) (r : Row), l.Pairwise (fun x y => x.ts ≤ y.ts) → (∀ o ∈ r.opened, ∀ x ∈ l, o.2 ≤ x.ts) → (∀ s ∈ r.sections, s.start ≤ s.stop) →
    ∀ s ∈ (l.foldl Row.step r).sections, s.start ≤ s.stop := by
  intro l
  induction l with
  | nil => intro r _ _ h; exact h
  | cons x l ih =>
    intro r hp ho hs
    have hp := List.pairwise_cons.1 hp
    refine ih (r.step x) hp.2 ?_ ?_
    · intro o h y hy
      unfold Row.step at h
      split at h
      · rcases List.mem_cons.1 h with e | e
        · rw [e]; exact hp.1 y hy
        · exact ho o e y (by simp [hy])
      · split at h
        · split at h
          · exact ho o h y (by simp [hy])
          · rename_i n t rest e
            exact ho o (by rw [e]; exact List.mem_cons_of_mem _ h) y (by simp [hy])
        · exact ho o h y (by simp [hy])
    · intro s h
      unfold Row.step at h
      split at h
      · exact hs s h
      · split at h
        · split at h
          · exact hs s h
          · rename_i n t rest e
            rcases List.mem_append.1 h with h | h
            · exact hs s h
            · have := List.mem_singleton.1 h
              subst this
              exact ho (n, t) (by rw [e]; simp) x (by simp)
        · exact hs s h

/-- **C150 fails: clocks that are set back.** Whatever was recorded, no section that is shown ends before it begins. So a scope at whose exit the clock showed less than at its entry is shown nowhere
    as what it was, and the row of its thread is wrong. -/
theorem set_back_lost (names : TraceMap) (batches : List (Nat × Threads)) (hv : Valid batches) (hk : ∀ r ∈ Spec.recorded batches, Spec.Known r.event) (res : List Entry)
    (hr : finishInterval (some (.ok names)) (encoded batches) = .ok res) (pid tid : Nat) :
    (∀ s ∈ (look pid tid (res.map Entry.shape)).sections, s.start ≤ s.stop) ∧
    ∀ h : History, (∃ s ∈ (h.row (ScopeNames.getScopeName names pid) Double.ts).sections, s.stop < s.start) →
      look pid tid (res.map Entry.shape) ≠ h.row (ScopeNames.getScopeName names pid) Double.ts := by
  obtain ⟨res', h1, _, h3, _⟩ := C31.interval_exact names batches hv hk
  rw [hr] at h1
  cases h1
  have a : ∀ s ∈ (look pid tid (res.map Entry.shape)).sections, s.start ≤ s.stop :=
    forward_sections _ {} (List.Pairwise.sublist List.filter_sublist (List.pairwise_map.2 h3)) (by simp) (by simp)
  refine ⟨a, fun h ⟨s, hs, hlt⟩ e => ?_⟩
  rw [← e] at hs
  exact absurd (a s hs) (not_le.2 hlt)

/-- **C150 fails, what is shown instead.** A thread with one scope at whose exit the clock shows less than at its entry: the exit is shown first and ends nothing, and the scope seems to go on to the end of the
    recording. -/
theorem set_back_shown (names : TraceMap) (pid tid id start stop : Nat) (hp : pid < 2 ^ 31) (ht : tid < 2 ^ 64) (hi : id < 2 ^ 32) (hs : start < 2 ^ 64)
    (hb : Double.ts stop < Double.ts start) :
    ∃ res, finishInterval (some (.ok names)) (encoded [(pid, [(tid, (Prog.scope id start stop .done .done).emitted.map Moment.event)])]) = .ok res ∧
      look pid tid (res.map Entry.shape) = { opened := [(ScopeNames.getScopeName names pid id, Double.ts start)], sections := [] } := by
  have hlt : stop < start := by
    by_contra h
    exact absurd (C64.timestamps_monotone _ _ (Nat.le_of_not_lt h)) (not_le.2 hb)
  have e : eventsOf pid tid [(pid, [(tid, (Prog.scope id start stop .done .done).emitted.map Moment.event)])] = ([⟨start, .entry id⟩, ⟨stop, .exit id⟩] : List Moment).map Moment.event := by
    simp [eventsOf, Spec.recorded, Prog.emitted]
  obtain ⟨res, h1, _, h3, h4⟩ := C31.interval_exact names [(pid, [(tid, (Prog.scope id start stop .done .done).emitted.map Moment.event)])] (by
    intro b hb
    have := List.mem_singleton.1 hb
    subst this
    refine ⟨hp, ⟨by simp, by simpa using ht, by simp, by simp [Prog.emitted], ?_⟩⟩
    intro x hx e he
    have := List.mem_singleton.1 hx
    subst this
    simp only [Prog.emitted, List.map_cons, List.map_nil, List.nil_append, List.mem_cons, List.not_mem_nil, or_false] at he
    rcases he with rfl | rfl
    · exact ⟨hs, hi, (by show (1 : Nat) < 2 ^ 8; decide), fun d hd => by cases hd⟩
    · exact ⟨hlt.trans hs, hi, (by show (2 : Nat) < 2 ^ 8; decide), fun d hd => by cases hd⟩) (by
    intro r hr
    simp only [Spec.recorded, Prog.emitted, List.flatMap_cons, List.flatMap_nil, List.map_cons, List.map_nil, List.append_nil, List.nil_append, List.mem_cons, List.not_mem_nil, or_false] at hr
    rcases hr with rfl | rfl <;> exact ⟨rfl, fun h => by cases h⟩)
  refine ⟨res, h1, ?_⟩
  have hh := entries_of pid tid _ names ⟨[], .scope id start stop .done .done, []⟩ (by rw [e]; rfl)
  have hq : (Spec.recorded [(pid, [(tid, (Prog.scope id start stop .done .done).emitted.map Moment.event)])]).map (Spec.shown names) =
      [entryOf (ScopeNames.getScopeName names pid) Double.ts pid tid ⟨start, .entry id⟩, entryOf (ScopeNames.getScopeName names pid) Double.ts pid tid ⟨stop, .exit id⟩] := by
    rw [← shown_event, ← shown_event]
    rfl
  have : res.map Entry.shape =
      [entryOf (ScopeNames.getScopeName names pid) Double.ts pid tid ⟨stop, .exit id⟩, entryOf (ScopeNames.getScopeName names pid) Double.ts pid tid ⟨start, .entry id⟩] := by
    apply eq_of_sorted _ _ (List.pairwise_map.2 h3)
    · simp [entryOf, hb.le]
    · intro t
      rw [h4, hq]
      by_cases h5 : Double.ts start = t
      · have : Double.ts stop ≠ t := by rw [← h5]; exact hb.ne
        simp [List.filter_cons, entryOf, h5, this]
      · simp [List.filter_cons, entryOf, h5]
  unfold look
  rw [this]
  simp [entryOf, EndToEnd.phaseOf, EndToEnd.shownAs, EndToEnd.idOf, Row.step]

/-- **C150 does not hold** for every clock. -/
theorem not_AlwaysExact : ¬ AlwaysExact := by
  intro h
  obtain ⟨res, h1, h2⟩ := set_back_shown [] 1 1 7 5000 2000 (by decide) (by decide) (by decide) (by decide) (by decide +kernel)
  obtain ⟨res', h3, h4⟩ := h [] [(1, [(1, (Prog.scope 7 5000 2000 .done .done).emitted.map Moment.event)])]
    (by
      intro b hb
      have := List.mem_singleton.1 hb
      subst this
      refine ⟨by decide, ⟨by simp, by simp, by simp, by simp [Prog.emitted], ?_⟩⟩
      intro x hx e he
      have := List.mem_singleton.1 hx
      subst this
      simp only [Prog.emitted, List.map_cons, List.map_nil, List.nil_append, List.mem_cons, List.not_mem_nil, or_false] at he
      rcases he with rfl | rfl <;> exact ⟨by decide, by decide, by decide, fun d hd => by cases hd⟩)
    (by
      intro r hr
      simp only [Spec.recorded, Prog.emitted, List.flatMap_cons, List.flatMap_nil, List.map_cons, List.map_nil, List.append_nil, List.nil_append, List.mem_cons, List.not_mem_nil, or_false] at hr
      rcases hr with rfl | rfl <;> exact ⟨rfl, fun h => by cases h⟩)
    1 1 ⟨[], .scope 7 5000 2000 .done .done, []⟩ (by decide +kernel)
  rw [h1] at h3
  cases h3
  rw [h2] at h4
  have := congrArg Row.sections h4
  simp [History.row, Prog.sections, openedSections] at this

/-! ### The hypotheses are met -/

/-- A scope in a scope, with a mark, and a scope that is left after the recording; the thread leaves another one first. -/
def sample : History where
  left := [(.done, 3, 1000)]
  inside := .scope 7 2000 9000 (.mark 5 2500 .thread (.scope 8 3000 3000 .done .done)) .done
  opened := [((9, 9500), .scope 8 9600 9700 .done .done)]

/-- Its events in two batches, with events of another thread and another process. -/
def sampleBatches : List (Nat × Threads) :=
  [(1, [(4, (sample.emitted.take 3).map Moment.event), (6, [⟨2100, 8, 1, none⟩])]), (2, [(4, [⟨2600, 7, 2, none⟩])]), (1, [(4, (sample.emitted.drop 3).map Moment.event)])]

example : eventsOf 1 4 sampleBatches = sample.emitted.map Moment.event ∧ sample.emitted.Pairwise (fun a b => a.time ≤ b.time) ∧
    (sample.row (fun _ => "f") Double.ts).sections.map (·.depth) = [1, 0, 1] ∧ (sample.row (fun _ => "f") Double.ts).opened.length = 1 := by decide +kernel

example : Valid sampleBatches ∧ ∀ r ∈ Spec.recorded sampleBatches, Spec.Known r.event := by
  have h1 : ∀ b ∈ sampleBatches, b.1 < 2 ^ 31 ∧ (b.2.Pairwise fun x y => x.1 < y.1) ∧ (∀ x ∈ b.2, x.1 < 2 ^ 64) ∧ b.2.length < 2 ^ 64 ∧ (∀ x ∈ b.2, x.2.length < 2 ^ 64) ∧
      ∀ x ∈ b.2, ∀ e ∈ x.2, e.time < 2 ^ 64 ∧ e.id < 2 ^ 32 ∧ e.type < 2 ^ 8 ∧ e.data = none := by decide +kernel
  have h2 : ∀ r ∈ Spec.recorded sampleBatches, (Spec.phase r.event.type).isSome ∧ r.event.type ≠ 6 := by decide +kernel
  refine ⟨fun b hb => ?_, fun r hr => ⟨(h2 r hr).1, fun h => absurd h (h2 r hr).2⟩⟩
  obtain ⟨g1, g2, g3, g4, g5, g6⟩ := h1 b hb
  refine ⟨g1, ⟨g2, g3, g4, g5, fun x hx e he => ?_⟩⟩
  obtain ⟨k1, k2, k3, k4⟩ := g6 x hx e he
  exact ⟨k1, k2, k3, fun d hd => by rw [k4] at hd; cases hd⟩

/-- The calls of a thread in the sample of C101. -/
example : ((C101.callsOf C101.sample).filter fun c => c.pid = 11 ∧ c.tid = 21).map momentOf = ({ inside := .scope 7 100000000005 100000000008 .done .done } : History).emitted ∧
    ({ inside := .scope 7 100000000005 100000000008 .done .done } : History).emitted.Pairwise (fun a b => a.time ≤ b.time) := by decide +kernel

/-- A scope that is entered and left after the clock was set back can be drawn inside of one that was over by then. -/
example : (look 1 1 [⟨10, 1, 1, "a", "B", none⟩, ⟨12, 1, 1, "b", "B", none⟩, ⟨14, 1, 1, "b", "E", none⟩, ⟨20, 1, 1, "a", "E", none⟩]).sections.map (·.depth) = [1, 0] := by decide +kernel

end Scalopus.C150
