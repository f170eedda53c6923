import Verif.Model.Overrun
import Verif.Props.C150_Sections

/-!
# C151: what is shown of a thread whose buffer was full

All statements quantify over every program of scopes, marks and counters of a thread, every buffer size, every interleaving with the sender, and every set of batches with
the events of other threads and processes.
-/

namespace Scalopus.C151

open Sections Overrun NativeSource Endpoints Cbor

/-- What the thread emits in `as`. -/
def emits : List Act → List Moment
  | [] => []
  | .emit m _ :: as => m :: emits as
  | .take :: as => emits as

/-- How many elements the sender takes out in `as`. -/
def takes : List Act → Nat
  | [] => 0
  | .emit _ _ :: as => takes as
  | .take :: as => takes as + 1

/-- A scope that the program was in: its number and the times of its entry and its exit. -/
def scopes : Prog → List (Nat × Nat × Nat)
  | .done => []
  | .scope id start stop body rest => scopes body ++ (id, start, stop) :: scopes rest
  | .mark _ _ _ rest => scopes rest
  | .count _ _ _ rest => scopes rest

/-- Section `s` is this scope. -/
def Is (names : TraceMap) (pid : Nat) (s : Section) (x : Nat × Nat × Nat) : Prop :=
  s.name = ScopeNames.getScopeName names pid x.1 ∧ s.start = Double.ts x.2.1 ∧ s.stop = Double.ts x.2.2

/-- The full claim: if the thread's clock does not go back, every section that is shown of the thread is one of its scopes, also if events were lost because the buffer was full. -/
def NoFalseSections : Prop :=
  ∀ (size : Nat) (p : Prog) (as : List Act) (s : State), 2 < size → emits as = p.emitted → p.emitted.Pairwise (fun a b => a.time ≤ b.time) → run size {} as = some s → s.queue = [] →
    ∀ (names : TraceMap) (batches : List (Nat × Threads)), Valid batches → (∀ r ∈ Spec.recorded batches, Spec.Known r.event) →
    ∀ (pid tid : Nat), C150.eventsOf pid tid batches = s.taken.map Moment.event →
      ∃ res, finishInterval (some (.ok names)) (encoded batches) = .ok res ∧ ∀ x ∈ (look pid tid (res.map Entry.shape)).sections, ∃ y ∈ scopes p, Is names pid x y

/-! ### The buffer -/

theorem run_append (size : Nat) (as bs : List Act) : ∀ s, run size s (as ++ bs) = (run size s as).bind fun s' => run size s' bs := by
  induction as with
  | nil => intro s; rfl
  | cons a as ih =>
    intro s
    simp only [List.cons_append, run]
    cases step size s a with
    | none => rfl
    | some s' => exact ih s'

/-- **C151, what is lost.** What is recorded is a part of what was emitted, in the same order. -/
theorem recorded_sublist (size : Nat) (as : List Act) : ∀ (s s' : State), run size s as = some s' → List.Sublist (s'.taken ++ s'.queue) (s.taken ++ s.queue ++ emits as) := by
  induction as with
  | nil => intro s s' h; cases h; simp [emits]
  | cons a as ih =>
    intro s s' h
    simp only [run] at h
    cases e : step size s a with
    | none => rw [e] at h; cases h
    | some s1 =>
      rw [e] at h
      have := ih s1 s' h
      cases a with
      | emit m lag =>
        simp only [step] at e
        split at e
        · cases e
        · split at e
          · cases e
            simpa [emits] using this
          · cases e
            refine this.trans ?_
            simp only [emits]
            exact (List.Sublist.refl _).append (List.sublist_cons_self _ _)
      | take =>
        simp only [step] at e
        split at e
        · cases e
        · rename_i m q hq
          cases e
          simp only [emits]
          rw [hq]
          simpa using this

/-- At no moment do as many events wait as the buffer can hold, counting those that the thread does not know to be taken out. -/
def Keeps (size : Nat) (as : List Act) : Prop :=
  ∀ xs m lag ys, as = xs ++ .emit m lag :: ys → (emits xs).length + lag + 1 < size + takes xs

/-- Nothing is lost if the sender keeps up. -/
theorem all_recorded (size : Nat) (as : List Act) (s : State) (h : run size {} as = some s) (hk : Keeps size as) :
    s.taken ++ s.queue = emits as ∧ s.taken.length = takes as := by
  induction as using List.reverseRecOn generalizing s with
  | nil => cases h; exact ⟨rfl, rfl⟩
  | append_singleton as a ih =>
    rw [run_append] at h
    cases e : run size {} as with
    | none => rw [e] at h; cases h
    | some s1 =>
      rw [e] at h
      have hk1 : Keeps size as := by
        intro xs m lag ys hx
        exact hk xs m lag (ys ++ [a]) (by rw [hx]; simp)
      obtain ⟨i1, i2⟩ := ih s1 e hk1
      have ea : ∀ l m lag, emits (l ++ [.emit m lag]) = emits l ++ [m] ∧ takes (l ++ [.emit m lag]) = takes l := by
        intro l m lag
        induction l with
        | nil => exact ⟨rfl, rfl⟩
        | cons b l ih => cases b <;> simp [emits, takes, ih]
      have et : ∀ l, emits (l ++ [.take]) = emits l ∧ takes (l ++ [.take]) = takes l + 1 := by
        intro l
        induction l with
        | nil => exact ⟨rfl, rfl⟩
        | cons b l ih => cases b <;> simp [emits, takes, ih]
      simp only [Option.bind_some, run] at h
      cases e2 : step size s1 a with
      | none => rw [e2] at h; cases h
      | some s2 =>
        rw [e2] at h
        cases h
        cases a with
        | emit m lag =>
          have := hk as m lag [] rfl
          have hl : s1.queue.length + takes as = (emits as).length := by rw [← i1, ← i2]; simp; omega
          simp only [step] at e2
          split at e2
          · cases e2
          · rw [if_pos (by omega)] at e2
            cases e2
            rw [(ea _ _ _).1, (ea _ _ _).2, ← i1]
            exact ⟨by simp, i2⟩
        | take =>
          simp only [step] at e2
          split at e2
          · cases e2
          · rename_i m q hq
            cases e2
            rw [(et _).1, (et _).2, ← i1, hq]
            exact ⟨by simp, by simp [i2]⟩

/-- **C151, partial: a sender that keeps up.** If at every moment fewer events wait than the buffer holds, every scope of the thread is shown, and exactly as it was. -/
theorem kept_up_partial (size : Nat) (p : Prog) (as : List Act) (s : State) (he : emits as = p.emitted) (hc : p.emitted.Pairwise fun a b => a.time ≤ b.time) (hr : run size {} as = some s)
    (hq : s.queue = []) (hk : Keeps size as) (names : TraceMap) (batches : List (Nat × Threads)) (hv : Valid batches) (hn : ∀ r ∈ Spec.recorded batches, Spec.Known r.event) (pid tid : Nat)
    (hb : C150.eventsOf pid tid batches = s.taken.map Moment.event) :
    ∃ res, finishInterval (some (.ok names)) (encoded batches) = .ok res ∧
      look pid tid (res.map Entry.shape) = ({ inside := p } : History).row (ScopeNames.getScopeName names pid) Double.ts := by
  have h1 := (all_recorded size as s hr hk).1
  rw [hq, List.append_nil, he] at h1
  have h2 : ({ inside := p } : History).emitted = p.emitted := by simp [History.emitted]
  exact C150.native_partial names batches hv hn pid tid { inside := p } (by rw [hb, h1, h2]) (by unfold C150.Forward; rw [h2]; exact hc)

/-! ### Scopes that are lost as a whole -/

def append : Prog → Prog → Prog
  | .done, q => q
  | .scope id start stop body rest, q => .scope id start stop body (append rest q)
  | .mark id t l rest, q => .mark id t l (append rest q)
  | .count id t v rest, q => .count id t v (append rest q)

/-- `q` is `p` without some of its marks and counters and without entry and exit of some of its scopes. -/
inductive Thinned : Prog → Prog → Prop
  | done : Thinned .done .done
  | scope {b b' r r'} (id start stop : Nat) : Thinned b b' → Thinned r r' → Thinned (.scope id start stop b r) (.scope id start stop b' r')
  | lost {b b' r r'} (id start stop : Nat) : Thinned b b' → Thinned r r' → Thinned (.scope id start stop b r) (append b' r')
  | mark {r r'} (id t : Nat) (l : TraceState.Level) : Thinned r r' → Thinned (.mark id t l r) (.mark id t l r')
  | lostMark {r r'} (id t : Nat) (l : TraceState.Level) : Thinned r r' → Thinned (.mark id t l r) r'
  | count {r r'} (id t : Nat) (v : Int) : Thinned r r' → Thinned (.count id t v r) (.count id t v r')
  | lostCount {r r'} (id t : Nat) (v : Int) : Thinned r r' → Thinned (.count id t v r) r'

theorem scopes_append (p q : Prog) : scopes (append p q) = scopes p ++ scopes q := by
  induction p with
  | done => rfl
  | scope id a b body rest _ ih => simp [append, scopes, ih]
  | mark id t l rest ih => simp [append, scopes, ih]
  | count id t v rest ih => simp [append, scopes, ih]

theorem emitted_append (p q : Prog) : (append p q).emitted = p.emitted ++ q.emitted := by
  induction p with
  | done => rfl
  | scope id a b body rest _ ih => simp [append, Prog.emitted, ih]
  | mark id t l rest ih => simp [append, Prog.emitted, ih]
  | count id t v rest ih => simp [append, Prog.emitted, ih]

theorem thinned_scopes {p q : Prog} (h : Thinned p q) : List.Sublist (scopes q) (scopes p) := by
  induction h with
  | done => exact List.Sublist.refl _
  | scope id a b _ _ h1 h2 => exact h1.append (h2.cons₂ _)
  | lost id a b _ _ h1 h2 => rw [scopes_append]; exact h1.append (h2.cons _)
  | mark id t l _ h => exact h
  | lostMark id t l _ h => exact h
  | count id t v _ h => exact h
  | lostCount id t v _ h => exact h

theorem thinned_emitted {p q : Prog} (h : Thinned p q) : List.Sublist q.emitted p.emitted := by
  induction h with
  | done => exact List.Sublist.refl _
  | scope id a b _ _ h1 h2 => exact (h1.append (h2.cons₂ _)).cons₂ _
  | lost id a b _ _ h1 h2 => rw [emitted_append]; exact (h1.append (h2.cons _)).cons _
  | mark id t l _ h => exact h.cons₂ _
  | lostMark id t l _ h => exact h.cons _
  | count id t v _ h => exact h.cons₂ _
  | lostCount id t v _ h => exact h.cons _

theorem sections_are_scopes (name : Nat → String) (time : Nat → ℚ) (p : Prog) : ∀ d,
    (p.sections name time d).map (fun s => (s.name, s.start, s.stop)) = (scopes p).map fun x => (name x.1, time x.2.1, time x.2.2) := by
  induction p with
  | done => intro d; rfl
  | scope id a b body rest h1 h2 => intro d; simp [Prog.sections, scopes, h1, h2]
  | mark id t l rest ih => intro d; simpa [Prog.sections, scopes] using ih d
  | count id t v rest ih => intro d; simpa [Prog.sections, scopes] using ih d

/-- **C151, partial: scopes that are lost as a whole.** If of every scope both the entry and the exit were recorded or none of them, what is shown is the scopes that were recorded, with their names and times and in
    the order in which they ended, and no section is begun and not ended. Missing: a scope of which one of the two was lost. -/
theorem whole_lost_partial (p q : Prog) (ht : Thinned p q) (hc : p.emitted.Pairwise fun a b => a.time ≤ b.time) (names : TraceMap) (batches : List (Nat × Threads)) (hv : Valid batches)
    (hn : ∀ r ∈ Spec.recorded batches, Spec.Known r.event) (pid tid : Nat) (hb : C150.eventsOf pid tid batches = q.emitted.map Moment.event) :
    ∃ res, finishInterval (some (.ok names)) (encoded batches) = .ok res ∧ (look pid tid (res.map Entry.shape)).opened = [] ∧
      List.Forall₂ (Is names pid) (look pid tid (res.map Entry.shape)).sections (scopes q) ∧ List.Sublist (scopes q) (scopes p) := by
  have h2 : ({ inside := q } : History).emitted = q.emitted := by simp [History.emitted]
  obtain ⟨res, h1, h3⟩ := C150.native_partial names batches hv hn pid tid { inside := q } (by rw [hb, h2])
    (by unfold C150.Forward; rw [h2]; exact hc.sublist (thinned_emitted ht))
  refine ⟨res, h1, by rw [h3]; rfl, ?_, thinned_scopes ht⟩
  rw [h3]
  have h4 : (({ inside := q } : History).row (ScopeNames.getScopeName names pid) Double.ts).sections = q.sections (ScopeNames.getScopeName names pid) Double.ts 0 := by
    simp [History.row, openedSections]
  rw [h4]
  have h5 := sections_are_scopes (ScopeNames.getScopeName names pid) Double.ts q 0
  generalize q.sections (ScopeNames.getScopeName names pid) Double.ts 0 = l at h5
  generalize scopes q = m at h5
  induction l generalizing m with
  | nil => cases m with
    | nil => exact .nil
    | cons y m => simp at h5
  | cons x l ih => cases m with
    | nil => simp at h5
    | cons y m =>
      simp only [List.map_cons, List.cons.injEq, Prod.mk.injEq] at h5
      exact .cons ⟨h5.1.1, h5.1.2.1, h5.1.2.2⟩ (ih m h5.2)

/-! ### Where it fails -/

/-- A thread does `a`, enters a scope `o`, does `b`, enters a scope `i`, does `c`, leaves `i`, does `d`, leaves `o` and does `e`. -/
def nested (a : Prog) (o : Nat × Nat × Nat) (b : Prog) (i : Nat × Nat × Nat) (c d e : Prog) : Prog :=
  append a (.scope o.1 o.2.1 o.2.2 (append b (.scope i.1 i.2.1 i.2.2 c d)) e)

/-- What is shown of a thread whose events are these, in this order. -/
theorem row_of_moments (l : List Moment) (hc : l.Pairwise fun a b => a.time ≤ b.time) (names : TraceMap) (batches : List (Nat × Threads)) (hv : Valid batches)
    (hn : ∀ r ∈ Spec.recorded batches, Spec.Known r.event) (pid tid : Nat) (hb : C150.eventsOf pid tid batches = l.map Moment.event) :
    ∃ res, finishInterval (some (.ok names)) (encoded batches) = .ok res ∧
      look pid tid (res.map Entry.shape) = (l.map (C150.entryOf (ScopeNames.getScopeName names pid) Double.ts pid tid)).foldl Row.step {} := by
  obtain ⟨res, h1, _, h3, h4⟩ := C31.interval_exact names batches hv hn
  have he : ((Spec.recorded batches).map (Spec.shown names)).filter (fun x => decide (x.pid = (pid : Int) ∧ x.tid = tid)) =
      l.map (C150.entryOf (ScopeNames.getScopeName names pid) Double.ts pid tid) := by
    rw [C150.row_of]
    unfold C150.eventsOf at hb
    rw [hb, List.map_map]
    exact List.map_congr_left fun m _ => C150.shown_event names pid tid m
  refine ⟨res, h1, ?_⟩
  unfold look
  rw [C150.row_kept (res.map Entry.shape) ((Spec.recorded batches).map (Spec.shown names)) _ (List.pairwise_map.2 h3) h4, he]
  rw [he]
  exact List.pairwise_map.2 (hc.imp fun hab => C64.timestamps_monotone _ _ hab)

theorem step_entry (name : Nat → String) (time : Nat → ℚ) (pid : Int) (tid id t : Nat) (o : List (String × ℚ)) (s : List Section) :
    Row.step ⟨o, s⟩ (C150.entryOf name time pid tid ⟨t, .entry id⟩) = ⟨(name id, time t) :: o, s⟩ := rfl

theorem step_exit (name : Nat → String) (time : Nat → ℚ) (pid : Int) (tid id t : Nat) (n : String) (u : ℚ) (o : List (String × ℚ)) (s : List Section) :
    Row.step ⟨(n, u) :: o, s⟩ (C150.entryOf name time pid tid ⟨t, .exit id⟩) = ⟨o, s ++ [⟨n, u, time t, o.length⟩]⟩ := rfl

theorem step_exit_none (name : Nat → String) (time : Nat → ℚ) (pid : Int) (tid id t : Nat) (s : List Section) :
    Row.step ⟨[], s⟩ (C150.entryOf name time pid tid ⟨t, .exit id⟩) = ⟨[], s⟩ := rfl

theorem nested_emitted (a : Prog) (o : Nat × Nat × Nat) (b : Prog) (i : Nat × Nat × Nat) (c d e : Prog) : (nested a o b i c d e).emitted =
    a.emitted ++ ⟨o.2.1, .entry o.1⟩ :: (b.emitted ++ ⟨i.2.1, .entry i.1⟩ :: (c.emitted ++ ⟨i.2.2, .exit i.1⟩ :: (d.emitted ++ ⟨o.2.2, .exit o.1⟩ :: e.emitted))) := by
  simp [nested, emitted_append, Prog.emitted]

/-- **C151 fails: a lost exit.** If the exit of a scope is lost and that of the scope around it is not, the inner scope is shown as if it had lasted to the end of the outer one, and the outer one as if it had not
    ended; what comes later is shown inside of it. -/
theorem lost_exit_shown (a : Prog) (o : Nat × Nat × Nat) (b : Prog) (i : Nat × Nat × Nat) (c d e : Prog) (hc : (nested a o b i c d e).emitted.Pairwise fun a b => a.time ≤ b.time)
    (names : TraceMap) (batches : List (Nat × Threads)) (hv : Valid batches) (hn : ∀ r ∈ Spec.recorded batches, Spec.Known r.event) (pid tid : Nat)
    (hb : C150.eventsOf pid tid batches =
      (a.emitted ++ ⟨o.2.1, .entry o.1⟩ :: (b.emitted ++ ⟨i.2.1, .entry i.1⟩ :: (c.emitted ++ (d.emitted ++ ⟨o.2.2, .exit o.1⟩ :: e.emitted)))).map Moment.event) :
    ∃ res, finishInterval (some (.ok names)) (encoded batches) = .ok res ∧
      (look pid tid (res.map Entry.shape)).opened = [(ScopeNames.getScopeName names pid o.1, Double.ts o.2.1)] ∧
      ⟨ScopeNames.getScopeName names pid i.1, Double.ts i.2.1, Double.ts o.2.2, 1⟩ ∈ (look pid tid (res.map Entry.shape)).sections := by
  obtain ⟨res, h1, h2⟩ := row_of_moments _ (hc.sublist (by
    rw [nested_emitted]
    exact (List.Sublist.refl _).append (((List.Sublist.refl _).append (((List.Sublist.refl _).append (List.sublist_cons_self _ _)).cons₂ _)).cons₂ _))) names batches hv hn pid tid hb
  refine ⟨res, h1, ?_⟩
  rw [h2]
  simp only [List.map_append, List.map_cons, List.foldl_append, List.foldl_cons, C150.walk_prog, step_entry, step_exit, step_exit_none]
  exact ⟨trivial, by simp⟩

/-- **C151 fails: a lost entry.** If the entry of a scope is lost and its exit is not, the scope around it is shown as if it had ended with the inner one. -/
theorem lost_entry_shown (a : Prog) (o : Nat × Nat × Nat) (b : Prog) (i : Nat × Nat × Nat) (c d e : Prog) (hc : (nested a o b i c d e).emitted.Pairwise fun a b => a.time ≤ b.time)
    (names : TraceMap) (batches : List (Nat × Threads)) (hv : Valid batches) (hn : ∀ r ∈ Spec.recorded batches, Spec.Known r.event) (pid tid : Nat)
    (hb : C150.eventsOf pid tid batches =
      (a.emitted ++ ⟨o.2.1, .entry o.1⟩ :: (b.emitted ++ (c.emitted ++ ⟨i.2.2, .exit i.1⟩ :: (d.emitted ++ ⟨o.2.2, .exit o.1⟩ :: e.emitted)))).map Moment.event) :
    ∃ res, finishInterval (some (.ok names)) (encoded batches) = .ok res ∧
      (look pid tid (res.map Entry.shape)).opened = [] ∧
      ⟨ScopeNames.getScopeName names pid o.1, Double.ts o.2.1, Double.ts i.2.2, 0⟩ ∈ (look pid tid (res.map Entry.shape)).sections := by
  obtain ⟨res, h1, h2⟩ := row_of_moments _ (hc.sublist (by
    rw [nested_emitted]
    exact (List.Sublist.refl _).append (((List.Sublist.refl _).append (List.sublist_cons_self _ _)).cons₂ _))) names batches hv hn pid tid hb
  refine ⟨res, h1, ?_⟩
  rw [h2]
  simp only [List.map_append, List.map_cons, List.foldl_append, List.foldl_cons, C150.walk_prog, step_entry, step_exit, step_exit_none]
  exact ⟨trivial, by simp⟩

theorem run_emits (size : Nat) (l : List Moment) : ∀ s : State, s.queue.length + l.length < size →
    run size s (l.map fun m => .emit m 0) = some { s with queue := s.queue ++ l } := by
  induction l with
  | nil => intro s _; simp [run]
  | cons m l ih =>
    intro s h
    simp only [List.length_cons] at h
    simp only [List.map_cons, run, step]
    rw [if_neg (by omega), if_pos (by omega), Option.bind_some, ih _ (by simp; omega)]
    simp

theorem run_takes (size : Nat) (q : List Moment) : ∀ t : List Moment, run size ⟨q, t⟩ (List.replicate q.length .take) = some ⟨[], t ++ q⟩ := by
  induction q with
  | nil => intro t; simp [run]
  | cons m q ih =>
    intro t
    simp only [List.length_cons, List.replicate_succ, run, step, Option.bind_some]
    rw [ih]
    simp

theorem emits_append (as bs : List Act) : emits (as ++ bs) = emits as ++ emits bs := by
  induction as with
  | nil => rfl
  | cons a as ih => cases a <;> simp [emits, ih]

theorem emits_map (l : List Moment) : emits (l.map fun m => .emit m 0) = l := by
  induction l with
  | nil => rfl
  | cons m l ih => simp [emits, ih]

theorem emits_takes (n : Nat) : emits (List.replicate n .take) = [] := by
  induction n with
  | zero => rfl
  | succ n ih => simpa [List.replicate_succ, emits] using ih

/-- So many marks. -/
def marks (id t : Nat) : Nat → Prog
  | 0 => .done
  | n + 1 => .mark id t .thread (marks id t n)

theorem marks_length (id t n : Nat) : (marks id t n).emitted.length = n := by
  induction n with
  | zero => rfl
  | succ n ih => simp [marks, Prog.emitted, ih]

/-- **C151 fails: this happens with buffers of every size.** Whatever the size of the buffer, there is a program in which a thread enters two scopes, sets as many marks as then fill the buffer, and leaves the inner
    scope before the sender has taken out anything: its exit is lost, and that of the outer scope is not. -/
theorem overrun_happens (size : Nat) (hs : 2 < size) (o i : Nat × Nat × Nat) (id t : Nat) :
    ∃ as s, run size {} as = some s ∧ emits as = (nested .done o (marks id t (size - 3)) i .done .done .done).emitted ∧ s.queue = [] ∧
      s.taken = Prog.done.emitted ++ ⟨o.2.1, .entry o.1⟩ :: ((marks id t (size - 3)).emitted ++ ⟨i.2.1, .entry i.1⟩ :: (Prog.done.emitted ++ (Prog.done.emitted ++ ⟨o.2.2, .exit o.1⟩ :: Prog.done.emitted))) := by
  let l : List Moment := ⟨o.2.1, .entry o.1⟩ :: ((marks id t (size - 3)).emitted ++ [⟨i.2.1, .entry i.1⟩])
  have hl : l.length = size - 1 := by simp [l, marks_length]; omega
  refine ⟨l.map (fun m => .emit m 0) ++ (.emit ⟨i.2.2, .exit i.1⟩ 0 :: (List.replicate l.length .take ++ [.emit ⟨o.2.2, .exit o.1⟩ 0, .take])), ⟨[], l ++ [⟨o.2.2, .exit o.1⟩]⟩, ?_, ?_, rfl, ?_⟩
  · rw [run_append, run_emits size l {} (by simp [hl]; omega)]
    simp only [Option.bind_some, List.nil_append, run, step]
    rw [if_neg (by simp), if_neg (by rw [hl]; omega), Option.bind_some, run_append, run_takes]
    simp only [Option.bind_some, List.nil_append, run, step]
    rw [if_neg (by simp), if_pos (by simp; omega)]
    rfl
  · rw [nested_emitted, emits_append, emits_map]
    simp [emits, emits_append, emits_takes, l, Prog.emitted]
  · simp [l, Prog.emitted]

/-- **C151 does not hold.** -/
theorem not_NoFalseSections : ¬ NoFalseSections := by
  intro h
  let p := nested .done (1, 1000, 5000) (marks 3 1000 0) (2, 1500, 2000) .done .done .done
  obtain ⟨as, s, h1, h2, h3, h4⟩ := overrun_happens 3 (by decide) (1, 1000, 5000) (2, 1500, 2000) 3 1000
  have hc : p.emitted.Pairwise fun a b => a.time ≤ b.time := by decide +kernel
  let bs : List (Nat × Threads) := [(1, [(1, [⟨1000, 1, 1, none⟩, ⟨1500, 2, 1, none⟩, ⟨5000, 1, 2, none⟩])])]
  have hv : Valid bs := by
    have g : ∀ b ∈ bs, b.1 < 2 ^ 31 ∧ (b.2.Pairwise fun x y => x.1 < y.1) ∧ (∀ x ∈ b.2, x.1 < 2 ^ 64) ∧ b.2.length < 2 ^ 64 ∧ (∀ x ∈ b.2, x.2.length < 2 ^ 64) ∧
        ∀ x ∈ b.2, ∀ e ∈ x.2, e.time < 2 ^ 64 ∧ e.id < 2 ^ 32 ∧ e.type < 2 ^ 8 ∧ e.data = none := by decide +kernel
    intro b hb
    obtain ⟨g1, g2, g3, g4, g5, g6⟩ := g b hb
    refine ⟨g1, ⟨g2, g3, g4, g5, fun x hx e he => ?_⟩⟩
    obtain ⟨k1, k2, k3, k4⟩ := g6 x hx e he
    exact ⟨k1, k2, k3, fun d hd => by rw [k4] at hd; cases hd⟩
  have hn : ∀ r ∈ Spec.recorded bs, Spec.Known r.event := by
    have g : ∀ r ∈ Spec.recorded bs, (Spec.phase r.event.type).isSome ∧ r.event.type ≠ 6 := by decide +kernel
    exact fun r hr => ⟨(g r hr).1, fun h => absurd h (g r hr).2⟩
  have hb : C150.eventsOf 1 1 bs = s.taken.map Moment.event := by rw [h4]; decide +kernel
  obtain ⟨res, r1, r2⟩ := h 3 p as s (by decide) h2 hc h1 h3 [] bs hv hn 1 1 hb
  obtain ⟨res', r3, _, r4⟩ := lost_exit_shown .done (1, 1000, 5000) (marks 3 1000 0) (2, 1500, 2000) .done .done .done hc [] bs hv hn 1 1 (by rw [hb, h4])
  rw [r1] at r3
  cases r3
  obtain ⟨y, hy, _, e1, e2⟩ := r2 _ r4
  simp only at e1 e2
  have hs : scopes p = [(2, 1500, 2000), (1, 1000, 5000)] := by decide +kernel
  rw [hs] at hy
  rcases List.mem_cons.1 hy with rfl | hy
  · exact absurd e2 (by decide +kernel)
  · have := List.mem_singleton.1 hy
    subst this
    exact absurd e1 (by decide +kernel)

/-! ### The hypotheses are met -/

/-- A sender that keeps up: a buffer of three elements and a scope in a scope. -/
def keptUp : List Act := [.emit ⟨1, .entry 1⟩ 0, .emit ⟨2, .entry 2⟩ 0, .take, .emit ⟨3, .exit 2⟩ 0, .take, .take, .emit ⟨4, .exit 1⟩ 1, .take]

example : emits keptUp = (Prog.scope 1 1 4 (.scope 2 2 3 .done .done) .done).emitted ∧ (run 3 {} keptUp).map (·.queue) = some [] ∧
    (run 3 {} keptUp).map (·.taken) = some (emits keptUp) := by decide +kernel

example : Keeps 3 keptUp := by
  have g : ∀ k < 8, ∀ a ∈ keptUp[k]?, (match a with
      | .emit _ lag => decide ((emits (keptUp.take k)).length + lag + 1 < 3 + takes (keptUp.take k))
      | .take => true) = true := by decide +kernel
  intro xs m lag ys h
  have h1 : keptUp.take xs.length = xs := by rw [h]; simp
  have h2 : keptUp[xs.length]? = some (.emit m lag) := by rw [h]; simp
  have h3 : xs.length < 8 := by have := congrArg List.length h; simp [keptUp] at this; omega
  have := g xs.length h3 (.emit m lag) (by rw [h2]; rfl)
  rw [h1] at this
  simpa using this

/-- Of three scopes the second is lost as a whole. -/
example : Thinned (.scope 1 1 9 (.scope 2 2 5 (.scope 3 3 4 .done .done) .done) .done) (.scope 1 1 9 (.scope 3 3 4 .done .done) .done) :=
  .scope 1 1 9 (.lost 2 2 5 (.scope 3 3 4 .done .done) .done) .done

end Scalopus.C151
