import Verif.Model.RecorderHistory
import Verif.Props.C40_Recorder

/-!
# C139: a recorder writes exactly the events of its interval

In every history of a recorder, a file that is written holds, as a JSON array, the events that arrived at each provider between the last `startInterval()` and the first `stopInterval()` after it, or the writing, and nothing else; the same
holds for the file that is written when the recorder is destroyed. No event of a native source is written twice, but those of LTTng sources are written to every further file. Events that arrived are lost if the recorder is stopped and started again before it writes, if the file cannot be opened, or if one event
cannot be written.
-/

namespace Scalopus.C139
open Scalopus.RecorderHistory
open JsonText

/-! ## Specification -/

/-- The events that arrive at provider `i`. -/
def arrivals (i : Nat) : List Act → List J
  | [] => []
  | .arrive k j :: l => if k = i then j :: arrivals i l else arrivals i l
  | _ :: l => arrivals i l

/-- Nothing that begins or ends an interval, or makes new sources. -/
def Calm : Act → Prop
  | .addProvider _ | .arrive _ _ | .setupDumpFile _ | .stop => True
  | _ => False

/-- What a file should hold if, since the last start of an interval, `l` has happened: one part for each source. -/
def expected (sources : List Src) (l : List Act) (info : Nat → List J) : List J := sources.flatMap fun x => match x.kind with
  | .native | .lttng => arrivals x.prov l
  | .general => info x.prov

/-- A value with a string that is not UTF-8 in it, as a name of a member or as a value, at any depth. -/
inductive Bad : J → Prop where
  | str : Bad (.str none)
  | arr {l : List J} {j : J} : j ∈ l → Bad j → Bad (.arr l)
  | key {l : List (Str × J)} {j : J} : (none, j) ∈ l → Bad (.obj l)
  | value {l : List (Str × J)} {k : Str} {j : J} : (k, j) ∈ l → Bad j → Bad (.obj l)

/-- All values can be written as JSON. -/
def AllClean (l : List J) : Prop := ∀ j ∈ l, Clean j

/-! ## Sources during an interval -/

theorem arrivals_append (i : Nat) (a b : List Act) : arrivals i (a ++ b) = arrivals i a ++ arrivals i b := by
  induction a with
  | nil => rfl
  | cons x a ih =>
    cases x with
    | arrive k j =>
      simp only [List.cons_append, arrivals]
      split <;> simp [ih]
    | _ => simpa only [List.cons_append, arrivals] using ih

/-- A source that records since `l` began. -/
def during (l : List Act) (x : Src) : Src := if x.kind = .general then x else { x with recording := true, data := arrivals x.prov l }

/-- A source that has stopped. -/
def after (l : List Act) (x : Src) : Src := if x.kind = .general then x else { x with recording := false, data := arrivals x.prov l }

theorem run_append (a b : List Act) (s : State) : run s (a ++ b) = (run s a).bind fun s' => run s' b := by
  induction a generalizing s with
  | nil => rfl
  | cons x a ih =>
    simp only [List.cons_append, run]
    split
    · rfl
    · split <;> first | exact ih _ | rfl

theorem run_cons {s s' : State} {a : Act} {l : List Act} (h : run s (a :: l) = some s') : s.destroyed = false ∧ run (step s a).1 l = some s' := by
  simp only [run] at h
  split at h
  · cases h
  · next e =>
    refine ⟨by simpa using e, ?_⟩
    split at h
    · next e => rw [e]; exact h
    · next e => rw [e]; exact h
    · cases h

theorem calm_during_step (S : List Src) (l0 : List Act) (a : Act) (s : State) (hc : Calm a) (hs : s.sources = S.map (during l0)) : (step s a).1.sources = S.map (during (l0 ++ [a])) := by
  cases a with
  | addProvider b => simp only [step, hs]; congr 1; funext x; simp [during, arrivals_append, arrivals]
  | setupDumpFile p => simp only [step, hs]; congr 1; funext x; simp [during, arrivals_append, arrivals]
  | stop =>
    have : (step s .stop).1.sources = s.sources := by simp only [step]; split <;> rfl
    rw [this, hs]; congr 1; funext x; simp [during, arrivals_append, arrivals]
  | arrive i j =>
    simp only [step, hs, List.map_map]; congr 1; funext x
    obtain ⟨p, n, r, d⟩ := x
    simp only [Function.comp_apply, arriveSrc, during]
    by_cases hi : p = i
    · cases n <;> simp [hi, arrivals_append, arrivals]
    · cases n <;> simp [hi, Ne.symm hi, arrivals_append, arrivals]
  | _ => exact absurd hc (by simp [Calm])

theorem calm_during (S : List Src) (l0 : List Act) : ∀ (l : List Act) (s s' : State), (∀ a ∈ l, Calm a) → s.sources = S.map (during l0) → run s l = some s' → s'.sources = S.map (during (l0 ++ l)) := by
  intro l
  induction l generalizing l0 with
  | nil => intro s s' _ hs h; cases h; simpa using hs
  | cons a l ih =>
    intro s s' hc hs h
    have e : l0 ++ a :: l = (l0 ++ [a]) ++ l := by simp
    rw [e]
    exact ih _ _ _ (fun b hb => hc b (List.mem_cons_of_mem _ hb)) (calm_during_step S l0 a s (hc a List.mem_cons_self) hs) (run_cons h).2

theorem calm_after_step (S : List Src) (l0 : List Act) (a : Act) (s : State) (hc : Calm a ∨ a = .stopInterval) (hs : s.sources = S.map (after l0)) : (step s a).1.sources = S.map (after l0) := by
  cases a with
  | addProvider b => exact hs
  | setupDumpFile p => exact hs
  | stop =>
    have : (step s .stop).1.sources = s.sources := by simp only [step]; split <;> rfl
    rw [this, hs]
  | stopInterval =>
    simp only [step, hs, List.map_map]; congr 1; funext x
    obtain ⟨p, n, r, d⟩ := x
    cases n <;> simp [stopSrc, after]
  | arrive i j =>
    simp only [step, hs, List.map_map]; congr 1; funext x
    obtain ⟨p, n, r, d⟩ := x
    cases n <;> simp [arriveSrc, after]
  | _ => exact absurd hc (by simp [Calm])

/-- Sources that have stopped do not change. -/
theorem calm_after (S : List Src) (l0 : List Act) : ∀ (l : List Act) (s s' : State), (∀ a ∈ l, Calm a ∨ a = .stopInterval) → s.sources = S.map (after l0) → run s l = some s' → s'.sources = S.map (after l0) := by
  intro l
  induction l with
  | nil => intro s s' _ hs h; cases h; simpa using hs
  | cons a l ih =>
    intro s s' hc hs h
    exact ih _ _ (fun b hb => hc b (List.mem_cons_of_mem _ hb)) (calm_after_step S l0 a s (hc a List.mem_cons_self) hs) (run_cons h).2

/-- An interval: it begins, `l` happens, and then nothing more, or it is stopped and `l'` happens. -/
inductive Interval : List Act → List Act → Prop where
  | stillOpen {l : List Act} (h : ∀ a ∈ l, Calm a) : Interval (.startInterval :: l) l
  | closed {l l' : List Act} (h : ∀ a ∈ l, Calm a) (h' : ∀ a ∈ l', Calm a ∨ a = .stopInterval) : Interval (.startInterval :: l ++ .stopInterval :: l') l

theorem begin_during (s : State) : (step s .startInterval).1.sources = s.sources.map (during []) := by
  simp only [step]; congr 1

theorem interval_sources {h l : List Act} (hi : Interval h l) {s s' : State} (hr : run s h = some s') : s'.sources = s.sources.map (during l) ∨ s'.sources = s.sources.map (after l) := by
  cases hi with
  | stillOpen hc => exact .inl (calm_during s.sources [] l _ _ hc (begin_during s) (run_cons hr).2)
  | @closed l l' hc hc' =>
    rw [run_append] at hr
    cases h1 : run s (.startInterval :: l) with
    | none => rw [h1] at hr; cases hr
    | some s1 =>
      rw [h1, Option.bind_some] at hr
      have h2 := calm_during s.sources [] l _ _ hc (begin_during s) (run_cons h1).2
      rw [List.nil_append] at h2
      refine .inr (calm_after s.sources l l' _ _ hc' ?_ (run_cons hr).2)
      simp only [step, h2, List.map_map]; congr 1; funext x
      obtain ⟨p, n, r, d⟩ := x
      cases n <;> simp [stopSrc, after, during]

/-! ## What is written -/

theorem collect_text (s : State) (info : Nat → List J) (hc : AllClean (s.sources.flatMap (gives info))) :
    ∃ t, collect s info = ({ s with sources := s.sources.map finishSrc }, .ok t) ∧ read t = some (.arr (s.sources.flatMap (gives info))) := by
  obtain ⟨t, h1, h2⟩ := C40.file_exact (s.sources.map (gives info)) (fun l hl j hj => hc j (List.mem_flatMap.2 (by
    obtain ⟨x, hx, rfl⟩ := List.mem_map.1 hl
    exact ⟨x, hx, hj⟩)))
  refine ⟨t, ?_, by rw [h2, List.flatMap_def]⟩
  simp only [List.map_map] at h1
  simp only [collect]
  rw [show (fun x => Res.ok (gives info x)) = (Res.ok ∘ gives info) from rfl, h1]

theorem gives_expected {s s' : State} {l : List Act} {info : Nat → List J} (h : s'.sources = s.sources.map (during l) ∨ s'.sources = s.sources.map (after l)) : s'.sources.flatMap (gives info) = expected s.sources l info := by
  rcases h with h | h <;> rw [h] <;> simp only [expected, List.flatMap_map] <;> congr 1 <;> funext x <;> obtain ⟨p, n, r, d⟩ := x <;> cases n <;> simp [gives, during, after]

/-- **C139.** A file that is written holds exactly the events that arrived during the last interval, and what general sources give, in the order of the sources. Other files stay as they are. -/
theorem written {h l : List Act} {s s' : State} {p : List Char} {info : Nat → List J} (hi : Interval h l) (hr : run s h = some s') (hc : AllClean (expected s.sources l info)) :
    (step s' (.write p true info)).2 = .ok () ∧ (∃ t, (step s' (.write p true info)).1.files p = some t ∧ read t = some (.arr (expected s.sources l info))) ∧
      ∀ q, q ≠ p → (step s' (.write p true info)).1.files q = s'.files q := by
  have he := gives_expected (info := info) (interval_sources hi hr)
  obtain ⟨t, h1, h2⟩ := collect_text s' info (by rw [he]; exact hc)
  rw [he] at h2
  simp only [step, write, h1]
  exact ⟨trivial, ⟨t, by simp, h2⟩, fun q hq => by simp [hq]⟩

/-- **C139.** The file that is written when the recorder is destroyed, while it runs, holds the same. -/
theorem written_at_end {h l : List Act} {s s' : State} {info : Nat → List J} (hi : Interval h l) (hr : run s h = some s') (hrun : s'.running = true) (hd : s'.dump ≠ [])
    (hc : AllClean (expected s.sources l info)) :
    (step s' (.destroy true info)).2 = .ok () ∧ (∃ t, (step s' (.destroy true info)).1.files s'.dump = some t ∧ read t = some (.arr (expected s.sources l info))) ∧
      ∀ q, q ≠ s'.dump → (step s' (.destroy true info)).1.files q = s'.files q := by
  have he := gives_expected (info := info) (interval_sources hi hr)
  obtain ⟨t, h1, h2⟩ := collect_text { s' with running := false, destroyed := true } info (by simp only []; rw [he]; exact hc)
  simp only [] at h2
  rw [he] at h2
  simp only [step, hrun, if_pos, if_neg hd, write, h1]
  exact ⟨trivial, ⟨t, by simp, h2⟩, fun q hq => by simp [hq]⟩

/-- One source for each provider that was added before, in their order. -/
theorem one_source_each (s : State) (hr : s.running = false) :
    (step s .start).1.sources.map (fun x => (x.prov, x.kind)) = s.providers.mapIdx (fun i b => (i, b)) ∧ (step s .start).1.running = true ∧ (step s .start).2 = .ok () := by
  refine ⟨?_, by simp [step, hr], by simp [step, hr]⟩
  apply List.ext_getElem?
  intro i
  simp [step, hr, List.getElem?_mapIdx]
  rfl

/-- Starting a recorder that runs changes nothing. -/
theorem start_again (s : State) (hr : s.running = true) : step s .start = (s, .ok ()) := by simp [step, hr]

/-! ## What is written again -/

/-- Nothing is being recorded, and native sources hold nothing. -/
def Idle (s : State) : Prop := ∀ x ∈ s.sources, x.kind ≠ .general → x.recording = false ∧ (x.kind = .native → x.data = [])

theorem idle_after_collect (s : State) (info : Nat → List J) : Idle (collect s info).1 := by
  intro x hx hn
  simp only [collect, List.mem_map] at hx
  obtain ⟨y, _, rfl⟩ := hx
  obtain ⟨p, k, r, d⟩ := y
  cases k <;> simp_all [finishSrc]

theorem idle_after_write (s : State) (p : List Char) (o : Bool) (info : Nat → List J) : Idle (write s p o info).1 := by
  have h := idle_after_collect s info
  simp only [write]
  cases hc : collect s info with
  | mk s1 r =>
    rw [hc] at h
    cases r with
    | ok t => exact h
    | throws w => exact h
    | ub => exact h
    | terminate => exact h

theorem idle_step {s : State} (h : Idle s) (a : Act) (ha : a ≠ .startInterval) : Idle (step s a).1 := by
  cases a with
  | addProvider b => exact h
  | start =>
    simp only [step]; split
    · exact h
    · intro x hx _
      simp only [List.mem_mapIdx] at hx
      obtain ⟨i, hi, rfl⟩ := hx
      exact ⟨rfl, fun _ => rfl⟩
  | stop => simp only [step]; split <;> exact h
  | startInterval => exact absurd rfl ha
  | stopInterval =>
    intro x hx hn
    simp only [step, List.mem_map] at hx
    obtain ⟨y, hy, rfl⟩ := hx
    have := h y hy
    obtain ⟨p, k, r, d⟩ := y
    cases k <;> simp_all [stopSrc]
  | arrive i j =>
    intro x hx hn
    simp only [step, List.mem_map] at hx
    obtain ⟨y, hy, rfl⟩ := hx
    have := h y hy
    obtain ⟨p, k, r, d⟩ := y
    cases k <;> simp_all [arriveSrc]
  | setupDumpFile p => exact h
  | collect info =>
    have h2 := idle_after_collect s info
    simp only [step]
    cases hc : collect s info with
    | mk s1 r => rw [hc] at h2; cases r <;> exact h2
  | write p o info => exact idle_after_write s p o info
  | destroy o info =>
    simp only [step]
    split
    · split
      · exact h
      · have h2 := idle_after_write { s with running := false, destroyed := true } s.dump o info
        cases hw : write { s with running := false, destroyed := true } s.dump o info with
        | mk s1 r =>
          rw [hw] at h2
          cases r <;> exact h2
    · exact h

theorem idle_run {l : List Act} (hl : ∀ a ∈ l, a ≠ .startInterval) : ∀ {s s' : State}, Idle s → run s l = some s' → Idle s' := by
  induction l with
  | nil => intro s s' h hr; cases hr; exact h
  | cons a l ih =>
    intro s s' h hr
    exact ih (fun b hb => hl b (List.mem_cons_of_mem _ hb)) (idle_step h a (hl a List.mem_cons_self)) (run_cons hr).2

/-- The general sources only. -/
def infoOnly (sources : List Src) (info : Nat → List J) : List J := sources.flatMap fun x => if x.kind = .general then info x.prov else []

/-- No source is an LTTng source. -/
def NoLttng (s : State) : Prop := ∀ x ∈ s.sources, x.kind ≠ .lttng

theorem idle_gives {s : State} (h : Idle s) (hn : ∀ x ∈ s.sources, x.kind = .lttng → x.data = []) (info : Nat → List J) : s.sources.flatMap (gives info) = infoOnly s.sources info := by
  rw [infoOnly, List.flatMap_def, List.flatMap_def]
  congr 1
  apply List.map_congr_left
  intro x hx
  have h1 := h x hx
  have h2 := hn x hx
  obtain ⟨p, k, r, d⟩ := x
  cases k <;> simp_all [gives]

theorem idle_write {s : State} (h : Idle s) (hn : ∀ x ∈ s.sources, x.kind = .lttng → x.data = []) (p : List Char) (info : Nat → List J) (hc : AllClean (infoOnly s.sources info)) :
    ∃ t, (step s (.write p true info)).1.files p = some t ∧ read t = some (.arr (infoOnly s.sources info)) := by
  obtain ⟨t, h1, h2⟩ := collect_text s info (by rw [idle_gives h hn]; exact hc)
  rw [idle_gives h hn] at h2
  exact ⟨t, by simp [step, write, h1], h2⟩

theorem collected_sources {s s1 : State} {a : Act} (ha : (∃ info, a = .collect info) ∨ ∃ q o info, a = .write q o info) (h1 : (step s a).1 = s1) : s1.sources = s.sources.map finishSrc := by
  subst h1
  rcases ha with ⟨i, rfl⟩ | ⟨q, o, i, rfl⟩
  · simp only [step]
    cases hc : collect s i with
    | mk s2 r =>
      have : s2.sources = s.sources.map finishSrc := by simp only [collect, Prod.mk.injEq] at hc; rw [← hc.1]
      cases r <;> exact this
  · simp only [step, write]
    cases hc : collect s i with
    | mk s2 r =>
      have : s2.sources = s.sources.map finishSrc := by simp only [collect, Prod.mk.injEq] at hc; rw [← hc.1]
      cases r <;> exact this

theorem collected_idle {s s1 : State} {a : Act} (ha : (∃ info, a = .collect info) ∨ ∃ q o info, a = .write q o info) (h1 : (step s a).1 = s1) : Idle s1 := by
  intro x hx hn
  rw [collected_sources ha h1] at hx
  exact idle_after_collect s (fun _ => []) x hx hn

/-- The full statement: what was written or collected once is not written again until the next interval begins. -/
def NeverTwice : Prop := ∀ (s s1 s' : State) (a : Act) (l : List Act), ((∃ info, a = .collect info) ∨ ∃ q o info, a = .write q o info) → (step s a).1 = s1 → (∀ a ∈ l, a ≠ .startInterval) → run s1 l = some s' →
  ∀ (p : List Char) (info : Nat → List J), AllClean (infoOnly s'.sources info) → ∃ t, (step s' (.write p true info)).1.files p = some t ∧ read t = some (.arr (infoOnly s'.sources info))

/-- **C139, partial.** What was written or collected once is not written again: until the next interval begins, files hold nothing of native sources, whatever happens, also if the first file could not be opened or written. Missing: LTTng
sources, see `written_again`. -/
theorem never_twice_partial {s s1 s' : State} {a : Act} {l : List Act} (ha : (∃ info, a = .collect info) ∨ ∃ q o info, a = .write q o info) (h1 : (step s a).1 = s1) (hl : ∀ a ∈ l, a ≠ .startInterval) (hr : run s1 l = some s')
    (hn : NoLttng s') (p : List Char) (info : Nat → List J) (hc : AllClean (infoOnly s'.sources info)) : ∃ t, (step s' (.write p true info)).1.files p = some t ∧ read t = some (.arr (infoOnly s'.sources info)) :=
  idle_write (idle_run hl (collected_idle ha h1) hr) (fun x hx hk => absurd hk (hn x hx)) p info hc

/-- What a file holds if the events of an interval in which `l` has happened have been collected before. -/
def again (sources : List Src) (l : List Act) (info : Nat → List J) : List J := sources.flatMap fun x => match x.kind with
  | .native => []
  | .lttng => arrivals x.prov l
  | .general => info x.prov

/-- A source whose data has been collected. -/
def spent (l : List Act) (x : Src) : Src := finishSrc (after l x)

theorem spent_step (S : List Src) (l0 : List Act) (a : Act) (s : State) (hc : a ≠ .startInterval ∧ (a = .start → s.running = true)) (hs : s.sources = S.map (spent l0)) : (step s a).1.sources = S.map (spent l0) := by
  have hf : ∀ info, (collect s info).1.sources = S.map (spent l0) := by
    intro info
    simp only [collect, hs, List.map_map]
    congr 1; funext x
    obtain ⟨p, k, r, d⟩ := x
    cases k <;> simp [spent, finishSrc, after]
  have hw : ∀ (s' : State) p o info, s'.sources = s.sources → (write s' p o info).1.sources = S.map (spent l0) := by
    intro s' p o info e
    have h2 : (collect s' info).1.sources = S.map (spent l0) := by rw [← hf info]; simp only [collect, e]
    simp only [write]
    cases hcc : collect s' info with
    | mk s1 r => rw [hcc] at h2; cases r <;> exact h2
  cases a with
  | addProvider b => exact hs
  | setupDumpFile p => exact hs
  | start => simp only [step, hc.2 rfl, if_true]; exact hs
  | stop => simp only [step]; split <;> exact hs
  | startInterval => exact absurd rfl hc.1
  | stopInterval =>
    simp only [step, hs, List.map_map]; congr 1; funext x
    obtain ⟨p, k, r, d⟩ := x
    cases k <;> simp [stopSrc, spent, finishSrc, after]
  | arrive i j =>
    simp only [step, hs, List.map_map]; congr 1; funext x
    obtain ⟨p, k, r, d⟩ := x
    cases k <;> simp [arriveSrc, spent, finishSrc, after]
  | collect info =>
    have h2 := hf info
    simp only [step]
    cases hcc : collect s info with
    | mk s1 r => rw [hcc] at h2; cases r <;> exact h2
  | write p o info => exact hw s p o info rfl
  | destroy o info =>
    simp only [step]
    split
    · split
      · exact hs
      · have h2 := hw { s with running := false, destroyed := true } s.dump o info rfl
        cases hww : write { s with running := false, destroyed := true } s.dump o info with
        | mk s1 r => rw [hww] at h2; cases r <;> exact h2
    · exact hs

theorem spent_run (S : List Src) (l0 : List Act) : ∀ (l : List Act) (s s' : State), (∀ a ∈ l, a ≠ .startInterval ∧ a ≠ .start) → s.sources = S.map (spent l0) → run s l = some s' → s'.sources = S.map (spent l0) := by
  intro l
  induction l with
  | nil => intro s s' _ hs h; cases h; exact hs
  | cons a l ih =>
    intro s s' hc hs h
    exact ih _ _ (fun b hb => hc b (List.mem_cons_of_mem _ hb)) (spent_step S l0 a s ⟨(hc a List.mem_cons_self).1, fun e => absurd e (hc a List.mem_cons_self).2⟩ hs) (run_cons h).2

/-- **C139 fails: LTTng sources.** An LTTng source gives all events of the interval again, to every file that is written until the next interval begins or the recorder is started anew: also to the one that is written when it is
destroyed. Native sources give nothing. -/
theorem written_again {h l l' : List Act} {s s0 s1 s' : State} {a : Act} (hi : Interval h l) (hr0 : run s h = some s0) (ha : (∃ info, a = .collect info) ∨ ∃ q o info, a = .write q o info) (h1 : (step s0 a).1 = s1)
    (hl : ∀ a ∈ l', a ≠ .startInterval ∧ a ≠ .start) (hr : run s1 l' = some s') (info : Nat → List J) (hc : AllClean (again s.sources l info)) :
    (∀ p, ∃ t, (step s' (.write p true info)).1.files p = some t ∧ read t = some (.arr (again s.sources l info))) ∧
    (s'.running = true → s'.dump ≠ [] → ∃ t, (step s' (.destroy true info)).1.files s'.dump = some t ∧ read t = some (.arr (again s.sources l info))) := by
  have hs : s'.sources = s.sources.map (spent l) := by
    refine spent_run s.sources l l' s1 s' hl ?_ hr
    rw [collected_sources ha h1]
    rcases interval_sources hi hr0 with e | e <;> rw [e, List.map_map] <;> congr 1 <;> funext x <;> obtain ⟨p, k, r, d⟩ := x <;> cases k <;> simp [spent, finishSrc, after, during]
  have hg : s'.sources.flatMap (gives info) = again s.sources l info := by
    rw [hs, again, List.flatMap_map]
    congr 1; funext x
    obtain ⟨p, k, r, d⟩ := x
    cases k <;> simp [gives, spent, finishSrc, after]
  constructor
  · intro p
    obtain ⟨t, e1, e2⟩ := collect_text s' info (by rw [hg]; exact hc)
    rw [hg] at e2
    exact ⟨t, by simp [step, write, e1], e2⟩
  · intro hrun hd
    obtain ⟨t, e1, e2⟩ := collect_text { s' with running := false, destroyed := true } info (by simp only []; rw [hg]; exact hc)
    simp only [] at e2
    rw [hg] at e2
    exact ⟨t, by simp [step, write, hrun, hd, e1], e2⟩

/-- A recorder with an LTTng source and an event. -/
theorem not_NeverTwice : ¬ NeverTwice := by
  intro h
  let s : State := { providers := [.lttng], sources := [{ prov := 0, kind := .lttng }], running := true }
  let s0 : State := { providers := [.lttng], sources := [{ prov := 0, kind := .lttng, recording := true, data := [.null] }], running := true }
  have h1 := written_again (h := [.startInterval, .arrive 0 .null]) (l := [.arrive 0 .null]) (l' := []) (s := s) (s0 := s0) (a := .collect fun _ => []) (.stillOpen (by simp [Calm])) rfl (.inl ⟨_, rfl⟩) rfl (by simp) rfl (fun _ => [])
    (by intro j hj; simp [again, s, arrivals] at hj; subst hj; exact .null)
  obtain ⟨t, e1, e2⟩ := h1.1 ['f']
  obtain ⟨t', e3, e4⟩ := h s0 _ _ (.collect fun _ => []) [] (.inl ⟨_, rfl⟩) rfl (by simp) rfl ['f'] (fun _ => []) (by intro j hj; exact absurd hj (by simp [infoOnly, step, collect, s0, finishSrc, Recorder.collectEvents]))
  rw [e1] at e3
  cases e3
  rw [e2] at e4
  simp [again, s, arrivals] at e4
  have e5 : (infoOnly (step s0 (.collect fun _ => [])).1.sources fun _ => []) = [] := rfl
  rw [e5] at e4
  cases e4

/-- Sources that have not recorded anything. -/
def Fresh (s : State) : Prop := ∀ x ∈ s.sources, x.recording = false ∧ x.data = []

theorem fresh_map {S : List Src} {f : Src → Src} (h : ∀ x ∈ S, x.recording = false ∧ x.data = []) (hf : ∀ x : Src, x.recording = false ∧ x.data = [] → (f x).recording = false ∧ (f x).data = []) : ∀ x ∈ S.map f, x.recording = false ∧ x.data = [] := by
  intro x hx
  obtain ⟨y, hy, rfl⟩ := List.mem_map.1 hx
  exact hf y (h y hy)

theorem fresh_finish (x : Src) (h : x.recording = false ∧ x.data = []) : (finishSrc x).recording = false ∧ (finishSrc x).data = [] := by
  obtain ⟨p, k, r, d⟩ := x
  cases k <;> simp_all [finishSrc]

theorem fresh_write {s : State} (h : Fresh s) (p : List Char) (o : Bool) (info : Nat → List J) : Fresh (write s p o info).1 := by
  have h2 : Fresh (collect s info).1 := fresh_map h fresh_finish
  simp only [write]
  cases hc : collect s info with
  | mk s1 r => rw [hc] at h2; cases r <;> exact h2

theorem fresh_start (S : List Kind) : ∀ x ∈ S.mapIdx (fun i b => ({ prov := i, kind := b } : Src)), x.recording = false ∧ x.data = [] := by
  intro x hx
  simp only [List.mem_mapIdx] at hx
  obtain ⟨i, hi, rfl⟩ := hx
  exact ⟨rfl, rfl⟩

theorem fresh_step {s : State} (h : Fresh s) (a : Act) (ha : a ≠ .startInterval) : Fresh (step s a).1 := by
  cases a with
  | addProvider b => exact h
  | start =>
    simp only [step]; split
    · exact h
    · exact fresh_start s.providers
  | stop => simp only [step]; split <;> exact h
  | startInterval => exact absurd rfl ha
  | stopInterval => exact fresh_map h fun x hx => by obtain ⟨p, k, r, d⟩ := x; cases k <;> simp_all [stopSrc]
  | arrive i j => exact fresh_map h fun x hx => by obtain ⟨p, k, r, d⟩ := x; cases k <;> simp_all [arriveSrc]
  | setupDumpFile p => exact h
  | collect info =>
    have h2 : Fresh (collect s info).1 := fresh_map h fresh_finish
    simp only [step]
    cases hc : collect s info with
    | mk s1 r => rw [hc] at h2; cases r <;> exact h2
  | write p o info => exact fresh_write h p o info
  | destroy o info =>
    simp only [step]
    split
    · split
      · exact h
      · have h2 := fresh_write (s := { s with running := false, destroyed := true }) h s.dump o info
        cases hw : write { s with running := false, destroyed := true } s.dump o info with
        | mk s1 r => rw [hw] at h2; cases r <;> exact h2
    · exact h

theorem fresh_run {l : List Act} (hl : ∀ a ∈ l, a ≠ .startInterval) : ∀ {s s' : State}, Fresh s → run s l = some s' → Fresh s' := by
  induction l with
  | nil => intro s s' h hr; cases hr; exact h
  | cons a l ih =>
    intro s s' h hr
    exact ih (fun b hb => hl b (List.mem_cons_of_mem _ hb)) (fresh_step h a (hl a List.mem_cons_self)) (run_cons hr).2

theorem fresh_writes {s : State} (h : Fresh s) (p : List Char) (info : Nat → List J) (hc : AllClean (infoOnly s.sources info)) :
    ∃ t, (step s (.write p true info)).1.files p = some t ∧ read t = some (.arr (infoOnly s.sources info)) :=
  idle_write (fun x hx _ => ⟨(h x hx).1, fun _ => (h x hx).2⟩) (fun x hx _ => (h x hx).2) p info hc

/-- Nothing is recorded before the first interval, nor after the recorder was started anew. -/
theorem nothing_before {l : List Act} {s s' : State} (hs : s = {} ∨ ∃ s0, s0.running = false ∧ s = (step s0 .start).1) (hl : ∀ a ∈ l, a ≠ .startInterval) (hr : run s l = some s') (p : List Char) (info : Nat → List J)
    (hc : AllClean (infoOnly s'.sources info)) : ∃ t, (step s' (.write p true info)).1.files p = some t ∧ read t = some (.arr (infoOnly s'.sources info)) := by
  refine fresh_writes (fresh_run hl ?_ hr) p info hc
  rcases hs with rfl | ⟨s0, h0, rfl⟩
  · intro x hx; cases hx
  · simp only [step, h0]
    exact fresh_start s0.providers

/-! ## Events that are lost -/

/-- **C139 fails: stopping and starting again** loses everything that was recorded. -/
theorem restart_loses (s : State) (hd : s.destroyed = false) (hr : s.running = true) : ∃ s', run s [.stop, .start] = some s' ∧ Fresh s' :=
  ⟨{ s with sources := s.providers.mapIdx fun i b => { prov := i, kind := b }, running := true }, by simp [run, step, hd, hr], fresh_start s.providers⟩

/-- **C139 fails: a file that cannot be opened**: the call returns as if it had been written, no file has changed, and the events of native sources are gone. -/
theorem unopened_loses (s : State) (p : List Char) (info : Nat → List J) (hc : AllClean (s.sources.flatMap (gives info))) :
    (step s (.write p false info)).2 = .ok () ∧ (step s (.write p false info)).1.files = s.files ∧ Idle (step s (.write p false info)).1 := by
  obtain ⟨t, h1, _⟩ := collect_text s info hc
  refine ⟨by simp [step, write, h1], by simp [step, write, h1], idle_after_write s p false info⟩

theorem dumpAll_none {l : List J} {j : J} (hj : j ∈ l) (h : dump j = none) : dumpAll l = none := by
  induction l with
  | nil => cases hj
  | cons x l ih =>
    rcases List.mem_cons.1 hj with rfl | hj
    · simp [dumpAll, h]
    · rw [dumpAll, ih hj]; cases dump x <;> rfl

theorem dumpMembers_none {l : List (Str × J)} {k : Str} {j : J} (hj : (k, j) ∈ l) (h : k = none ∨ dump j = none) : dumpMembers l = none := by
  induction l with
  | nil => cases hj
  | cons x l ih =>
    obtain ⟨k', x⟩ := x
    cases k' with
    | none => rfl
    | some k' =>
      rcases List.mem_cons.1 hj with e | hj
      · cases e
        rcases h with h | h
        · cases h
        · simp [dumpMembers, h]
      · rw [dumpMembers, ih hj]; cases dump x <;> rfl

theorem dump_bad {j : J} (h : Bad j) : dump j = none := by
  induction h with
  | str => rfl
  | arr hj _ ih => simp [dump, dumpAll_none hj ih]
  | key hj => simp [dump, dumpMembers_none hj (.inl rfl)]
  | value hj _ ih => simp [dump, dumpMembers_none hj (.inr ih)]

theorem collect_bad {s : State} {info : Nat → List J} {j : J} (hj : j ∈ s.sources.flatMap (gives info)) (hb : Bad j) : collect s info = ({ s with sources := s.sources.map finishSrc }, .throws "type_error") := by
  simp only [collect, Recorder.collectEvents]
  rw [show (s.sources.map fun x => Res.ok (gives info x)) = (s.sources.map (gives info)).map Res.ok by simp, Session.finishAll_ok]
  rw [List.flatMap_def] at hj
  simp only [Recorder.formatFile, dumpAll_none hj (dump_bad hb), Option.map_none]

/-- **C139 fails: an event that cannot be written**, because a string in it is not UTF-8, loses all others: the call throws, no file has changed, and the events of native sources are gone. -/
theorem bad_event_loses {h l : List Act} {s s' : State} {p : List Char} {o : Bool} {info : Nat → List J} {j : J} (hi : Interval h l) (hr : run s h = some s') (hj : j ∈ expected s.sources l info) (hb : Bad j) :
    (step s' (.write p o info)).2 = .throws "type_error" ∧ (step s' (.write p o info)).1.files = s'.files ∧ Idle (step s' (.write p o info)).1 := by
  rw [← gives_expected (info := info) (interval_sources hi hr)] at hj
  have hc := collect_bad hj hb
  refine ⟨by simp [step, write, hc], by simp [step, write, hc], idle_after_write s' p o info⟩

/-- The same at the end ends the program. -/
theorem bad_event_terminates {h l : List Act} {s s' : State} {o : Bool} {info : Nat → List J} {j : J} (hi : Interval h l) (hr : run s h = some s') (hd : s'.dump ≠ []) (hj : j ∈ expected s.sources l info) (hb : Bad j) :
    (step s' (.destroy o info)).2 = .terminate := by
  rw [← gives_expected (info := info) (interval_sources hi hr)] at hj
  have hc := collect_bad (s := { s' with running := false, destroyed := true }) hj hb
  simp only [step, write, if_neg hd, hc]
  split <;> rfl

/-- A recorder that does not run cannot be destroyed: the program ends, and no file is written. -/
theorem stopped_writes_nothing (s : State) (o : Bool) (info : Nat → List J) (hr : s.running = false) : step s (.destroy o info) = (s, .terminate) := by simp [step, hr]

/-- Without a name for the file at the end, or if it cannot be opened, destroying the recorder changes no file. -/
theorem no_file_at_end (s : State) (o : Bool) (info : Nat → List J) (h : s.dump = [] ∨ o = false) : (step s (.destroy o info)).1.files = s.files := by
  simp only [step]
  split
  · split
    · rfl
    · next e =>
      rcases h with h | rfl
      · exact absurd h e
      · simp only [write]
        cases hc : collect { s with running := false, destroyed := true } info with
        | mk s1 r =>
          have hf : s1.files = s.files := by
            have : s1 = (collect { s with running := false, destroyed := true } info).1 := by rw [hc]
            rw [this]; rfl
          cases r <;> first | exact hf | rfl
  · rfl

/-- The full statement: an event that arrives at a provider of a recorder during an interval is in the file that is written next. -/
def EveryEventWritten : Prop := ∀ (pre l : List Act) (s s' : State) (i : Nat) (j : J) (p : List Char) (t : Text) (es : List J) (info : Nat → List J), run {} pre = some s → s.running = true → s.providers[i]? = some .native →
  (∀ a ∈ l, a ≠ .startInterval ∧ a ≠ .stopInterval ∧ (∀ x, a ≠ .collect x) ∧ ∀ x y z, a ≠ .write x y z) → run s (.startInterval :: .arrive i j :: l) = some s' →
  (step s' (.write p true info)).1.files p = some t → read t = some (.arr es) → j ∈ es

theorem not_EveryEventWritten : ¬ EveryEventWritten := by
  intro h
  have hs : run {} [.addProvider .native, .start] = some { providers := [.native], sources := [{ prov := 0, kind := .native }], running := true } := rfl
  have hr : run { providers := [.native], sources := [{ prov := 0, kind := .native }], running := true } [.startInterval, .arrive 0 .null, .stop, .start] = some { providers := [.native], sources := [{ prov := 0, kind := .native }], running := true } := rfl
  obtain ⟨t, h1, h2⟩ := fresh_writes (s := { providers := [.native], sources := [{ prov := 0, kind := .native }], running := true }) (fun x hx => by rcases List.mem_singleton.1 hx with rfl; exact ⟨rfl, rfl⟩) ['f'] (fun _ => []) (by simp [infoOnly, AllClean])
  have := h [.addProvider .native, .start] [.stop, .start] _ _ 0 .null ['f'] t _ (fun _ => []) hs rfl rfl (by simp) hr h1 h2
  simp [infoOnly] at this

/-! ## Cases -/

/-- A recorder with a native, a general and an LTTng provider; one event arrives before the interval, two during it, one after it. -/
def example1 : List Act := [.addProvider .native, .addProvider .general, .addProvider .lttng, .start, .setupDumpFile ['d'], .arrive 0 (.bool false)]
def example2 : List Act := .startInterval :: [.arrive 0 .null, .addProvider .native, .arrive 2 .null, .arrive 0 (.bool true)] ++ .stopInterval :: [.arrive 0 (.bool false)]

example : Interval example2 [.arrive 0 .null, .addProvider .native, .arrive 2 .null, .arrive 0 (.bool true)] := .closed (by simp [Calm]) (by simp [Calm])

example : ∃ s s', run {} example1 = some s ∧ run s example2 = some s' ∧ s'.running = true ∧ s'.dump = ['d'] ∧ s'.destroyed = false ∧
    expected s.sources [.arrive 0 .null, .addProvider .native, .arrive 2 .null, .arrive 0 (.bool true)] (fun _ => [.arr []]) = [.null, .bool true, .arr [], .null] := ⟨_, _, rfl, rfl, rfl, rfl, rfl, rfl⟩

example : Bad (.arr [.null, .obj [(some ['n'], .str none)]]) := .arr (.tail _ (.head _)) (.value (.head _) .str)

example : ∃ s s', run {} [.addProvider .native, .start] = some s ∧ run s [.startInterval, .arrive 0 (.str none)] = some s' ∧ (J.str none) ∈ expected s.sources [.arrive 0 (.str none)] (fun _ => []) := ⟨_, _, rfl, rfl, .head _⟩

example : ∃ s, run {} [.addProvider .native, .start, .startInterval, .arrive 0 .null, .write ['a'] true (fun _ => []), .arrive 0 .null, .stop, .start, .stopInterval] = some s ∧ s.running = true ∧ infoOnly s.sources (fun _ => []) = [] := ⟨_, rfl, rfl, rfl⟩

end Scalopus.C139
