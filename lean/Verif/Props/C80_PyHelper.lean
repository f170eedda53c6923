import Verif.Model.PyHelper

/-!
# C80: the helper gives one context per name
-/

namespace Scalopus.C80

open PyHelper

/-- **C80** in full, first part: whatever name is asked for, what is given is a context of the helper's kind with the prefix and that name. -/
def GivesContext : Prop := ∀ (h : Helper) (l : List Act) (s : State), run h {} l = some s → ∀ name v, (name, v) ∈ s.log → ∃ i, v = .ctx i ∧ s.ctxs[i]? = some ⟨h.prefix' ++ name, h.kind⟩

/-- **C80** in full, second part: the same name always gives the same context. -/
def OnePerName : Prop := ∀ (h : Helper) (l : List Act) (s : State), run h {} l = some s → ∀ name v w, (name, v) ∈ s.log → (name, w) ∈ s.log → v = w

/-- The names that cannot be used: attributes that the helper has anyway. -/
def Reserved (h : Helper) (name : String) : Prop := name = "ctx_type" ∨ name = "prefix" ∨ name ∈ h.classAttrs

theorem run_cons {h : Helper} {s s' : State} {a : Act} {l : List Act} (e : run h s (a :: l) = some s') : ∃ m, step h s a = some m ∧ run h m l = some s' := by
  simp only [run, Option.bind_eq_some_iff] at e
  exact e

theorem run_keeps {h : Helper} {P : State → Prop} (hp : ∀ s a s', P s → step h s a = some s' → P s') : ∀ (l : List Act) (s s' : State), P s → run h s l = some s' → P s' := by
  intro l
  induction l with
  | nil => intro s s' h e; simp only [run, Option.some.injEq] at e; exact e ▸ h
  | cons a l ih =>
    intro s s' h e
    obtain ⟨m, e1, e2⟩ := run_cons e
    exact ih m s' (hp s a m h e1) e2

/-- Every context is stored, and about to be stored, under its own name. -/
structure Inv (h : Helper) (s : State) : Prop where
  attrs : ∀ name i, (name, i) ∈ s.attrs → s.ctxs[i]? = some ⟨h.prefix' ++ name, h.kind⟩
  thr : ∀ t name i, s.thr t = .storing name i → s.ctxs[i]? = some ⟨h.prefix' ++ name, h.kind⟩
  log : ∀ name v, (name, v) ∈ s.log → ¬ Reserved h name → ∃ i, v = .ctx i ∧ s.ctxs[i]? = some ⟨h.prefix' ++ name, h.kind⟩

theorem lookup_mem {name : String} {i : Nat} : ∀ {l : List (String × Nat)}, l.lookup name = some i → (name, i) ∈ l := by
  intro l
  induction l with
  | nil => intro h; simp at h
  | cons x l ih =>
    intro h
    rw [List.lookup_cons] at h
    split at h
    · rename_i hx
      simp only [Option.some.injEq] at h
      simp only [beq_iff_eq] at hx
      subst h; subst hx
      exact List.mem_cons_self
    · exact List.mem_cons_of_mem _ (ih h)

theorem Inv.step {h : Helper} {s s' : State} {a : Act} (hi : Inv h s) (e : step h s a = some s') : Inv h s' := by
  obtain ⟨h1, h2, h3⟩ := hi
  cases a with
  | get t name =>
    simp only [PyHelper.step] at e
    split at e
    · cases hl : lookup h s name with
      | none =>
        rw [hl] at e
        simp only [Option.some.injEq] at e
        subst e
        refine ⟨h1, ?_, h3⟩
        intro u n i hu
        simp only [State.set] at hu
        split at hu
        · exact absurd hu (by simp)
        · exact h2 u n i hu
      | some v =>
        rw [hl] at e
        simp only [Option.some.injEq] at e
        subst e
        refine ⟨h1, h2, ?_⟩
        intro n w hm hr
        simp only [List.mem_cons, Prod.mk.injEq] at hm
        rcases hm with ⟨rfl, rfl⟩ | hm
        · simp only [Reserved, not_or] at hr
          unfold lookup at hl
          rw [if_neg hr.1, if_neg hr.2.1] at hl
          cases ha : s.attrs.lookup n with
          | none => rw [ha] at hl; simp only [if_neg hr.2.2, reduceCtorEq] at hl
          | some i =>
            rw [ha] at hl
            simp only [Option.some.injEq] at hl
            exact ⟨i, hl.symm, h1 n i (lookup_mem ha)⟩
        · exact h3 n w hm hr
    · exact absurd e (by simp)
  | make t =>
    simp only [PyHelper.step] at e
    split at e
    · rename_i name hn
      simp only [Option.some.injEq] at e
      subst e
      have grow : ∀ (i : Nat) (c : Ctx), s.ctxs[i]? = some c → (s.ctxs ++ [⟨h.prefix' ++ name, h.kind⟩])[i]? = some c := by
        intro i c hc
        rw [List.getElem?_append_left (List.getElem?_eq_some_iff.mp hc).1]; exact hc
      refine ⟨fun n i hm => grow _ _ (h1 n i hm), ?_, ?_⟩
      · intro u n i hu
        simp only [State.set] at hu
        split at hu
        · simp only [Pc.storing.injEq] at hu
          obtain ⟨rfl, rfl⟩ := hu
          simp
        · exact grow _ _ (h2 u n i hu)
      · intro n v hm hr
        obtain ⟨i, hv, hc⟩ := h3 n v hm hr
        exact ⟨i, hv, grow _ _ hc⟩
    · exact absurd e (by simp)
  | store t =>
    simp only [PyHelper.step] at e
    split at e
    · rename_i name i hn
      simp only [Option.some.injEq] at e
      subst e
      have hc := h2 t name i hn
      refine ⟨?_, ?_, ?_⟩
      · intro n j hm
        simp only [List.mem_cons, Prod.mk.injEq, List.mem_filter] at hm
        rcases hm with ⟨rfl, rfl⟩ | hm
        · exact hc
        · exact h1 n j hm.1
      · intro u n j hu
        simp only [State.set] at hu
        split at hu
        · exact absurd hu (by simp)
        · exact h2 u n j hu
      · intro n v hm hr
        simp only [List.mem_cons, Prod.mk.injEq] at hm
        rcases hm with ⟨rfl, rfl⟩ | hm
        · exact ⟨i, rfl, hc⟩
        · exact h3 n v hm hr
    · exact absurd e (by simp)

theorem Inv.run {h : Helper} {l : List Act} {s : State} (e : run h {} l = some s) : Inv h s :=
  run_keeps (P := Inv h) (fun _ _ _ hi e => hi.step e) l {} s ⟨by simp, by simp, by simp⟩ e

/-- **C80, partial.** Any number of threads may ask for contexts at the same time: for a name that is not an attribute that the helper has anyway, what is given is a context of the helper's kind with the
    prefix and that name. Missing: the reserved names, see `reserved_gives_no_context`. -/
theorem gives_context_partial (h : Helper) (l : List Act) (s : State) (e : run h {} l = some s) (name : String) (v : Val) (hm : (name, v) ∈ s.log) (hr : ¬ Reserved h name) :
    ∃ i, v = .ctx i ∧ s.ctxs[i]? = some ⟨h.prefix' ++ name, h.kind⟩ := (Inv.run e).log name v hm hr

/-- **C80.** Different names never share a context. -/
theorem different_names_differ (h : Helper) (l : List Act) (s : State) (e : run h {} l = some s) (name name' : String) (v w : Val) (hm : (name, v) ∈ s.log) (hm' : (name', w) ∈ s.log)
    (hr : ¬ Reserved h name) (hr' : ¬ Reserved h name') (hne : name ≠ name') : v ≠ w := by
  intro hvw
  obtain ⟨i, h1, h2⟩ := (Inv.run e).log name v hm hr
  obtain ⟨j, h3, h4⟩ := (Inv.run e).log name' w hm' hr'
  rw [h1, h3] at hvw
  simp only [Val.ctx.injEq] at hvw
  rw [hvw, h4] at h2
  simp only [Option.some.injEq, Ctx.mk.injEq, and_true] at h2
  exact hne ((String.append_right_inj _).mp h2).symm

/-- **C80 fails** for every name that the helper has as an attribute: what is given is no context. -/
theorem reserved_gives_no_context (h : Helper) (name : String) (hr : Reserved h name) : ∃ s v, run h {} [.get 0 name] = some s ∧ (name, v) ∈ s.log ∧ ∀ i, v ≠ .ctx i := by
  have hl : ∃ v, lookup h {} name = some v ∧ ∀ i, v ≠ .ctx i := by
    unfold lookup
    by_cases h1 : name = "ctx_type"
    · exact ⟨_, if_pos h1, by simp⟩
    · rw [if_neg h1]
      by_cases h2 : name = "prefix"
      · exact ⟨_, if_pos h2, by simp⟩
      · rw [if_neg h2]
        rcases hr with h | h | h
        · exact absurd h h1
        · exact absurd h h2
        · exact ⟨.method, by simp [h], by simp⟩
  obtain ⟨v, hv, hn⟩ := hl
  refine ⟨{ ({} : State) with log := [(name, v)] }, v, ?_, List.mem_cons_self, hn⟩
  simp [run, step, hv]

theorem not_GivesContext : ¬ GivesContext := by
  intro hg
  obtain ⟨s, v, e, hm, hn⟩ := reserved_gives_no_context ⟨"", "TraceContext", []⟩ "prefix" (Or.inr (Or.inl rfl))
  obtain ⟨i, hi, _⟩ := hg _ _ s e _ v hm
  exact hn i hi

/-- Two threads that ask for the same new name at the same time. -/
def twice : List Act := [.get 0 "work", .get 1 "work", .make 0, .make 1, .store 0, .store 1]

/-- **C80 fails:** two threads that ask for a new name at the same time get different contexts. -/
theorem not_OnePerName : ¬ OnePerName := by
  intro ho
  have := ho ⟨"", "TraceContext", []⟩ twice _ rfl "work" (.ctx 1) (.ctx 0) (by decide) (by decide)
  exact absurd this (by decide)

/-- One thread only: what it was given for a name is what is stored for it. -/
structure Seq (h : Helper) (t : Nat) (s : State) : Prop where
  log : ∀ name i, (name, Val.ctx i) ∈ s.log → s.attrs.lookup name = some i
  thr : ∀ name, (s.thr t = .making name ∨ ∃ i, s.thr t = .storing name i) → s.attrs.lookup name = none
  others : ∀ u, u ≠ t → s.thr u = .idle

theorem lookup_filter_ne {name n : String} (hne : n ≠ name) : ∀ (l : List (String × Nat)), (l.filter (fun x => x.1 ≠ name)).lookup n = l.lookup n := by
  intro l
  induction l with
  | nil => rfl
  | cons x l ih =>
    by_cases hx : x.1 = name
    · rw [List.filter_cons_of_neg (by simpa using hx), ih, List.lookup_cons]
      have : (n == x.1) = false := by rw [hx]; simpa using hne
      rw [this]
    · rw [List.filter_cons_of_pos (by simpa using hx), List.lookup_cons, List.lookup_cons, ih]

theorem Seq.step {h : Helper} {t : Nat} {s s' : State} {a : Act} (hs : Seq h t s) (ha : a.thread = t) (e : PyHelper.step h s a = some s') : Seq h t s' := by
  obtain ⟨h1, h2, h3⟩ := hs
  cases a with
  | get u name =>
    simp only [Act.thread] at ha
    subst ha
    simp only [PyHelper.step] at e
    split at e
    · rename_i hidle
      cases hl : lookup h s name with
      | none =>
        rw [hl] at e
        simp only [Option.some.injEq] at e
        subst e
        refine ⟨h1, ?_, fun v hv => by simp [State.set, hv, h3 v hv]⟩
        intro n hn
        simp only [State.set, if_true, Pc.making.injEq, reduceCtorEq, exists_false, or_false] at hn
        subst hn
        unfold lookup at hl
        split at hl
        · exact absurd hl (by simp)
        · split at hl
          · exact absurd hl (by simp)
          · show s.attrs.lookup name = none
            cases ha : s.attrs.lookup name with
            | none => rfl
            | some i => rw [ha] at hl; exact absurd hl (by simp)
      | some v =>
        rw [hl] at e
        simp only [Option.some.injEq] at e
        subst e
        refine ⟨?_, h2, h3⟩
        intro n i hm
        simp only [List.mem_cons, Prod.mk.injEq] at hm
        rcases hm with ⟨rfl, rfl⟩ | hm
        · unfold lookup at hl
          split at hl
          · exact absurd hl (by simp)
          · split at hl
            · exact absurd hl (by simp)
            · cases ha : s.attrs.lookup n with
              | none =>
                rw [ha] at hl
                simp only at hl
                split at hl <;> exact absurd hl (by simp)
              | some j => rw [ha] at hl; simp only [Option.some.injEq, Val.ctx.injEq] at hl; rw [← hl]
        · exact h1 n i hm
    · exact absurd e (by simp)
  | make u =>
    simp only [Act.thread] at ha
    subst ha
    simp only [PyHelper.step] at e
    split at e
    · rename_i name hn
      simp only [Option.some.injEq] at e
      subst e
      refine ⟨h1, ?_, fun v hv => by simp [State.set, hv, h3 v hv]⟩
      intro n hn'
      simp only [State.set, if_true, reduceCtorEq, false_or, Pc.storing.injEq] at hn'
      obtain ⟨i, rfl, _⟩ := hn'
      exact h2 name (Or.inl hn)
    · exact absurd e (by simp)
  | store u =>
    simp only [Act.thread] at ha
    subst ha
    simp only [PyHelper.step] at e
    split at e
    · rename_i name i hn
      simp only [Option.some.injEq] at e
      subst e
      have hnone := h2 name (Or.inr ⟨i, hn⟩)
      refine ⟨?_, ?_, fun v hv => by simp [State.set, hv, h3 v hv]⟩
      · intro n j hm
        simp only [List.mem_cons, Prod.mk.injEq, Val.ctx.injEq] at hm
        simp only
        rw [List.lookup_cons]
        rcases hm with ⟨rfl, rfl⟩ | hm
        · simp
        · by_cases hne : n = name
          · rw [hne] at hm
            rw [h1 name j hm] at hnone
            exact absurd hnone (by simp)
          · have : (n == name) = false := by simpa using hne
            rw [this]
            simp only
            rw [lookup_filter_ne hne]
            exact h1 n j hm
      · intro n hn'
        simp [State.set] at hn'
    · exact absurd e (by simp)

theorem Seq.run {h : Helper} {t : Nat} : ∀ (l : List Act) (s s' : State), Seq h t s → (∀ a ∈ l, a.thread = t) → PyHelper.run h s l = some s' → Seq h t s' := by
  intro l
  induction l with
  | nil => intro s s' hs _ e; simp only [PyHelper.run, Option.some.injEq] at e; exact e ▸ hs
  | cons a l ih =>
    intro s s' hs ha e
    obtain ⟨m, e1, e2⟩ := run_cons e
    exact ih m s' (hs.step (ha a List.mem_cons_self) e1) (fun b hb => ha b (List.mem_cons_of_mem _ hb)) e2

/-- **C80, partial.** Used by one thread, the helper always gives the same context for the same name. Missing: threads that ask for a new name at the same time, see `not_OnePerName`. -/
theorem one_per_name_partial (h : Helper) (t : Nat) (l : List Act) (s : State) (hl : ∀ a ∈ l, a.thread = t) (e : run h {} l = some s) (name : String) (hr : ¬ Reserved h name) (v w : Val)
    (hv : (name, v) ∈ s.log) (hw : (name, w) ∈ s.log) : v = w := by
  have hs := Seq.run (h := h) (t := t) l {} s ⟨by simp, by simp, by simp⟩ hl e
  obtain ⟨i, h1, _⟩ := (Inv.run e).log name v hv hr
  obtain ⟨j, h2, _⟩ := (Inv.run e).log name w hw hr
  subst h1; subst h2
  have := (hs.log name i hv).symm.trans (hs.log name j hw)
  simpa using this

/-- A helper with a prefix: one name asked for twice, another in between. -/
example : ∃ s, run ⟨"app.", "TraceContext", ["__init__", "__call__"]⟩ {} [.get 0 "work", .make 0, .store 0, .get 0 "idle", .make 0, .store 0, .get 0 "work"] = some s ∧
    s.log = [("work", .ctx 0), ("idle", .ctx 1), ("work", .ctx 0)] ∧ s.ctxs = [⟨"app.work", "TraceContext"⟩, ⟨"app.idle", "TraceContext"⟩] ∧
    ¬ Reserved ⟨"app.", "TraceContext", ["__init__", "__call__"]⟩ "work" :=
  ⟨_, rfl, by decide, by decide, by simp [Reserved]⟩

end Scalopus.C80
