import Verif.Model.RepeatedEnds

/-!
# C155: what was recorded is delivered once, and then released

A viewer may send its messages in any order. Native sources give every event at most once, to the first end that follows its arrival, and keep nothing afterwards. LTTng sources give all events of the last interval for every end, and
keep them until the next start or the end of the session.
-/

namespace Scalopus.C155
open RepeatedEnds

/-! ## What is to hold -/

/-- The events of this kind that arrive in a history. -/
def arrivals (k : Kind) (as : List Act) : List Nat := as.filterMap fun a => match a with
  | .arrive k' e => if k' = k then some e else none
  | _ => none

/-- The session takes no message. -/
def Quiet (as : List Act) : Prop := ∀ b, Act.message b ∉ as

/-- The session deals with a message: from idle to idle. -/
def Handles (s : State) (b : Bool) (as : List Act) (s' : State) : Prop := s.todo = [] ∧ Quiet as ∧ run s (.message b :: as) = some s' ∧ s'.todo = []

/-- What source `i` gave for an end. -/
def of (i : Nat) (l : List (Nat × Nat)) : List Nat := (l.filter fun p => p.1 = i).map (·.2)

/-- **C155** in full, first part: no source gives the viewer an event more often than it arrived. -/
def DeliveredOnce : Prop := ∀ kinds as s, run (init kinds) as = some s → ∀ i k e, kinds[i]? = some k →
  (of i s.shown.flatten).count e ≤ (arrivals k as).count e

/-- **C155** in full, second part: once an end has been dealt with, nothing is kept. -/
def Released : Prop := ∀ kinds as s bs s', run (init kinds) as = some s → Handles s false bs s' → ∀ x ∈ s'.sources, x.data = []

/-! ## Steps -/

theorem run_append (s : State) (as bs : List Act) : run s (as ++ bs) = (run s as).bind fun s => run s bs := by
  induction as generalizing s with
  | nil => rfl
  | cons a as ih =>
    simp only [List.cons_append, run]
    cases step s a with
    | none => rfl
    | some s => simpa using ih s

theorem quiet_cons {a : Act} {as : List Act} (h : Quiet (a :: as)) : Quiet as := fun b hb => h b (List.mem_cons_of_mem _ hb)

theorem arrivals_append (k : Kind) (as bs : List Act) : arrivals k (as ++ bs) = arrivals k as ++ arrivals k bs := by
  simp [arrivals]

theorem arrivals_work (k : Kind) (as : List Act) : arrivals k (.work :: as) = arrivals k as := rfl

theorem arrivals_arrive (k k' : Kind) (e : Nat) (as : List Act) : arrivals k (.arrive k' e :: as) = if k' = k then e :: arrivals k as else arrivals k as := by
  simp only [arrivals, List.filterMap_cons]
  by_cases h : k' = k <;> simp [h]

/-- A source while only events arrive. -/
def sees (x : Source) (l : List Nat) : Source := if x.recording then { x with data := x.data ++ l } else x

theorem sees_nil (x : Source) : sees x [] = x := by unfold sees; split <;> simp

theorem sees_sees (x : Source) (l m : List Nat) : sees (sees x l) m = sees x (l ++ m) := by
  unfold sees
  cases h : x.recording <;> simp [h]

theorem sees_kind (x : Source) (l : List Nat) : (sees x l).kind = x.kind := by unfold sees; split <;> rfl

theorem arrive_sees (x : Source) (k : Kind) (e : Nat) (as : List Act) : sees (x.arrive k e) (arrivals x.kind as) = sees x (arrivals x.kind (.arrive k e :: as)) := by
  rw [arrivals_arrive]
  unfold Source.arrive
  by_cases h : x.kind = k
  · subst h
    cases hr : x.recording <;> simp [sees, hr]
  · have h' : ¬ k = x.kind := fun e => h e.symm
    simp [h, h']

/-- Up to the next task only events arrive. -/
theorem to_task {s s' : State} {as : List Act} {t : Task} {l : List Task} (hq : Quiet as) (ht : s.todo = t :: l) (e : run s as = some s') (hl : s'.todo.length ≤ l.length) :
    ∃ as1 as2, as = as1 ++ .work :: as2 ∧ (∀ a ∈ as1, a ≠ .work) ∧
      run { s with sources := s.sources.map fun x => sees x (arrivals x.kind as1) } (.work :: as2) = some s' := by
  induction as generalizing s with
  | nil =>
    cases e
    rw [ht] at hl
    exact absurd hl (by simp)
  | cons a as ih =>
    cases a with
    | message b => exact absurd List.mem_cons_self (hq b)
    | work =>
      refine ⟨[], as, rfl, (fun a h => by cases h), ?_⟩
      have : (s.sources.map fun x => sees x (arrivals x.kind [])) = s.sources := by
        simp [arrivals, sees_nil]
      rw [this]; exact e
    | arrive k v =>
      simp only [run, step, Option.bind_some] at e
      obtain ⟨as1, as2, h1, h2, h3⟩ := ih (quiet_cons hq) (s := { s with sources := s.sources.map fun x => x.arrive k v }) ht e
      refine ⟨.arrive k v :: as1, as2, by rw [h1]; rfl, ?_, ?_⟩
      · intro a ha
        rcases List.mem_cons.1 ha with rfl | ha
        · exact fun h => by cases h
        · exact h2 a ha
      · rw [← h3, List.map_map]
        congr 2
        apply List.map_congr_left
        intro x _
        have hk : (x.arrive k v).kind = x.kind := by unfold Source.arrive; split <;> rfl
        simp only [Function.comp_apply, hk, arrive_sees]

/-- Only events arrive. -/
theorem only_arrivals {s s' : State} {as : List Act} (hq : Quiet as) (ht : s.todo = []) (e : run s as = some s') :
    s' = { s with sources := s.sources.map fun x => sees x (arrivals x.kind as) } := by
  induction as generalizing s with
  | nil =>
    cases e
    simp [arrivals, sees_nil]
  | cons a as ih =>
    cases a with
    | message b => exact absurd List.mem_cons_self (hq b)
    | work => simp [run, step, ht] at e
    | arrive k v =>
      simp only [run, step, Option.bind_some] at e
      rw [ih (quiet_cons hq) (s := { s with sources := s.sources.map fun x => x.arrive k v }) ht e]
      simp only [List.map_map]
      congr 1
      apply List.map_congr_left
      intro x _
      have hk : (x.arrive k v).kind = x.kind := by unfold Source.arrive; split <;> rfl
      simp only [Function.comp_apply, hk, arrive_sees]

theorem quiet_append {as bs : List Act} (h : Quiet (as ++ bs)) : Quiet as ∧ Quiet bs :=
  ⟨fun b hb => h b (List.mem_append_left _ hb), fun b hb => h b (List.mem_append_right _ hb)⟩

/-- What source `i` adds to the events that are sent. -/
def adds (g : Source → List Nat) (ss : List Source) (B : Nat → List Act) (i : Nat) : List (Nat × Nat) :=
  match ss[i]? with
  | none => []
  | some x => (g (sees x (arrivals x.kind (B i)))).map fun e => (i, e)

theorem get_map {α β : Type} {l : List α} {f : α → β} {i : Nat} {x : α} (h : l[i]? = some x) : (l.map f)[i]? = some (f x) := by simp [h]

/-- A phase in which the source `i` of every task of `l` is changed by `f`, and adds what `g` tells. -/
theorem phase (mk : Nat → Task) (f : Source → Source) (g : Source → List Nat) (hk : ∀ x, (f x).kind = x.kind)
    (hstep : ∀ (s : State) (i : Nat) (l : List Task), s.todo = mk i :: l →
      step s .work = some { (s.modify i f) with todo := l, out := s.out ++ (match s.sources[i]? with | none => [] | some x => (g x).map fun e => (i, e)) })
    (l : List Nat) (R : List Task) {s s' : State} {as : List Act} (hq : Quiet as) (ht : s.todo = l.map mk ++ R) (e : run s as = some s') (hl : s'.todo.length ≤ R.length) (hn : l.Nodup) :
    ∃ as1 as2 s1, as = as1 ++ as2 ∧ run s1 as2 = some s' ∧ s1.todo = R ∧ s1.shown = s.shown ∧ s1.sources.length = s.sources.length ∧ ∃ B : Nat → List Act, (∀ i, ∃ b, as1 = B i ++ b ∧
        ∀ x, s.sources[i]? = some x → s1.sources[i]? = some (if i ∈ l then sees (f (sees x (arrivals x.kind (B i)))) (arrivals x.kind b) else sees x (arrivals x.kind as1))) ∧
      s1.out = s.out ++ l.flatMap (adds g s.sources B) := by
  induction l generalizing s as with
  | nil =>
    refine ⟨[], as, s, rfl, e, ht, rfl, rfl, fun _ => [], fun i => ⟨[], rfl, ?_⟩, by simp⟩
    intro x hx
    simp [hx, arrivals, sees_nil]
  | cons i l ih =>
    rw [List.nodup_cons] at hn
    simp only [List.map_cons, List.cons_append] at ht
    obtain ⟨a1, a2, rfl, hw, e1⟩ := to_task hq ht e (by simp; omega)
    have hq2 : Quiet a2 := quiet_cons (quiet_append hq).2
    simp only [run] at e1
    rw [hstep _ i _ (by exact ht), Option.bind_some] at e1
    obtain ⟨c1, c2, s1, rfl, h2, h3, h4, h5, B, hB, h6⟩ := ih hq2 rfl e1 hn.2
    refine ⟨a1 ++ .work :: c1, c2, s1, by simp, h2, h3, h4, ?_, fun j => if j = i then a1 else a1 ++ .work :: B j, ?_, ?_⟩
    · rw [h5]; simp [State.modify]
    · intro j
      obtain ⟨b, hb, hx⟩ := hB j
      by_cases hj : j = i
      · subst hj
        refine ⟨.work :: c1, by simp, ?_⟩
        intro x h
        have h' := hx (f (sees x (arrivals x.kind a1))) (by simp [State.modify, h])
        rw [if_neg hn.1, hk, sees_kind] at h'
        rw [h']
        simp [arrivals_work]
      · refine ⟨b, by simp [hj, hb], ?_⟩
        intro x h
        have h' := hx (sees x (arrivals x.kind a1)) (by simp [State.modify, h, Ne.symm hj])
        rw [sees_kind, sees_sees, sees_sees] at h'
        rw [h']
        simp only [hj, if_false, List.mem_cons, false_or, arrivals_append, arrivals_work]
    · rw [h6]
      simp only [List.flatMap_cons, ← List.append_assoc]
      congr 1
      · congr 1
        simp only [adds, if_true, List.getElem?_map]
        cases s.sources[i]? <;> rfl
      · rw [List.flatMap_def, List.flatMap_def]
        congr 1
        apply List.map_congr_left
        intro j hj
        have hne : j ≠ i := fun h => hn.1 (h ▸ hj)
        simp only [adds, hne, if_false, State.modify]
        rw [List.getElem?_modify_ne _ _ (Ne.symm hne), List.getElem?_map]
        cases s.sources[j]? with
        | none => rfl
        | some x => simp [sees_kind, sees_sees, arrivals_append, arrivals_work]

theorem start_phase : ∀ (s : State) (i : Nat) (l : List Task), s.todo = Task.start i :: l →
    step s .work = some { (s.modify i Source.start) with todo := l, out := s.out ++ (match s.sources[i]? with | none => [] | some x => ((fun _ => ([] : List Nat)) x).map fun e => (i, e)) } := by
  intro s i l h
  simp only [step, h]
  cases s.sources[i]? <;> simp [State.modify]

theorem stop_phase : ∀ (s : State) (i : Nat) (l : List Task), s.todo = Task.stop i :: l →
    step s .work = some { (s.modify i Source.stop) with todo := l, out := s.out ++ (match s.sources[i]? with | none => [] | some x => ((fun _ => ([] : List Nat)) x).map fun e => (i, e)) } := by
  intro s i l h
  simp only [step, h]
  cases s.sources[i]? <;> simp [State.modify]

theorem finish_phase : ∀ (s : State) (i : Nat) (l : List Task), s.todo = Task.finish i :: l →
    step s .work = some { (s.modify i fun x => x.finish.1) with todo := l, out := s.out ++ (match s.sources[i]? with | none => [] | some x => ((fun x : Source => x.finish.2) x).map fun e => (i, e)) } := by
  intro s i l h
  simp only [step, h]
  cases hx : s.sources[i]? with
  | none =>
    have : s.sources.modify i (fun x => x.finish.1) = s.sources := List.modify_eq_self (by simpa using hx)
    simp [State.modify, this]
  | some x => simp

/-! ## Messages -/

theorem of_append (i : Nat) (l m : List (Nat × Nat)) : of i (l ++ m) = of i l ++ of i m := by simp [of]

theorem of_map_self (i : Nat) (l : List Nat) : of i (l.map fun e => (i, e)) = l := by
  induction l with
  | nil => rfl
  | cons e l ih => simpa [of] using ih

theorem of_map_ne {i j : Nat} (h : j ≠ i) (l : List Nat) : of i (l.map fun e => (j, e)) = [] := by
  induction l with
  | nil => rfl
  | cons e l ih => simpa [of, h] using ih

theorem of_flatMap (i : Nat) (f : Nat → List Nat) (l : List Nat) (hn : l.Nodup) : of i (l.flatMap fun j => (f j).map fun e => (j, e)) = if i ∈ l then f i else [] := by
  induction l with
  | nil => rfl
  | cons j l ih =>
    rw [List.nodup_cons] at hn
    rw [List.flatMap_cons, of_append, ih hn.2]
    by_cases h : j = i
    · subst h
      rw [of_map_self, if_neg hn.1]; simp
    · rw [of_map_ne h]
      simp [Ne.symm h]

/-- A start: every source forgets what it had, and records from some moment on. -/
theorem start_shape {s s' : State} {as : List Act} (h : Handles s true as s') :
    s'.shown = s.shown ∧ s'.out = s.out ∧ s'.sources.length = s.sources.length ∧
      ∀ (i : Nat) (x : Source), s.sources[i]? = some x → ∃ b1 b2, as = b1 ++ b2 ∧ s'.sources[i]? = some { kind := x.kind, recording := true, data := arrivals x.kind b2 } := by
  obtain ⟨h0, hq, e, h1⟩ := h
  simp only [run, step, h0, if_true, Option.bind_some] at e
  obtain ⟨as1, as2, s1, rfl, e2, t2, sh2, ln2, B, hB, ho⟩ := phase Task.start Source.start (fun _ => []) (fun x => rfl) start_phase (List.range s.sources.length) [] hq
    (by simp [tasks]) e (by rw [h1]; exact Nat.le_refl _) List.nodup_range
  have e3 := only_arrivals (quiet_append hq).2 t2 e2
  have hz : ∀ l : List Nat, l.flatMap (adds (fun _ => []) s.sources B) = [] := by
    intro l
    rw [List.flatMap_eq_nil_iff]
    intro i _
    unfold adds
    split <;> rfl
  subst e3
  refine ⟨sh2, by rw [ho, hz]; simp, by simp [ln2], ?_⟩
  intro i x hx
  obtain ⟨b, hb, hb2⟩ := hB i
  refine ⟨B i, b ++ as2, by rw [hb]; simp, ?_⟩
  have hi : i ∈ List.range s.sources.length := List.mem_range.2 (List.getElem?_eq_some_iff.1 hx).1
  rw [get_map (hb2 x hx), if_pos hi]
  cases hr : x.recording <;> simp [sees, Source.start, arrivals_append, hr]

/-- An end: every source stops at some moment, and then gives what it has. -/
theorem end_shape {s s' : State} {as : List Act} (h : Handles s false as s') :
    ∃ D : Nat → List Nat, s'.shown = s.shown ++ [s.out ++ (List.range s.sources.length).flatMap fun i => (D i).map fun e => (i, e)] ∧ s'.out = [] ∧ s'.sources.length = s.sources.length ∧
      ∀ (i : Nat) (x : Source), s.sources[i]? = some x → (∃ b1 b2, as = b1 ++ b2 ∧ D i = x.data ++ if x.recording then arrivals x.kind b1 else []) ∧
        s'.sources[i]? = some { kind := x.kind, recording := false, data := if x.kind = .native then [] else D i } := by
  obtain ⟨h0, hq, e, h1⟩ := h
  simp only [run, step, h0, if_true, Option.bind_some] at e
  obtain ⟨as1, as2, s1, rfl, e2, t2, sh2, ln2, B, hB, ho⟩ := phase Task.stop Source.stop (fun _ => []) (fun x => rfl) stop_phase (List.range s.sources.length)
    ((List.range s.sources.length).map .finish ++ [.send]) hq (by simp [tasks]) e (by rw [h1]; exact Nat.zero_le _) List.nodup_range
  have hq2 := (quiet_append hq).2
  have hz : ∀ l : List Nat, l.flatMap (adds (fun _ => []) s.sources B) = [] := by
    intro l
    rw [List.flatMap_eq_nil_iff]
    intro i _
    unfold adds
    split <;> rfl
  have hstop : ∀ (i : Nat) (x : Source), s.sources[i]? = some x → s1.sources[i]? = some { x with recording := false, data := x.data ++ if x.recording then arrivals x.kind (B i) else [] } := by
    intro i x hx
    obtain ⟨b, hb, hb2⟩ := hB i
    have hi : i ∈ List.range s.sources.length := List.mem_range.2 (List.getElem?_eq_some_iff.1 hx).1
    rw [hb2 x hx, if_pos hi]
    cases hr : x.recording <;> simp [sees, Source.stop, hr]
  have hfk : ∀ x : Source, (x.finish.1).kind = x.kind := by
    intro x; unfold Source.finish; cases x.kind <;> rfl
  obtain ⟨cs1, cs2, s2, rfl, e3, t3, sh3, ln3, C, hC, ho3⟩ := phase Task.finish (fun x => x.finish.1) (fun x => x.finish.2) hfk finish_phase (List.range s.sources.length)
    [.send] hq2 t2 e2 (by rw [h1]; exact Nat.zero_le _) List.nodup_range
  obtain ⟨ds1, ds2, rfl, hw, e4⟩ := to_task (quiet_append hq2).2 t3 e3 (by rw [h1]; exact Nat.le_refl _)
  have hq4 : Quiet ds2 := quiet_cons (quiet_append (quiet_append hq2).2).2
  simp only [run, step, t3, Option.bind_some] at e4
  have e5 := only_arrivals hq4 rfl e4
  simp only at e5
  let D : Nat → List Nat := fun i => match s1.sources[i]? with
    | none => []
    | some x => x.data
  have hD : ∀ (i : Nat) (x : Source), s.sources[i]? = some x → D i = x.data ++ if x.recording then arrivals x.kind (B i) else [] := by
    intro i x hx
    simp only [D, hstop i x hx]
  have hout : s2.out = s.out ++ (List.range s.sources.length).flatMap fun i => (D i).map fun e => (i, e) := by
    rw [ho3, ho, hz, List.append_nil]
    congr 1
    rw [List.flatMap_def, List.flatMap_def]
    congr 1
    apply List.map_congr_left
    intro i hi
    obtain ⟨x, hx⟩ : ∃ x, s.sources[i]? = some x := ⟨_, List.getElem?_eq_getElem (List.mem_range.1 hi)⟩
    simp only [adds, D, hstop i x hx, sees, Source.finish]
    cases x.kind <;> simp
  refine ⟨D, ?_, by rw [e5], by rw [e5]; simp [ln3, ln2], ?_⟩
  · rw [e5]
    simp only [sh3, sh2, hout]
  · intro i x hx
    obtain ⟨b, hb, hb2⟩ := hB i
    obtain ⟨c, hc, hc2⟩ := hC i
    refine ⟨⟨B i, b ++ (cs1 ++ (ds1 ++ .work :: ds2)), by rw [hb]; simp, hD i x hx⟩, ?_⟩
    have hi : i ∈ List.range s.sources.length := List.mem_range.2 (List.getElem?_eq_some_iff.1 hx).1
    have h2 := hc2 _ (hstop i x hx)
    rw [if_pos hi] at h2
    rw [e5]
    simp only [List.map_map]
    rw [get_map h2]
    cases hk : x.kind <;> simp [sees, Source.finish, hk, hD i x hx]

/-! ## Reachable states -/

/-- The kinds of the sources do not change, and nothing is left over when the session is idle. -/
structure Inv (kinds : List Kind) (s : State) : Prop where
  kinds : s.sources.map (·.kind) = kinds
  out : s.out ≠ [] → s.todo.getLast? = some .send
  last : ∀ i, Task.finish i ∈ s.todo → s.todo.getLast? = some .send

theorem map_modify_kind (l : List Source) (i : Nat) (f : Source → Source) (h : ∀ x, (f x).kind = x.kind) : (l.modify i f).map (·.kind) = l.map (·.kind) := by
  apply List.ext_getElem?
  intro j
  simp only [List.getElem?_map, List.getElem?_modify]
  cases l[j]? with
  | none => rfl
  | some x => by_cases hj : i = j <;> simp [hj, h]

theorem finish_kind (x : Source) : (x.finish.1).kind = x.kind := by unfold Source.finish; cases x.kind <;> rfl

theorem arrive_kind (x : Source) (k : Kind) (e : Nat) : (x.arrive k e).kind = x.kind := by unfold Source.arrive; split <;> rfl

theorem last_tail {t : Task} {l : List Task} (h : (t :: l).getLast? = some .send) (ht : t ≠ .send) : l.getLast? = some .send := by
  cases l with
  | nil => exact absurd (by simpa using h) ht
  | cons a l => simpa [List.getLast?_cons_cons] using h

theorem inv_step {kinds : List Kind} {s s' : State} {a : Act} (h : Inv kinds s) (e : step s a = some s') : Inv kinds s' := by
  cases a with
  | message b =>
    simp only [step] at e
    split at e
    · cases e
      refine ⟨h.kinds, ?_, ?_⟩
      · intro ho
        have := h.out ho
        simp_all
      · intro i hi
        cases b with
        | true => simp [tasks] at hi
        | false => simp [tasks, List.getLast?_append]
    · cases e
  | arrive k v =>
    cases e
    refine ⟨?_, h.out, h.last⟩
    rw [← h.kinds, List.map_map]
    exact List.map_congr_left fun x _ => arrive_kind x k v
  | work =>
    simp only [step] at e
    cases ht : s.todo with
    | nil => rw [ht] at e; cases e
    | cons t l =>
      rw [ht] at e
      have ho := h.out
      have hl := h.last
      rw [ht] at ho hl
      cases t with
      | start i =>
        cases e
        exact ⟨by rw [← h.kinds]; exact map_modify_kind _ _ _ fun _ => rfl, fun hh => last_tail (ho hh) (fun x => by cases x), fun j hj => last_tail (hl j (List.mem_cons_of_mem _ hj)) (fun x => by cases x)⟩
      | stop i =>
        cases e
        exact ⟨by rw [← h.kinds]; exact map_modify_kind _ _ _ fun _ => rfl, fun hh => last_tail (ho hh) (fun x => by cases x), fun j hj => last_tail (hl j (List.mem_cons_of_mem _ hj)) (fun x => by cases x)⟩
      | finish i =>
        have hlast : l.getLast? = some .send := last_tail (hl i List.mem_cons_self) (fun x => by cases x)
        cases hx : s.sources[i]? with
        | none =>
          simp only [hx] at e
          cases e
          exact ⟨h.kinds, fun _ => hlast, fun _ _ => hlast⟩
        | some x =>
          simp only [hx] at e
          cases e
          exact ⟨by rw [← h.kinds]; exact map_modify_kind _ _ _ finish_kind, fun _ => hlast, fun _ _ => hlast⟩
      | send =>
        cases e
        refine ⟨h.kinds, fun hh => absurd rfl hh, ?_⟩
        intro j hj
        have := hl j (List.mem_cons_of_mem _ hj)
        cases l with
        | nil => cases hj
        | cons a l => simpa [List.getLast?_cons_cons] using this

theorem inv_run {kinds : List Kind} {as : List Act} : ∀ {s s' : State}, Inv kinds s → run s as = some s' → Inv kinds s' := by
  induction as with
  | nil => intro s s' h e; cases e; exact h
  | cons a as ih =>
    intro s s' h e
    simp only [run] at e
    obtain ⟨s1, e1, e2⟩ := Option.bind_eq_some_iff.1 e
    exact ih (inv_step h e1) e2

theorem inv_init (kinds : List Kind) : Inv kinds (init kinds) :=
  ⟨by simp [init, List.map_map, Function.comp_def], fun h => absurd rfl h, fun i h => by cases h⟩

theorem out_idle {kinds : List Kind} {s : State} (h : Inv kinds s) (h0 : s.todo = []) : s.out = [] := by
  by_cases ho : s.out = []
  · exact ho
  · have := h.out ho
    rw [h0] at this
    cases this

theorem kind_at {kinds : List Kind} {s : State} (h : Inv kinds s) {i : Nat} {k : Kind} (hi : kinds[i]? = some k) : ∃ x, s.sources[i]? = some x ∧ x.kind = k := by
  rw [← h.kinds, List.getElem?_map] at hi
  exact Option.map_eq_some_iff.1 hi

theorem handles_run {s s' : State} {b : Bool} {as : List Act} (h : Handles s b as s') : run s (.message b :: as) = some s' := h.2.2.1

/-! ## What the viewer gets -/

/-- **C155, what an end delivers.** A session with any sources deals with a start, events arrive, and it deals with an end: the viewer gets, of every source, all that arrived between the two, in order; what arrived while the session was
    dealing with the start is there from some moment on, and what arrived while it was dealing with the end up to some moment. -/
theorem recorded {kinds : List Kind} {as bs cs ds : List Act} {s s1 s2 s3 : State} (e : run (init kinds) as = some s) (h1 : Handles s true bs s1) (hc : Quiet cs) (e2 : run s1 cs = some s2) (h3 : Handles s2 false ds s3) :
    ∃ X, s3.shown = s.shown ++ [X] ∧ ∀ i k, kinds[i]? = some k → ∃ x y, of i X = x ++ (arrivals k cs ++ y) ∧ x <:+ arrivals k bs ∧ y <+: arrivals k ds := by
  have i0 := inv_run (inv_init kinds) e
  have i1 := inv_run i0 (handles_run h1)
  have i2 := inv_run i1 e2
  obtain ⟨a1, a2, a3, a4⟩ := start_shape h1
  have hs2 := only_arrivals hc h1.2.2.2 e2
  obtain ⟨D, d1, d2, d3, d4⟩ := end_shape h3
  have hsh : s2.shown = s.shown := by rw [hs2]; exact a1
  refine ⟨_, by rw [d1, out_idle i2 h3.1, List.nil_append, hsh], ?_⟩
  intro i k hi
  obtain ⟨x, hx, hk⟩ := kind_at i0 hi
  obtain ⟨b1, b2, hb, hx1⟩ := a4 i x hx
  have hx2 : s2.sources[i]? = some { kind := k, recording := true, data := arrivals k b2 ++ arrivals k cs } := by
    rw [hs2]
    simp only
    rw [get_map hx1, ← hk]
    simp [sees]
  obtain ⟨⟨c1, c2, hcs, hD⟩, _⟩ := d4 i _ hx2
  have hi2 : i ∈ List.range s2.sources.length := List.mem_range.2 (List.getElem?_eq_some_iff.1 hx2).1
  refine ⟨arrivals k b2, arrivals k c1, ?_, ⟨arrivals k b1, ?_⟩, ⟨arrivals k c2, ?_⟩⟩
  · rw [of_flatMap _ _ _ List.nodup_range, if_pos hi2, hD]
    simp
  · rw [hb, arrivals_append]
  · rw [hcs, arrivals_append]

/-- **C155, partial: native sources deliver once.** Whatever the viewer sends, and whenever: no native source gives it an event more often than it arrived. Missing: LTTng sources. -/
theorem delivered_once_partial {kinds : List Kind} {as : List Act} {s : State} (e : run (init kinds) as = some s) (i e0 : Nat) (hi : kinds[i]? = some .native) :
    (of i s.shown.flatten).count e0 ≤ (arrivals .native as).count e0 := by
  suffices H : ∀ (as : List Act) (s s' : State), Inv kinds s → run s as = some s' → ∀ x, s.sources[i]? = some x → ∃ x', s'.sources[i]? = some x' ∧
      (of i (s'.shown.flatten ++ s'.out)).count e0 + x'.data.count e0 ≤ (of i (s.shown.flatten ++ s.out)).count e0 + x.data.count e0 + (arrivals .native as).count e0 by
    obtain ⟨x, hx, hk⟩ := kind_at (inv_init kinds) hi
    obtain ⟨x', _, h⟩ := H as _ _ (inv_init kinds) e x hx
    have hd : x.data = [] := by
      simp only [init, List.getElem?_map] at hx
      obtain ⟨k, _, rfl⟩ := Option.map_eq_some_iff.1 hx
      rfl
    have h0 : (of i ((init kinds).shown.flatten ++ (init kinds).out)).count e0 = 0 := rfl
    rw [hd, of_append, List.count_append, h0, List.count_nil] at h
    omega
  intro as
  induction as with
  | nil => intro s s' _ e x hx; cases e; exact ⟨x, hx, by simp [arrivals]⟩
  | cons a as ih =>
    intro s s' hinv e x hx
    simp only [run] at e
    obtain ⟨s1, e1, e2⟩ := Option.bind_eq_some_iff.1 e
    have hk : x.kind = .native := by
      obtain ⟨y, hy, hk⟩ := kind_at hinv hi
      rw [hx] at hy; cases hy; exact hk
    suffices K : ∃ x1, s1.sources[i]? = some x1 ∧ (of i (s1.shown.flatten ++ s1.out)).count e0 + x1.data.count e0 ≤ (of i (s.shown.flatten ++ s.out)).count e0 + x.data.count e0 + (arrivals .native [a]).count e0 by
      obtain ⟨x1, hx1, h1⟩ := K
      obtain ⟨x', hx', h2⟩ := ih s1 s' (inv_step hinv e1) e2 x1 hx1
      refine ⟨x', hx', ?_⟩
      have : arrivals .native (a :: as) = arrivals .native [a] ++ arrivals .native as := arrivals_append _ [a] as
      rw [this, List.count_append]
      omega
    cases a with
    | message b =>
      simp only [step] at e1
      split at e1
      · cases e1; exact ⟨x, hx, by simp only; omega⟩
      · cases e1
    | arrive k v =>
      cases e1
      refine ⟨x.arrive k v, by simp [hx], ?_⟩
      unfold Source.arrive
      rw [hk]
      split
      · rename_i h
        rw [← h.1, arrivals_arrive]
        simp only [if_true, List.count_append, arrivals, List.filterMap_nil]
        omega
      · simp only; omega
    | work =>
      simp only [step] at e1
      cases ht : s.todo with
      | nil => rw [ht] at e1; cases e1
      | cons t l =>
        rw [ht] at e1
        cases t with
        | start j =>
          cases e1
          by_cases hj : j = i
          · subst hj
            exact ⟨x.start, by simp [State.modify, hx], by simp [Source.start]; simp only [State.modify]; omega⟩
          · exact ⟨x, by simp [State.modify, hx, hj], by simp only [State.modify]; omega⟩
        | stop j =>
          cases e1
          by_cases hj : j = i
          · subst hj
            exact ⟨x.stop, by simp [State.modify, hx], by simp only [State.modify, Source.stop]; omega⟩
          · exact ⟨x, by simp [State.modify, hx, hj], by simp only [State.modify]; omega⟩
        | finish j =>
          by_cases hj : j = i
          · subst hj
            simp only [hx] at e1
            cases e1
            refine ⟨x.finish.1, by simp [State.modify, hx], ?_⟩
            simp only [State.modify, Source.finish, hk]
            rw [← List.append_assoc, of_append, of_map_self, List.count_append]
            simp
          · cases hy : s.sources[j]? with
            | none => simp only [hy] at e1; cases e1; exact ⟨x, hx, by simp only; omega⟩
            | some y =>
              simp only [hy] at e1
              cases e1
              refine ⟨x, by simp [State.modify, hx, hj], ?_⟩
              simp only [State.modify]
              rw [← List.append_assoc, of_append, of_map_ne hj]
              simp
        | send =>
          cases e1
          exact ⟨x, hx, by simp⟩

/-- **C155, what another end delivers.** If a session deals with a second end before a new start, whatever arrives in between, the viewer gets from every LTTng source exactly the same as before, and nothing from the native ones. -/
theorem end_again {kinds : List Kind} {as bs cs ds : List Act} {s s1 s2 s3 : State} (e : run (init kinds) as = some s) (h1 : Handles s false bs s1) (hc : Quiet cs) (e2 : run s1 cs = some s2) (h3 : Handles s2 false ds s3) :
    ∃ X Y, s1.shown = s.shown ++ [X] ∧ s3.shown = s.shown ++ [X, Y] ∧ ∀ i k, kinds[i]? = some k → of i Y = if k = .lttng then of i X else [] := by
  have i0 := inv_run (inv_init kinds) e
  have i1 := inv_run i0 (handles_run h1)
  have i2 := inv_run i1 e2
  obtain ⟨C, c1, c2, c3, c4⟩ := end_shape h1
  have hs2 := only_arrivals hc h1.2.2.2 e2
  obtain ⟨D, d1, d2, d3, d4⟩ := end_shape h3
  refine ⟨_, _, c1, by rw [d1, hs2]; simp only [c1, List.append_assoc]; rfl, ?_⟩
  intro i k hi
  obtain ⟨x, hx, hk⟩ := kind_at i0 hi
  obtain ⟨_, hx1⟩ := c4 i x hx
  have hx2 : s2.sources[i]? = some { kind := x.kind, recording := false, data := if x.kind = .native then [] else C i } := by
    rw [hs2]
    simp only
    rw [get_map hx1]
    simp [sees]
  obtain ⟨⟨b1, b2, _, hD⟩, _⟩ := d4 i _ hx2
  have m1 : i < s.sources.length := (List.getElem?_eq_some_iff.1 hx).1
  have hl : s2.sources.length = s.sources.length := by rw [hs2]; simp [c3]
  have ho : s.out = [] := out_idle i0 h1.1
  have ho1 : s1.out = [] := c2
  rw [of_append, of_append, of_flatMap _ _ _ List.nodup_range, of_flatMap _ _ _ List.nodup_range, ho]
  simp only [ho1, List.length_map, c3, List.mem_range, m1, if_true, hD]
  subst hk
  cases hk : x.kind <;> simp [of]

/-- **C155, partial: what is kept.** When an end has been dealt with, the native sources keep nothing. Missing: LTTng sources. -/
theorem released_partial {kinds : List Kind} {as bs : List Act} {s s' : State} (e : run (init kinds) as = some s) (h : Handles s false bs s') : ∀ x ∈ s'.sources, x.kind = .native → x.data = [] := by
  intro x hx hk
  obtain ⟨C, c1, c2, c3, c4⟩ := end_shape h
  obtain ⟨i, hi⟩ := List.mem_iff_getElem?.1 hx
  have hlt : i < s.sources.length := by rw [← c3]; exact (List.getElem?_eq_some_iff.1 hi).1
  obtain ⟨_, h2⟩ := c4 i _ (List.getElem?_eq_getElem hlt)
  rw [hi] at h2
  cases h2
  simp only at hk
  simp [hk]

/-- **C155, LTTng sources keep what they delivered** until the next start, whatever the viewer sends otherwise and whatever arrives. -/
theorem kept {kinds : List Kind} {as bs cs : List Act} {s s1 s2 : State} (e : run (init kinds) as = some s) (h : Handles s false bs s1) (hc : Act.message true ∉ cs) (e2 : run s1 cs = some s2) :
    ∃ X, s1.shown = s.shown ++ [X] ∧ ∀ (i : Nat) (x : Source), s2.sources[i]? = some x → x.kind = .lttng → x.data = of i X := by
  have i0 := inv_run (inv_init kinds) e
  obtain ⟨C, c1, c2, c3, c4⟩ := end_shape h
  refine ⟨_, c1, ?_⟩
  suffices H : ∀ (cs : List Act) (s s' : State), Act.message true ∉ cs → run s cs = some s' → (∀ i, Task.start i ∉ s.todo) → (∀ x ∈ s.sources, x.recording = false) →
      ∀ (i : Nat) (x : Source), s'.sources[i]? = some x → x.kind = .lttng → s.sources[i]? = some x by
    intro i x hx hk
    have hrec : ∀ x ∈ s1.sources, x.recording = false := by
      intro y hy
      obtain ⟨j, hj⟩ := List.mem_iff_getElem?.1 hy
      have hlt : j < s.sources.length := by rw [← c3]; exact (List.getElem?_eq_some_iff.1 hj).1
      obtain ⟨_, h2⟩ := c4 j _ (List.getElem?_eq_getElem hlt)
      rw [hj] at h2
      cases h2; rfl
    have hx1 := H cs s1 s2 hc e2 (by rw [h.2.2.2]; exact fun i hi => by cases hi) hrec i x hx hk
    have hlt : i < s.sources.length := by rw [← c3]; exact (List.getElem?_eq_some_iff.1 hx1).1
    obtain ⟨_, h2⟩ := c4 i _ (List.getElem?_eq_getElem hlt)
    rw [hx1] at h2
    cases h2
    simp only at hk
    rw [out_idle i0 h.1, List.nil_append, of_flatMap _ _ _ List.nodup_range, if_pos (List.mem_range.2 hlt)]
    simp [hk]
  intro cs
  induction cs with
  | nil => intro s s' _ e _ _ i x hx _; cases e; exact hx
  | cons a cs ih =>
    intro s s' hc e ht hr i x hx hk
    simp only [run] at e
    obtain ⟨s1, e1, e2⟩ := Option.bind_eq_some_iff.1 e
    have hc' : Act.message true ∉ cs := fun h => hc (List.mem_cons_of_mem _ h)
    cases a with
    | message b =>
      simp only [step] at e1
      split at e1
      · cases e1
        cases b with
        | true => exact absurd List.mem_cons_self hc
        | false => exact ih _ _ hc' e2 (by intro j hj; simp [tasks] at hj) hr i x hx hk
      · cases e1
    | arrive k v =>
      cases e1
      have hm : s.sources.map (fun x => x.arrive k v) = s.sources := by
        conv => rhs; rw [← List.map_id s.sources]
        apply List.map_congr_left
        intro y hy
        simp [Source.arrive, hr y hy]
      have := ih _ _ hc' e2 ht (by simp only [hm]; exact hr) i x hx hk
      simpa only [hm] using this
    | work =>
      simp only [step] at e1
      cases h0 : s.todo with
      | nil => rw [h0] at e1; cases e1
      | cons t l =>
        rw [h0] at e1 ht
        have ht' : ∀ i, Task.start i ∉ l := fun i hi => ht i (List.mem_cons_of_mem _ hi)
        have hmod : ∀ (j : Nat) (f : Source → Source), (∀ y, y.recording = false → (f y).recording = false) → ∀ y ∈ s.sources.modify j f, y.recording = false := by
          intro j f hf y hy
          obtain ⟨m, hm⟩ := List.mem_iff_getElem?.1 hy
          rw [List.getElem?_modify] at hm
          cases hz : s.sources[m]? with
          | none => simp [hz] at hm
          | some z =>
            have := hr z (List.mem_of_getElem? hz)
            by_cases hj : j = m
            · simp [hz, hj] at hm; rw [← hm]; exact hf z this
            · simp [hz, hj] at hm; rw [← hm]; exact this
        have hget : ∀ (j : Nat) (f : Source → Source), (∀ y, (f y).kind = y.kind) → (∀ y ∈ s.sources, y.kind = .lttng → f y = y) → (s.sources.modify j f)[i]? = some x → s.sources[i]? = some x := by
          intro j f hf1 hf2 hm
          rw [List.getElem?_modify] at hm
          cases hz : s.sources[i]? with
          | none => simp [hz] at hm
          | some z =>
            by_cases hj : j = i
            · simp [hz, hj] at hm
              have : z.kind = .lttng := by rw [← hf1, hm]; exact hk
              rw [← hm, hf2 z (List.mem_of_getElem? hz) this]
            · simpa [hz, hj] using hm
        cases t with
        | start j => exact absurd List.mem_cons_self (ht j)
        | stop j =>
          cases e1
          refine hget j Source.stop (fun _ => rfl) ?_ (ih _ _ hc' e2 ht' (hmod j _ fun _ _ => rfl) i x hx hk)
          intro y hy _
          have hy' := hr y hy
          cases y; simp only [Source.stop] at hy' ⊢; simp [hy']
        | finish j =>
          cases hz : s.sources[j]? with
          | none => simp only [hz] at e1; cases e1; exact ih _ _ hc' e2 ht' hr i x hx hk
          | some z =>
            simp only [hz] at e1
            cases e1
            refine hget j _ finish_kind ?_ (ih _ _ hc' e2 ht' (hmod j _ fun y _ => by unfold Source.finish; cases y.kind <;> rfl) i x hx hk)
            intro y hy hyk
            have hy' := hr y hy
            cases y; simp only [Source.finish] at hy' hyk ⊢; rw [hyk]; simp [hy']
        | send => cases e1; exact ih _ _ hc' e2 ht' hr i x hx hk

/-! ## Progress, and the full claims fail -/

/-- The session gets to the end of every message, whatever arrives: it can always go on with it, and every step brings it nearer. -/
theorem goes_on (s : State) (h : s.todo ≠ []) : ∃ s', step s .work = some s' ∧ s'.todo.length + 1 = s.todo.length := by
  cases ht : s.todo with
  | nil => exact absurd ht h
  | cons t l =>
    cases t with
    | start i => exact ⟨_, by simp only [step, ht]; rfl, rfl⟩
    | stop i => exact ⟨_, by simp only [step, ht]; rfl, rfl⟩
    | finish i =>
      cases hx : s.sources[i]? with
      | none => exact ⟨_, by simp only [step, ht, hx]; rfl, rfl⟩
      | some x => exact ⟨_, by simp only [step, ht, hx]; rfl, rfl⟩
    | send => exact ⟨_, by simp only [step, ht]; rfl, rfl⟩

/-- An idle session can deal with every message. -/
theorem can_handle (s : State) (b : Bool) (h : s.todo = []) : ∃ as s', Handles s b as s' ∧ ∀ k, arrivals k as = [] := by
  have key : ∀ n (s : State), s.todo.length = n → ∃ s', run s (List.replicate n .work) = some s' ∧ s'.todo = [] := by
    intro n
    induction n with
    | zero => intro s hs; exact ⟨s, rfl, by simpa using hs⟩
    | succ n ih =>
      intro s hs
      obtain ⟨s1, e1, h1⟩ := goes_on s (by intro h0; rw [h0] at hs; cases hs)
      obtain ⟨s', e2, h2⟩ := ih s1 (by omega)
      exact ⟨s', by simp only [List.replicate_succ, run, e1, Option.bind_some]; exact e2, h2⟩
  obtain ⟨s', e, h'⟩ := key _ { s with todo := tasks s.sources.length b } rfl
  refine ⟨List.replicate (tasks s.sources.length b).length .work, s', ⟨h, ?_, ?_, h'⟩, ?_⟩
  rotate_left 2
  · intro k
    generalize (tasks s.sources.length b).length = n
    induction n with
    | zero => rfl
    | succ n ih => rw [List.replicate_succ, arrivals_work, ih]
  · intro b hb
    have := List.eq_of_mem_replicate hb
    cases this
  · simp only [run, step, h, if_true, Option.bind_some]
    exact e

/-- **C155 does not hold, in every session with an LTTng source:** an event that was delivered for an end is delivered again for each of any number of further ends. -/
theorem delivered_often {kinds : List Kind} {as bs : List Act} {s s1 : State} (e : run (init kinds) as = some s) (h : Handles s false bs s1) (n : Nat) :
    ∃ X cs s2, s1.shown = s.shown ++ [X] ∧ arrivals .lttng cs = [] ∧ run s1 cs = some s2 ∧ s2.todo = [] ∧
      ∀ i, kinds[i]? = some .lttng → of i s2.shown.flatten = of i s.shown.flatten ++ (List.replicate (n + 1) (of i X)).flatten := by
  have i0 := inv_run (inv_init kinds) e
  have e' : run (init kinds) (as ++ .message false :: bs) = some s1 := by rw [run_append, e, Option.bind_some]; exact handles_run h
  obtain ⟨X, c1, _⟩ := kept e h (cs := []) (fun h => by cases h) rfl
  suffices H : ∀ n, ∃ pre cs s0 s2 Y, s2.shown = s0.shown ++ [Y] ∧ run (init kinds) pre = some s0 ∧ arrivals .lttng cs = [] ∧ run s1 cs = some s2 ∧ (∃ ds, Handles s0 false ds s2) ∧
      ∀ i, kinds[i]? = some .lttng → of i Y = of i X ∧ of i s2.shown.flatten = of i s.shown.flatten ++ (List.replicate (n + 1) (of i X)).flatten by
    obtain ⟨pre, cs, s0, s2, Y, _, _, h2, h3, ⟨ds, h4⟩, h5⟩ := H n
    exact ⟨X, cs, s2, c1, h2, h3, h4.2.2.2, fun i hi => (h5 i hi).2⟩
  intro n
  induction n with
  | zero =>
    refine ⟨as, [], s, s1, X, c1, e, rfl, rfl, ⟨bs, h⟩, fun i _ => ⟨rfl, ?_⟩⟩
    rw [c1, List.flatten_append, of_append]
    simp
  | succ n ih =>
    obtain ⟨pre, cs, s0, s2, Y, hY, e0, hcs, e2, ⟨ds, h2⟩, hi⟩ := ih
    obtain ⟨ws, s3, h3, hws'⟩ := can_handle s2 false h2.2.2.2
    obtain ⟨Z, W, z1, z2, z3⟩ := end_again e0 h2 (cs := []) (fun b h => by cases h) rfl h3
    have hZ : Z = Y := by
      rw [hY] at z1
      simpa using (List.append_cancel_left z1).symm
    subst hZ
    have e02 : run (init kinds) (pre ++ .message false :: ds) = some s2 := by rw [run_append, e0, Option.bind_some]; exact handles_run h2
    have hws : arrivals .lttng ws = [] := hws' _
    refine ⟨pre ++ .message false :: ds, cs ++ .message false :: ws, s2, s3, W, ?_, e02, ?_, ?_, ⟨ws, h3⟩, ?_⟩
    · rw [z2, hY]; simp
    · rw [arrivals_append, hcs]; simpa [arrivals] using hws
    · rw [run_append, e2, Option.bind_some]; exact handles_run h3
    · intro i hki
      have hz := z3 i _ hki
      simp only [if_true] at hz
      refine ⟨by rw [hz, (hi i hki).1], ?_⟩
      have : s3.shown = s2.shown ++ [W] := by rw [z2, hY]; simp
      rw [this, List.flatten_append, of_append, (hi i hki).2, List.replicate_succ' (n := n + 1), List.flatten_append]
      simp [hz, (hi i hki).1]

/-- A viewer that never starts a recording gets nothing, however often it ends one. -/
theorem never_started {kinds : List Kind} {as : List Act} {s : State} (e : run (init kinds) as = some s) (h : Act.message true ∉ as) : s.shown.flatten = [] ∧ ∀ x ∈ s.sources, x.data = [] := by
  suffices H : ∀ (as : List Act) (s s' : State), Act.message true ∉ as → run s as = some s' → (∀ i, Task.start i ∉ s.todo) → (∀ x ∈ s.sources, x.recording = false ∧ x.data = []) → s.out = [] → s.shown.flatten = [] →
      s'.shown.flatten = [] ∧ ∀ x ∈ s'.sources, x.data = [] by
    refine H as _ s h e (fun i hi => by cases hi) ?_ rfl rfl
    intro x hx
    obtain ⟨k, _, rfl⟩ := List.mem_map.1 hx
    exact ⟨rfl, rfl⟩
  intro as
  induction as with
  | nil => intro s s' _ e _ hs _ hsh; cases e; exact ⟨hsh, fun x hx => (hs x hx).2⟩
  | cons a as ih =>
    intro s s' hm e ht hs ho hsh
    simp only [run] at e
    obtain ⟨s1, e1, e2⟩ := Option.bind_eq_some_iff.1 e
    have hm' : Act.message true ∉ as := fun h => hm (List.mem_cons_of_mem _ h)
    have hmod : ∀ (j : Nat) (f : Source → Source), (∀ y : Source, y.recording = false ∧ y.data = [] → (f y).recording = false ∧ (f y).data = []) → ∀ y ∈ s.sources.modify j f, y.recording = false ∧ y.data = [] := by
      intro j f hf y hy
      obtain ⟨m, hm⟩ := List.mem_iff_getElem?.1 hy
      rw [List.getElem?_modify] at hm
      cases hz : s.sources[m]? with
      | none => simp [hz] at hm
      | some z =>
        have := hs z (List.mem_of_getElem? hz)
        by_cases hj : j = m
        · simp [hz, hj] at hm; rw [← hm]; exact hf z this
        · simp [hz, hj] at hm; rw [← hm]; exact this
    cases a with
    | message b =>
      simp only [step] at e1
      split at e1
      · cases e1
        cases b with
        | true => exact absurd List.mem_cons_self hm
        | false => exact ih _ _ hm' e2 (by intro j hj; simp [tasks] at hj) hs ho hsh
      · cases e1
    | arrive k v =>
      cases e1
      refine ih _ _ hm' e2 ht ?_ ho hsh
      intro x hx
      obtain ⟨y, hy, rfl⟩ := List.mem_map.1 hx
      have := hs y hy
      simpa [Source.arrive, this.1] using this
    | work =>
      simp only [step] at e1
      cases h0 : s.todo with
      | nil => rw [h0] at e1; cases e1
      | cons t l =>
        rw [h0] at e1 ht
        have ht' : ∀ i, Task.start i ∉ l := fun i hi => ht i (List.mem_cons_of_mem _ hi)
        cases t with
        | start j => exact absurd List.mem_cons_self (ht j)
        | stop j => cases e1; exact ih _ _ hm' e2 ht' (hmod j _ fun y hy => ⟨rfl, hy.2⟩) ho hsh
        | finish j =>
          cases hz : s.sources[j]? with
          | none => simp only [hz] at e1; cases e1; exact ih _ _ hm' e2 ht' hs ho hsh
          | some z =>
            simp only [hz] at e1
            cases e1
            refine ih _ _ hm' e2 ht' (hmod j _ fun y hy => ?_) ?_ hsh
            · unfold Source.finish
              cases y.kind <;> simp [hy.2]
            · have := (hs z (List.mem_of_getElem? hz)).2
              have hf : z.finish.2 = [] := by
                unfold Source.finish
                cases z.kind <;> simp [this]
              simp [hf, ho]
        | send => cases e1; exact ih _ _ hm' e2 ht' hs rfl (by simp [hsh, ho])

/-! ## Cases -/

/-- A session with both sources: a start, a native event 1 and LTTng events 2, 3 and (while the end is dealt with) 4, and two ends. -/
def example1 : List Act :=
  [.message true, .work, .work, .arrive .native 1, .arrive .lttng 2, .arrive .lttng 3, .message false, .work, .arrive .lttng 4, .work, .work, .work, .work, .arrive .lttng 5, .message false, .work, .work, .work, .work, .work]

theorem example1_run : run (init [.native, .lttng]) example1 =
    some { sources := [{ kind := .native }, { kind := .lttng, data := [2, 3, 4] }], shown := [[(0, 1), (1, 2), (1, 3), (1, 4)], [(1, 2), (1, 3), (1, 4)]] } := by decide +kernel

/-- **C155 does not hold:** an event that arrived once is delivered twice. -/
theorem not_DeliveredOnce : ¬ DeliveredOnce := by
  intro h
  have := h _ _ _ example1_run 1 .lttng 2 rfl
  exact absurd this (by decide)

/-- **C155 does not hold:** what was delivered is kept. -/
theorem not_Released : ¬ Released := by
  intro h
  have := h [.lttng] [.message true, .work, .arrive .lttng 7] { sources := [{ kind := .lttng, recording := true, data := [7] }] } [.work, .work, .work]
    { sources := [{ kind := .lttng, data := [7] }], shown := [[(0, 7)]] } (by decide +kernel) ⟨rfl, by intro b hb; simp at hb, by decide +kernel, rfl⟩ _ List.mem_cons_self
  cases this

/-- The hypotheses of `recorded` and `end_again`: the parts of `example1`. -/
example : ∃ s1 s2 s3 s4 s5, Handles (init [.native, .lttng]) true [.work, .work] s1 ∧ run s1 [.arrive .native 1, .arrive .lttng 2, .arrive .lttng 3] = some s2 ∧
    Handles s2 false [.work, .arrive .lttng 4, .work, .work, .work, .work] s3 ∧ run s3 [.arrive .lttng 5] = some s4 ∧ Handles s4 false [.work, .work, .work, .work, .work] s5 ∧
    s5.shown = [[(0, 1), (1, 2), (1, 3), (1, 4)], [(1, 2), (1, 3), (1, 4)]] := by
  refine ⟨_, _, _, _, _, ⟨rfl, ?_, rfl, rfl⟩, rfl, ⟨rfl, ?_, rfl, rfl⟩, rfl, ⟨rfl, ?_, rfl, rfl⟩, rfl⟩
  all_goals (intro b hb; simp at hb)

end Scalopus.C155
