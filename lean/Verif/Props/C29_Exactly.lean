import Verif.Props.C29_RegisterOnce

/-!
# C29: exactly when a name is there
-/

namespace Scalopus.C29

open RegisterOnce

theorem insert_isSome (m : List (Nat × String)) (k : Nat) (v : String) (id : Nat) :
    ((RegisterOnce.insert m k v).lookup id).isSome = true ↔ k = id ∨ (m.lookup id).isSome = true := by
  unfold RegisterOnce.insert
  rw [List.lookup_cons]
  by_cases h : id = k
  · subst h; simp
  · have h1 : (id == k) = false := by simpa using h
    rw [h1]
    have h2 : ((m.filter fun e => e.1 ≠ k).lookup id) = m.lookup id := by
      induction m with
      | nil => rfl
      | cons e m ih =>
        obtain ⟨a, b⟩ := e
        by_cases ha : a = k
        · subst ha
          have : (id == a) = false := by simpa using h
          simp only [ne_eq, not_true_eq_false, decide_false, Bool.false_eq_true, not_false_eq_true, List.filter_cons_of_neg]
          rw [List.lookup_cons, this]; exact ih
        · rw [List.filter_cons_of_pos (by simpa using ha), List.lookup_cons, List.lookup_cons, ih]
    simp only [h2]
    constructor
    · exact .inr
    · rintro (e | e)
      · exact absurd e.symm h
      · exact e

/-- The thread `a.t` is about to store the name of a macro with this id. -/
def Storing (sites : List Site) (s : State) (a : Act) (id : Nat) : Prop :=
  ∃ k site, s.pc a.t = .second k ∧ sites[k]? = some site ∧ site.id = id

theorem step_named (sites : List Site) (s : State) (a : Act) (id : Nat) :
    ((step sites s a).map.lookup id).isSome = true ↔ Storing sites s a id ∨ (s.map.lookup id).isSome = true := by
  unfold step Storing
  cases hpc : s.pc a.t with
  | idle =>
    simp only
    split
    · simp
    · split
      · simp [State.at]
      · split <;> simp [State.at]
  | first k => simp [State.at]
  | emitting k =>
    simp only
    split <;> simp [State.at]
  | second k =>
    simp only
    cases hk : sites[k]? with
    | none =>
      simp only [Pc.second.injEq]
      constructor
      · exact .inr
      · rintro (⟨k', site, rfl, h, -⟩ | h)
        · rw [hk] at h; cases h
        · exact h
    | some site =>
      simp only [insert_isSome]
      constructor
      · rintro (h | h)
        · exact .inl ⟨k, site, rfl, hk, h⟩
        · exact .inr h
      · rintro (⟨k', site', h1, h2, h3⟩ | h)
        · simp only [Pc.second.injEq] at h1; subst h1
          rw [hk] at h2; simp only [Option.some.injEq] at h2; subst h2
          exact .inl h3
        · exact .inr h

theorem run_append (sites : List Site) (s : State) (as bs : List Act) : run sites s (as ++ bs) = run sites (run sites s as) bs := by
  simp [run]

/-- **C29, exactly.** After every history: an id has a name if and only if some thread has taken the step that stores the name of a macro with this id. -/
theorem named_iff (sites : List Site) (acts : List Act) (id : Nat) :
    ((run sites {} acts).map.lookup id).isSome = true ↔ ∃ pre a post, acts = pre ++ a :: post ∧ Storing sites (run sites {} pre) a id := by
  suffices H : ∀ s : State, ((run sites s acts).map.lookup id).isSome = true ↔
      (s.map.lookup id).isSome = true ∨ ∃ pre a post, acts = pre ++ a :: post ∧ Storing sites (run sites s pre) a id by
    rw [H]; simp
  induction acts with
  | nil => intro s; simp [run]
  | cons b acts ih =>
    intro s
    have : run sites s (b :: acts) = run sites (step sites s b) acts := rfl
    rw [this, ih, step_named]
    constructor
    · rintro ((h | h) | ⟨pre, a, post, e, h⟩)
      · exact .inr ⟨[], b, acts, rfl, h⟩
      · exact .inl h
      · exact .inr ⟨b :: pre, a, post, by rw [e]; rfl, h⟩
    · rintro (h | ⟨pre, a, post, e, h⟩)
      · exact .inl (.inr h)
      · cases pre with
        | nil =>
          simp only [List.nil_append, List.cons.injEq] at e
          obtain ⟨rfl, rfl⟩ := e
          exact .inl (.inl h)
        | cons c pre =>
          simp only [List.cons_append, List.cons.injEq] at e
          obtain ⟨rfl, e⟩ := e
          exact .inr ⟨pre, a, post, e, h⟩

/-- **C29, names stay.** Once an id has a name it has one for good, whatever happens afterwards. -/
theorem name_stays (sites : List Site) (acts more : List Act) (id : Nat) (h : ((run sites {} acts).map.lookup id).isSome = true) :
    ((run sites {} (acts ++ more)).map.lookup id).isSome = true := by
  rw [named_iff] at h ⊢
  obtain ⟨pre, a, post, rfl, h⟩ := h
  exact ⟨pre, a, post ++ more, by simp, h⟩

/-- **C29, the name stays the same** if no two macros that register have the same id. -/
theorem name_stays_same (sites : List Site) (hd : ∀ x ∈ sites, ∀ y ∈ sites, x.registers = true → y.registers = true → x.id = y.id → x.name = y.name)
    (acts more : List Act) (id : Nat) (n : String) (h : (run sites {} acts).map.lookup id = some n) : (run sites {} (acts ++ more)).map.lookup id = some n := by
  have h1 := name_stays sites acts more id (by rw [h]; rfl)
  obtain ⟨n', h2⟩ := Option.isSome_iff_exists.1 h1
  obtain ⟨x, hx, rx, ix, nx⟩ := name_is_a_macros_name sites acts id n h
  obtain ⟨y, hy, ry, iy, ny⟩ := name_is_a_macros_name sites _ id n' h2
  rw [h2, ← ny, ← nx, hd x hx y hy rx ry (ix.trans iy.symm)]

/-- **C29, the gap is one step.** If an event of a macro that registers was emitted and its id has no name, then there is a thread whose very next step stores the name, and from then on it stays. -/
theorem gap_is_one_step (sites : List Site) (acts : List Act) (k id : Nat) (site : Site) (hs : sites[k]? = some site) (hr : site.registers = true)
    (he : (k, id) ∈ (run sites {} acts).emitted) (hn : (run sites {} acts).map.lookup id = none) :
    ∃ t, ∀ j more, ((run sites {} (acts ++ ⟨t, j⟩ :: more)).map.lookup id).isSome = true := by
  obtain ⟨site', h1, h2, h3⟩ := named_or_in_progress_partial sites acts k id he
  rw [hs] at h1
  simp only [Option.some.injEq] at h1
  subst h1
  rcases h3 hr with h | ⟨t, ht⟩
  · rw [hn] at h; cases h
  · refine ⟨t, fun j more => ?_⟩
    rw [named_iff]
    exact ⟨acts, ⟨t, j⟩, more, rfl, k, site, ht, hs, h2⟩

/-- Such a moment: thread 1 has emitted while thread 0 is about to store the name. -/
example : (0, 7) ∈ (run [⟨7, "work", true⟩] {} [⟨0, 0⟩, ⟨0, 0⟩, ⟨1, 0⟩, ⟨1, 0⟩]).emitted ∧
    (run [⟨7, "work", true⟩] {} [⟨0, 0⟩, ⟨0, 0⟩, ⟨1, 0⟩, ⟨1, 0⟩]).map.lookup 7 = none ∧
    (run [⟨7, "work", true⟩] {} [⟨0, 0⟩, ⟨0, 0⟩, ⟨1, 0⟩, ⟨1, 0⟩, ⟨0, 0⟩]).map.lookup 7 = some "work" := by decide

end Scalopus.C29
