import Verif.Model.PyTransparent

/-!
# C120: tracing does not change what a Python program does

Tracing is added to a Python program with decorators (`traced`, `suppressed`) and with statements (`trace_section`). Taking them away again gives the plain program. For every program, every way of adding
tracing to it, every state of the tracing switches and every depth of calls: the traced program ends as the plain one does, with the same value or the same exception, and has done the same to everything
it works on. The limit is the number of trace ids: the theorem is about programs that use fewer than `2^32` of them and no section named after an attribute of the helper.
-/

namespace Scalopus.C120

open PyTransparent

/-! ## Specification -/

/-- The statement without tracing. -/
def plain : Stmt σ → Stmt σ
  | .prim f => .prim f
  | .ret f => .ret f
  | .seq a b => .seq (plain a) (plain b)
  | .ite c a b => .ite c (plain a) (plain b)
  | .tryExcept b c h => .tryExcept (plain b) c (plain h)
  | .tryFinally b f => .tryFinally (plain b) (plain f)
  | .call f k => .call f k
  | .trace _ b => plain b

/-- The program without tracing. -/
def plainProg (prog : Nat → Def σ) : Nat → Def σ := fun f => { body := plain (prog f).body, decs := [] }

/-- The names of sections in a statement. -/
def names : Stmt σ → List String
  | .prim _ | .ret _ | .call _ _ => []
  | .seq a b | .ite _ a b | .tryExcept a _ b | .tryFinally a b => names a ++ names b
  | .trace n b => n :: names b

/-- No section has the name of an attribute of the helper. -/
def NamesOk (s : Stmt σ) : Prop := ∀ n ∈ names s, n ≠ "ctx_type" ∧ n ≠ "prefix" ∧ n.startsWith "__" = false

/-- The decorators could be applied: `setTraceName` accepted their ids. -/
def DecsOk (ds : List Dec) : Prop := ∀ id, Dec.traced id ∈ ds → id < 2 ^ 32

structure ProgOk (prog : Nat → Def σ) : Prop where
  names : ∀ f, NamesOk (prog f).body
  decs : ∀ f, DecsOk (prog f).decs

/-- The ids of sections came from the counter. -/
def SectionsOk (w : W σ) : Prop := ∀ p ∈ w.sections, p.2 < w.next

/-! ## Steps -/

/-- What a part of the traced program does to the state of the tracing: the counter does not go down, the sections' ids stay below it. -/
def Grows (f : W σ → Out × W σ) : Prop := ∀ w, SectionsOk w → w.next ≤ (f w).2.next ∧ SectionsOk (f w).2

/-- `f`, on any tracing state, does what `g` does. -/
def Same (f g : W σ → Out × W σ) : Prop :=
  ∀ w w0, w.user = w0.user → SectionsOk w → (f w).2.next ≤ 2 ^ 32 → (f w).1 = (g w0).1 ∧ (f w).2.user = (g w0).2.user

theorem emit_ok {entry : Bool} {id : Nat} {w : W σ} (h : id < 2 ^ 32) :
    ∃ w', emit entry id w = .ok w' ∧ w'.user = w.user ∧ w'.next = w.next ∧ w'.sections = w.sections := by
  unfold emit idLimit
  rw [if_pos h]
  split <;> exact ⟨_, rfl, rfl, rfl, rfl⟩

theorem emit_err {entry : Bool} {id : Nat} {w : W σ} (h : ¬ id < 2 ^ 32) : emit entry id w = .error .typeError := by
  unfold emit idLimit
  rw [if_neg h]

/-- A context that enters and leaves without error and never drops an exception. -/
structure Clean (enter : W σ → Except Exc (W σ)) (exit : W σ → Except Exc (Bool × W σ)) : Prop where
  enter : ∀ w, ∃ w', enter w = .ok w' ∧ w'.user = w.user ∧ w'.next = w.next ∧ w'.sections = w.sections
  exit : ∀ w, ∃ w', exit w = .ok (false, w') ∧ w'.user = w.user ∧ w'.next = w.next ∧ w'.sections = w.sections

theorem clean_ctx {id : Nat} (h : id < 2 ^ 32) : Clean (σ := σ) (ctxEnter id) (ctxExit id) where
  enter w := emit_ok h
  exit w := by
    obtain ⟨w', h1, h2⟩ := emit_ok (entry := false) (w := w) h
    exact ⟨w', by simp [ctxExit, h1, Except.map], h2⟩

theorem clean_switch (k : Nat) : Clean (σ := σ) (switchEnter k) (switchExit k) where
  enter _ := ⟨_, rfl, rfl, rfl, rfl⟩
  exit _ := ⟨_, rfl, rfl, rfl, rfl⟩

/-- A with statement around a clean context. -/
theorem with_clean {enter : W σ → Except Exc (W σ)} {exit : W σ → Except Exc (Bool × W σ)} (h : Clean enter exit) (body : W σ → Out × W σ) (w : W σ) :
    ∃ w1, w1.user = w.user ∧ w1.next = w.next ∧ w1.sections = w.sections ∧ (withCM enter exit body w).1 = (body w1).1 ∧
      (withCM enter exit body w).2.user = (body w1).2.user ∧ (withCM enter exit body w).2.next = (body w1).2.next ∧
      (withCM enter exit body w).2.sections = (body w1).2.sections := by
  obtain ⟨w1, h1, hu, hn, hs⟩ := h.enter w
  refine ⟨w1, hu, hn, hs, ?_⟩
  unfold withCM
  rw [h1]
  simp only []
  rcases hb : body w1 with ⟨o, w2⟩
  obtain ⟨w3, h3, h4⟩ := h.exit w2
  cases o <;> simp [h3, h4]

theorem grows_clean {enter : W σ → Except Exc (W σ)} {exit : W σ → Except Exc (Bool × W σ)} (h : Clean enter exit) {body : W σ → Out × W σ} (hb : Grows body) :
    Grows (withCM enter exit body) := by
  intro w hs
  obtain ⟨w1, _, hn, hsec, _, _, h6, h7⟩ := with_clean h body w
  have hs1 : SectionsOk w1 := by unfold SectionsOk; rw [hsec, hn]; exact hs
  obtain ⟨g1, g2⟩ := hb w1 hs1
  refine ⟨by rw [h6, ← hn]; exact g1, ?_⟩
  unfold SectionsOk
  rw [h6, h7]
  exact g2

theorem same_clean {enter : W σ → Except Exc (W σ)} {exit : W σ → Except Exc (Bool × W σ)} (h : Clean enter exit) {body g : W σ → Out × W σ} (hb : Same body g) :
    Same (withCM enter exit body) g := by
  intro w w0 hu hs hlim
  obtain ⟨w1, hu1, hn, hsec, h4, h5, h6, _⟩ := with_clean h body w
  have hs1 : SectionsOk w1 := by unfold SectionsOk; rw [hsec, hn]; exact hs
  have := hb w1 w0 (hu1.trans hu) hs1 (by rw [← h6]; exact hlim)
  rw [h4, h5]
  exact this

theorem wrapped_both {body g : W σ → Out × W σ} (hg : Grows body) (hb : Same body g) : ∀ ds : List Dec, DecsOk ds → Grows (wrapped body ds) ∧ Same (wrapped body ds) g
  | [], _ => ⟨hg, hb⟩
  | .traced id :: ds, h => by
    have ih := wrapped_both hg hb ds fun i hi => h i (List.mem_cons_of_mem _ hi)
    have hc := clean_ctx (σ := σ) (h id List.mem_cons_self)
    exact ⟨grows_clean hc ih.1, same_clean hc ih.2⟩
  | .suppressed k :: ds, h => by
    have ih := wrapped_both hg hb ds fun i hi => h i (List.mem_cons_of_mem _ hi)
    exact ⟨grows_clean (clean_switch k) ih.1, same_clean (clean_switch k) ih.2⟩

theorem lookup_mem {l : List (String × Nat)} {n : String} {i : Nat} (h : l.lookup n = some i) : (n, i) ∈ l := by
  induction l with
  | nil => cases h
  | cons p l ih =>
    obtain ⟨a, b⟩ := p
    rw [List.lookup_cons] at h
    split at h
    · rename_i ha
      have := eq_of_beq ha
      simp only [Option.some.injEq] at h
      subst this h
      exact List.mem_cons_self
    · exact List.mem_cons_of_mem _ (ih h)

theorem not_reserved {n : String} (h : n ≠ "ctx_type" ∧ n ≠ "prefix" ∧ n.startsWith "__" = false) : reserved n = false := by
  simp [reserved, h]

/-- Making the context of a section. -/
theorem section_cases {n : String} {w : W σ} (hr : reserved n = false) (hs : SectionsOk w) :
    ∃ w1, w.next ≤ w1.next ∧ SectionsOk w1 ∧ w1.user = w.user ∧
      ((∃ id, section_ n w = (.ok id, w1) ∧ id < w1.next ∧ id < 2 ^ 32 ∨ section_ n w = (.error .typeError, w1) ∧ 2 ^ 32 < w1.next) ∨
        ∃ id, section_ n w = (.ok id, w1) ∧ 2 ^ 32 ≤ id ∧ id < w1.next) := by
  unfold section_
  rw [if_neg (by simp [hr])]
  split
  · rename_i id h
    refine ⟨w, Nat.le_refl _, hs, rfl, ?_⟩
    have := hs _ (lookup_mem h)
    by_cases hid : id < 2 ^ 32
    · exact .inl ⟨id, .inl ⟨rfl, this, hid⟩⟩
    · exact .inr ⟨id, rfl, Nat.le_of_not_lt hid, this⟩
  · by_cases h : w.next < idLimit
    · rw [if_pos h]
      refine ⟨_, ?_, ?_, ?_, .inl ⟨w.next, .inl ⟨rfl, ?_, h⟩⟩⟩
      · exact Nat.le_succ _
      · intro p hp
        rcases List.mem_cons.1 hp with rfl | hp
        · exact Nat.lt_succ_self _
        · exact Nat.lt_succ_of_lt (hs p hp)
      · rfl
      · exact Nat.lt_succ_self _
    · rw [if_neg h]
      refine ⟨_, ?_, ?_, ?_, .inl ⟨0, .inr ⟨rfl, Nat.lt_succ_of_le (Nat.le_of_not_lt h)⟩⟩⟩
      · exact Nat.le_succ _
      · exact fun p hp => Nat.lt_succ_of_lt (hs p hp)
      · rfl

/-- A context with an id that is too large does not enter. -/
theorem with_large {id : Nat} (h : 2 ^ 32 ≤ id) (body : W σ → Out × W σ) (w : W σ) : withCM (ctxEnter id) (ctxExit id) body w = (.raised .typeError, w) := by
  unfold withCM ctxEnter
  rw [emit_err (Nat.not_lt.2 h)]

/-! ## Statements -/

theorem exec_both {callee callee0 : Nat → W σ → Out × W σ} (hg : ∀ f, Grows (callee f)) (hc : ∀ f, Same (callee f) (callee0 f)) :
    ∀ s : Stmt σ, NamesOk s → Grows (exec callee s) ∧ Same (exec callee s) (exec callee0 (plain s))
  | .prim f, _ => by
    constructor
    · intro w hs
      simp only [exec]
      split <;> exact ⟨Nat.le_refl _, hs⟩
    · intro w w0 hu _ _
      simp only [exec, plain, hu]
      split <;> simp [hu]
  | .ret f, _ => ⟨fun w hs => ⟨Nat.le_refl _, hs⟩, fun w w0 hu _ _ => by simp [exec, plain, hu]⟩
  | .seq a b, hn => by
    obtain ⟨ga, sa⟩ := exec_both hg hc a fun n h => hn n (List.mem_append_left _ h)
    obtain ⟨gb, sb⟩ := exec_both hg hc b fun n h => hn n (List.mem_append_right _ h)
    constructor
    · intro w hs
      have h1 := ga w hs
      simp only [exec]
      rcases hr : exec callee a w with ⟨o, w1⟩
      rw [hr] at h1
      cases o
      · have h2 := gb w1 h1.2
        exact ⟨Nat.le_trans h1.1 h2.1, h2.2⟩
      all_goals exact h1
    · intro w w0 hu hs hlim
      have h1 := ga w hs
      have h2 := sa w w0 hu hs
      simp only [exec, plain] at hlim ⊢
      rcases hr : exec callee a w with ⟨o, w1⟩
      rcases hr0 : exec callee0 (plain a) w0 with ⟨o0, w2⟩
      rw [hr] at h1 h2 hlim
      rw [hr0] at h2
      cases o
      · have h3 := gb w1 h1.2
        obtain ⟨e1, e2⟩ := h2 (Nat.le_trans h3.1 hlim)
        simp only at e1 e2
        subst e1
        exact sb w1 w2 e2 h1.2 hlim
      all_goals
        obtain ⟨e1, e2⟩ := h2 hlim
        simp only at e1 e2
        subst e1
        exact ⟨rfl, e2⟩
  | .ite c a b, hn => by
    obtain ⟨ga, sa⟩ := exec_both hg hc a fun n h => hn n (List.mem_append_left _ h)
    obtain ⟨gb, sb⟩ := exec_both hg hc b fun n h => hn n (List.mem_append_right _ h)
    constructor
    · intro w hs
      simp only [exec]
      split
      · exact ga w hs
      · exact gb w hs
    · intro w w0 hu hs hlim
      simp only [exec, plain, ← hu] at hlim ⊢
      by_cases hcw : c w.user = true
      · rw [if_pos hcw] at hlim ⊢
        rw [if_pos hcw]
        exact sa w w0 hu hs hlim
      · rw [if_neg hcw] at hlim ⊢
        rw [if_neg hcw]
        exact sb w w0 hu hs hlim
  | .tryExcept a c b, hn => by
    obtain ⟨ga, sa⟩ := exec_both hg hc a fun n h => hn n (List.mem_append_left _ h)
    obtain ⟨gb, sb⟩ := exec_both hg hc b fun n h => hn n (List.mem_append_right _ h)
    constructor
    · intro w hs
      have h1 := ga w hs
      simp only [exec]
      rcases hr : exec callee a w with ⟨o, w1⟩
      rw [hr] at h1
      cases o
      case raised e =>
        simp only []
        split
        · have h2 := gb w1 h1.2
          exact ⟨Nat.le_trans h1.1 h2.1, h2.2⟩
        · exact h1
      all_goals exact h1
    · intro w w0 hu hs hlim
      have h1 := ga w hs
      have h2 := sa w w0 hu hs
      simp only [exec, plain] at hlim ⊢
      rcases hr : exec callee a w with ⟨o, w1⟩
      rcases hr0 : exec callee0 (plain a) w0 with ⟨o0, w2⟩
      rw [hr] at h1 h2 hlim
      rw [hr0] at h2
      cases o
      case raised e =>
        simp only [] at hlim ⊢
        split at hlim
        · rename_i hce
          have h3 := gb w1 h1.2
          obtain ⟨e1, e2⟩ := h2 (Nat.le_trans h3.1 hlim)
          simp only at e1 e2
          subst e1
          simp only [hce, if_true]
          exact sb w1 w2 e2 h1.2 hlim
        · rename_i hce
          obtain ⟨e1, e2⟩ := h2 hlim
          simp only at e1 e2
          subst e1
          simp only [hce]
          exact ⟨rfl, e2⟩
      all_goals
        obtain ⟨e1, e2⟩ := h2 hlim
        simp only at e1 e2
        subst e1
        exact ⟨rfl, e2⟩
  | .tryFinally a b, hn => by
    obtain ⟨ga, sa⟩ := exec_both hg hc a fun n h => hn n (List.mem_append_left _ h)
    obtain ⟨gb, sb⟩ := exec_both hg hc b fun n h => hn n (List.mem_append_right _ h)
    constructor
    · intro w hs
      have h1 := ga w hs
      simp only [exec]
      rcases hr : exec callee a w with ⟨o, w1⟩
      rw [hr] at h1
      have h2 := gb w1 h1.2
      rcases hr2 : exec callee b w1 with ⟨o2, w2⟩
      rw [hr2] at h2
      have h3 := And.intro (Nat.le_trans h1.1 h2.1) h2.2
      cases o <;> cases o2 <;> first | exact h1 | (simp only [hr2]; exact h3)
    · intro w w0 hu hs hlim
      have h1 := ga w hs
      have h2 := sa w w0 hu hs
      simp only [exec, plain] at hlim ⊢
      rcases hr : exec callee a w with ⟨o, w1⟩
      rcases hr0 : exec callee0 (plain a) w0 with ⟨o0, w2⟩
      rw [hr] at h1 h2 hlim
      rw [hr0] at h2
      have g2 := gb w1 h1.2
      have s2 := sb w1
      rcases hb : exec callee b w1 with ⟨o3, w3⟩
      rw [hb] at g2 s2
      cases o
      case timeout =>
        obtain ⟨e1, e2⟩ := h2 hlim
        simp only at e1 e2
        subst e1
        exact ⟨rfl, e2⟩
      all_goals
        have hl : w3.next ≤ 2 ^ 32 := by
          simp only [hb] at hlim
          cases o3 <;> exact hlim
        obtain ⟨e1, e2⟩ := h2 (Nat.le_trans g2.1 hl)
        simp only at e1 e2
        subst e1
        have := s2 w2 e2 h1.2 hl
        rcases hb0 : exec callee0 (plain b) w2 with ⟨o4, w4⟩
        rw [hb0] at this
        obtain ⟨e3, e4⟩ := this
        simp only at e3 e4
        subst e3
        cases o3 <;> simp [hb, hb0, e4]
  | .call f k, _ => by
    constructor
    · intro w hs
      have h1 := hg f w hs
      simp only [exec]
      rcases hr : callee f w with ⟨o, w1⟩
      rw [hr] at h1
      cases o <;> exact h1
    · intro w w0 hu hs hlim
      have h2 := hc f w w0 hu hs
      simp only [exec, plain] at hlim ⊢
      rcases hr : callee f w with ⟨o, w1⟩
      rcases hr0 : callee0 f w0 with ⟨o0, w2⟩
      rw [hr] at h2 hlim
      rw [hr0] at h2
      have hl : w1.next ≤ 2 ^ 32 := by cases o <;> exact hlim
      obtain ⟨e1, e2⟩ := h2 hl
      simp only at e1 e2
      subst e1
      cases o <;> simp [e2]
  | .trace n b, hn => by
    obtain ⟨gb, sb⟩ := exec_both hg hc b fun m h => hn m (List.mem_cons_of_mem _ h)
    have hr := not_reserved (hn n List.mem_cons_self)
    constructor
    · intro w hs
      obtain ⟨w1, h1, h2, h3, ⟨id, ⟨h4, _, h5⟩ | ⟨h4, _⟩⟩ | ⟨id, h4, h5, _⟩⟩ := section_cases hr hs
      · simp only [exec, h4]
        have := grows_clean (clean_ctx h5) gb w1 h2
        exact ⟨Nat.le_trans h1 this.1, this.2⟩
      · simp only [exec, h4]
        exact ⟨h1, h2⟩
      · simp only [exec, h4, with_large h5]
        exact ⟨h1, h2⟩
    · intro w w0 hu hs hlim
      obtain ⟨w1, h1, h2, h3, ⟨id, ⟨h4, _, h5⟩ | ⟨h4, h5⟩⟩ | ⟨id, h4, h5, h6⟩⟩ := section_cases hr hs
      · simp only [exec, h4, plain] at hlim ⊢
        exact same_clean (clean_ctx h5) sb w1 w0 (h3.trans hu) h2 hlim
      · simp only [exec, h4] at hlim
        exact absurd hlim (Nat.not_le.2 h5)
      · simp only [exec, h4, with_large h5] at hlim
        exact absurd hlim (Nat.not_le.2 (Nat.lt_of_le_of_lt h5 h6))

theorem call_both {prog : Nat → Def σ} (h : ProgOk prog) : ∀ (fuel f : Nat), Grows (callOf prog fuel f) ∧ Same (callOf prog fuel f) (callOf (plainProg prog) fuel f)
  | 0, _ => ⟨fun _ hs => ⟨Nat.le_refl _, hs⟩, fun _ _ hu _ _ => ⟨rfl, hu⟩⟩
  | fuel + 1, f => by
    obtain ⟨g, s⟩ := exec_both (fun f => (call_both h fuel f).1) (fun f => (call_both h fuel f).2) (prog f).body (h.names f)
    exact wrapped_both g s _ (h.decs f)

/-! ## The property -/

/-- **C120.** A traced program does what the plain program does: for every program and every way of adding tracing, whatever the state of the tracing (`w` any, with the switches on or off), as long as the
    ids do not run out, a statement ends in the same way, with the same value or exception, and leaves the same state of everything that the program works on. -/
theorem traced_does_the_same {prog : Nat → Def σ} (h : ProgOk prog) (fuel : Nat) (s : Stmt σ) (hs : NamesOk s) (w : W σ) (hw : SectionsOk w)
    (hlim : (exec (callOf prog fuel) s w).2.next ≤ 2 ^ 32) (w0 : W σ) (h0 : w0.user = w.user) :
    (exec (callOf prog fuel) s w).1 = (exec (callOf (plainProg prog) fuel) (plain s) w0).1 ∧
      (exec (callOf prog fuel) s w).2.user = (exec (callOf (plainProg prog) fuel) (plain s) w0).2.user :=
  (exec_both (fun f => (call_both h fuel f).1) (fun f => (call_both h fuel f).2) s hs).2 w w0 h0.symm hw hlim

/-- The same for a call of a function. -/
theorem traced_call {prog : Nat → Def σ} (h : ProgOk prog) (fuel f : Nat) (w : W σ) (hw : SectionsOk w) (hlim : (callOf prog fuel f w).2.next ≤ 2 ^ 32) (w0 : W σ) (h0 : w0.user = w.user) :
    (callOf prog fuel f w).1 = (callOf (plainProg prog) fuel f w0).1 ∧ (callOf prog fuel f w).2.user = (callOf (plainProg prog) fuel f w0).2.user :=
  (call_both h fuel f).2 w w0 h0.symm hw hlim

/-! ## The plain program has no tracing in it -/

/-- Only what the program works on has changed. -/
def OnlyUser (f : W σ → Out × W σ) : Prop := ∀ w, (f w).2 = { w with user := (f w).2.user }

theorem plain_exec {callee : Nat → W σ → Out × W σ} (hc : ∀ f, OnlyUser (callee f)) : ∀ s : Stmt σ, OnlyUser (exec callee (plain s))
  | .prim f => by
    intro w
    simp only [exec, plain]
    split <;> rfl
  | .ret f => fun w => rfl
  | .seq a b => by
    intro w
    have ha := plain_exec hc a w
    simp only [exec, plain]
    rcases hr : exec callee (plain a) w with ⟨o, w1⟩
    rw [hr] at ha
    simp only at ha
    have hb := plain_exec hc b w1
    cases o
    · simp only []
      rw [hb]
      simp only []
      rw [ha]
    all_goals exact ha
  | .ite c a b => by
    intro w
    simp only [exec, plain]
    split
    · exact plain_exec hc a w
    · exact plain_exec hc b w
  | .tryExcept a c b => by
    intro w
    have ha := plain_exec hc a w
    simp only [exec, plain]
    rcases hr : exec callee (plain a) w with ⟨o, w1⟩
    rw [hr] at ha
    simp only at ha
    have hb := plain_exec hc b w1
    cases o
    case raised e =>
      simp only []
      split
      · rw [hb]
        simp only []
        rw [ha]
      · exact ha
    all_goals exact ha
  | .tryFinally a b => by
    intro w
    have ha := plain_exec hc a w
    simp only [exec, plain]
    rcases hr : exec callee (plain a) w with ⟨o, w1⟩
    rw [hr] at ha
    simp only at ha
    have hb := plain_exec hc b w1
    rcases hr2 : exec callee (plain b) w1 with ⟨o2, w2⟩
    rw [hr2] at hb
    simp only at hb
    have hab : w2 = { w with user := w2.user } := by
      rw [hb]
      simp only []
      rw [ha]
    cases o <;> cases o2 <;> first | exact ha | (simp only [hr2]; exact hab)
  | .call f k => by
    intro w
    have ha := hc f w
    simp only [exec, plain]
    rcases hr : callee f w with ⟨o, w1⟩
    rw [hr] at ha
    simp only at ha
    cases o <;> simp only [] <;> rw [ha]
  | .trace n b => plain_exec hc b

theorem plain_call (prog : Nat → Def σ) : ∀ fuel f : Nat, OnlyUser (callOf (plainProg prog) fuel f)
  | 0, _ => fun _ => rfl
  | fuel + 1, f => plain_exec (plain_call prog fuel) (prog f).body

/-- The plain program records nothing and does not touch the switches, the names or the counter: it is the program without tracing. -/
theorem plain_has_no_tracing (prog : Nat → Def σ) (fuel : Nat) (s : Stmt σ) (w : W σ) :
    (exec (callOf (plainProg prog) fuel) (plain s) w).2 = { w with user := (exec (callOf (plainProg prog) fuel) (plain s) w).2.user } :=
  plain_exec (plain_call prog fuel) s w

/-! ## The hypotheses can be met -/

/-- A recursive function that is traced and suppressed: it counts down in a section, raises at three and catches it further out. -/
def countdown : Nat → Def (List Nat)
  | 0 => { body := .trace "level" (.seq (.prim fun u => .ok (u.length :: u))
            (.ite (fun u => u.length > 3) (.prim fun _ => .error 7) (.tryExcept (.seq (.call 0 fun v u => v :: u) (.ret List.length)) (fun e => e == .user 7) (.ret fun u => 10 * u.length))))
           decs := [.traced 5, .suppressed 0] }
  | _ => { body := .ret fun _ => 0, decs := [] }

theorem countdown_ok : ProgOk countdown where
  names f := by
    cases f with
    | zero => simp only [NamesOk, countdown, names, List.mem_append, List.mem_cons, List.not_mem_nil, or_false]; rintro n rfl; decide +kernel
    | succ f => intro n h; cases h
  decs f := by
    cases f with
    | zero => intro id h; simp [countdown] at h; omega
    | succ f => intro n h; cases h

example : SectionsOk ({ user := [], next := 6 } : W (List Nat)) := fun _ h => by cases h

/-- The recursive program runs to its end in the bounds of the theorem, and records its call. -/
example : (callOf countdown 9 0 { user := [], next := 6 }).1 = .returned 6 ∧ (callOf countdown 9 0 { user := [], next := 6 }).2.next = 7 ∧
    (callOf countdown 9 0 { user := [], next := 6 }).2.events.head? = some (true, 5) := by decide +kernel

/-- The limit is needed: with the ids used up, the traced program fails where the plain one does not. -/
theorem limit_is_needed : ∃ (s : Stmt Unit) (w : W Unit), NamesOk s ∧ SectionsOk w ∧ w.next = 2 ^ 32 ∧
    (exec (callOf (fun _ => { body := .ret fun _ => 0, decs := [] }) 1) s w).1 = .raised .typeError ∧
      (exec (callOf (fun _ => { body := .ret fun _ => 0, decs := [] }) 1) (plain s) w).1 = .returned 1 := by
  refine ⟨Stmt.trace "a" (.ret fun _ => 1), { user := (), next := 2 ^ 32 }, ?_, (fun _ h => by cases h), rfl, by decide +kernel, by decide +kernel⟩
  intro n hn
  simp [names] at hn
  subst hn
  decide +kernel

/-- The names are needed: a section with the name of an attribute that every `trace_section` has fails, whatever is in it. -/
theorem reserved_section (callee : Nat → W σ → Out × W σ) (name : String) (body : Stmt σ) (w : W σ) (h : name = "ctx_type" ∨ name = "prefix" ∨ name.startsWith "__" = true) :
    exec callee (.trace name body) w = (.raised .attributeError, w) := by
  have : reserved name = true := by
    simp only [reserved, Bool.or_eq_true, beq_iff_eq]
    rcases h with h | h | h
    · exact .inl (.inl h)
    · exact .inl (.inr h)
    · exact .inr h
  simp [exec, section_, this]

example : "__init__".startsWith "__" = true := by decide +kernel

end Scalopus.C120
