import Verif.Props.C120_PyTransparent

/-!
# C125: what a traced Python program records

The specification `Runs` says, without tracing switches, ids or contexts, how a statement of a program ends, what it does to the state of the program, and which sections and traced functions it enters and
leaves in which order. A traced program that ends has a run, and it has recorded exactly the events of this run, in this order, if tracing was on for the process and the thread, and nothing otherwise.
Every name of a section has one trace id, and different names have different ids. Functions that are suppressed record nothing, nor does anything that they call. The theorem is about programs in which no
suppressed function calls itself, directly or through others: for those see C56 and `reentry` below.
-/

namespace Scalopus.C125

open PyTransparent
open C120

/-! ## Specification -/

/-- What is entered and left: a section, by its name, or a function decorated with `traced`, by the id that was given to its name. -/
inductive Label where
  | sec (name : String)
  | dec (id : Nat)
  deriving DecidableEq, Repr

/-- `true`: entered, `false`: left. -/
abbrev Ev := Bool × Label

/-- What a function records with its decorators, the outermost first, if its body records `l`. -/
def decorated (l : List Ev) : List Dec → List Ev
  | [] => l
  | .traced id :: ds => (true, .dec id) :: decorated l ds ++ [(false, .dec id)]
  | .suppressed _ :: _ => []

/-- The statement takes the program from `u` to `u'`, ends with the outcome, and has entered and left what is in the list. -/
inductive Runs (prog : Nat → Def σ) : Stmt σ → σ → Out → σ → List Ev → Prop
  | prim {f : σ → Except Nat σ} {u u' : σ} : f u = .ok u' → Runs prog (.prim f) u .normal u' []
  | primRaise {f : σ → Except Nat σ} {u : σ} {n : Nat} : f u = .error n → Runs prog (.prim f) u (.raised (.user n)) u []
  | ret {f : σ → Nat} {u : σ} : Runs prog (.ret f) u (.returned (f u)) u []
  | seq {a b : Stmt σ} {u u1 u2 : σ} {o : Out} {l1 l2 : List Ev} : Runs prog a u .normal u1 l1 → Runs prog b u1 o u2 l2 → Runs prog (.seq a b) u o u2 (l1 ++ l2)
  | seqStop {a b : Stmt σ} {u u1 : σ} {o : Out} {l : List Ev} : Runs prog a u o u1 l → o ≠ .normal → Runs prog (.seq a b) u o u1 l
  | iteTrue {c : σ → Bool} {a b : Stmt σ} {u u1 : σ} {o : Out} {l : List Ev} : c u = true → Runs prog a u o u1 l → Runs prog (.ite c a b) u o u1 l
  | iteFalse {c : σ → Bool} {a b : Stmt σ} {u u1 : σ} {o : Out} {l : List Ev} : c u = false → Runs prog b u o u1 l → Runs prog (.ite c a b) u o u1 l
  | tryPass {a h : Stmt σ} {c : Exc → Bool} {u u1 : σ} {o : Out} {l : List Ev} : Runs prog a u o u1 l → (∀ e, o = .raised e → c e = false) → Runs prog (.tryExcept a c h) u o u1 l
  | tryCatch {a h : Stmt σ} {c : Exc → Bool} {u u1 u2 : σ} {e : Exc} {o : Out} {l1 l2 : List Ev} : Runs prog a u (.raised e) u1 l1 → c e = true → Runs prog h u1 o u2 l2 →
      Runs prog (.tryExcept a c h) u o u2 (l1 ++ l2)
  | fin {a f : Stmt σ} {u u1 u2 : σ} {o : Out} {l1 l2 : List Ev} : Runs prog a u o u1 l1 → Runs prog f u1 .normal u2 l2 → Runs prog (.tryFinally a f) u o u2 (l1 ++ l2)
  | finOver {a f : Stmt σ} {u u1 u2 : σ} {o o' : Out} {l1 l2 : List Ev} : Runs prog a u o u1 l1 → Runs prog f u1 o' u2 l2 → o' ≠ .normal → Runs prog (.tryFinally a f) u o' u2 (l1 ++ l2)
  | callReturn {f : Nat} {k : Nat → σ → σ} {u u1 : σ} {v : Nat} {l : List Ev} : Runs prog (prog f).body u (.returned v) u1 l →
      Runs prog (.call f k) u .normal (k v u1) (decorated l (prog f).decs)
  | callEnd {f : Nat} {k : Nat → σ → σ} {u u1 : σ} {l : List Ev} : Runs prog (prog f).body u .normal u1 l → Runs prog (.call f k) u .normal (k 0 u1) (decorated l (prog f).decs)
  | callRaise {f : Nat} {k : Nat → σ → σ} {u u1 : σ} {e : Exc} {l : List Ev} : Runs prog (prog f).body u (.raised e) u1 l → Runs prog (.call f k) u (.raised e) u1 (decorated l (prog f).decs)
  | trace {n : String} {b : Stmt σ} {u u1 : σ} {o : Out} {l : List Ev} : Runs prog b u o u1 l → Runs prog (.trace n b) u o u1 ((true, .sec n) :: l ++ [(false, .sec n)])

/-- The functions that a statement calls. -/
def calls : Stmt σ → List Nat
  | .prim _ | .ret _ => []
  | .call f _ => [f]
  | .seq a b | .ite _ a b | .tryExcept a _ b | .tryFinally a b => calls a ++ calls b
  | .trace _ b => calls b

/-- A call of `f` may lead to a call of `g`. -/
inductive Leads (prog : Nat → Def σ) : Nat → Nat → Prop
  | refl (f : Nat) : Leads prog f f
  | step {f g h : Nat} : g ∈ calls (prog f).body → Leads prog g h → Leads prog f h

/-- The switchers in decorators. -/
def switchers (ds : List Dec) : List Nat := ds.filterMap fun | .suppressed k => some k | .traced _ => none

/-- No suppressed function leads to a call of itself: each switcher belongs to one decorator, whose function is not called again while it runs. -/
structure NoReentry (prog : Nat → Def σ) : Prop where
  once : ∀ f, (switchers (prog f).decs).Nodup
  back : ∀ f k, k ∈ switchers (prog f).decs → ∀ g ∈ calls (prog f).body, ∀ h, Leads prog g h → k ∉ switchers (prog h).decs

/-- The recorded form of an event, given the ids of the sections. -/
def coded (sections : List (String × Nat)) : Ev → Bool × Nat
  | (b, .sec n) => (b, (sections.lookup n).getD 0)
  | (b, .dec id) => (b, id)

/-- The ids of sections are from the counter and different. -/
def IdsOk (w : W σ) : Prop := SectionsOk w ∧ (w.sections.map Prod.snd).Nodup

/-! ## What is kept -/

theorem section_eff {n : String} {w : W σ} :
    (section_ n w).2.user = w.user ∧ (section_ n w).2.events = w.events ∧ (section_ n w).2.thread = w.thread ∧ (section_ n w).2.process = w.process ∧ (section_ n w).2.old = w.old ∧
      (∀ m j, w.sections.lookup m = some j → (section_ n w).2.sections.lookup m = some j) ∧
      (∀ id, (section_ n w).1 = .ok id → (section_ n w).2.sections.lookup n = some id) ∧
      (IdsOk w → IdsOk (section_ n w).2) := by
  unfold section_
  split
  · exact ⟨rfl, rfl, rfl, rfl, rfl, fun _ _ h => h, by simp, id⟩
  · split
    · rename_i id h
      exact ⟨rfl, rfl, rfl, rfl, rfl, fun _ _ h => h, by simp [h], fun h => h⟩
    · rename_i hl
      split
      · refine ⟨rfl, rfl, rfl, rfl, rfl, ?_, by simp [List.lookup_cons], ?_⟩
        · intro m j hm
          simp only [List.lookup_cons]
          split
          · rename_i he
            have := eq_of_beq he
            subst this
            rw [hl] at hm
            cases hm
          · exact hm
        · intro h
          refine ⟨?_, ?_⟩
          · intro p hp
            rcases List.mem_cons.1 hp with rfl | hp
            · exact Nat.lt_succ_self _
            · exact Nat.lt_succ_of_lt (h.1 p hp)
          · simp only [List.map_cons, List.nodup_cons]
            refine ⟨?_, h.2⟩
            intro hm
            obtain ⟨p, hp, he⟩ := List.mem_map.1 hm
            have := h.1 p hp
            omega
      · exact ⟨rfl, rfl, rfl, rfl, rfl, fun _ _ h => h, by simp, fun h => ⟨fun p hp => Nat.lt_succ_of_lt (h.1 p hp), h.2⟩⟩

/-- `f` does not touch the memory of switcher `k`. -/
def Keeps (k : Nat) (f : W σ → Out × W σ) : Prop := ∀ w, (f w).2.old k = w.old k

theorem emit_eff {entry : Bool} {id : Nat} {w w' : W σ} (h : emit entry id w = .ok w') :
    w' = { w with events := w.events ++ (if w.process && w.thread then [(entry, id)] else []) } := by
  unfold emit at h
  split at h
  · cases h
    split <;> simp
  · cases h

theorem keeps_ctx {k id : Nat} {body : W σ → Out × W σ} (hb : Keeps k body) : Keeps k (withCM (ctxEnter id) (ctxExit id) body) := by
  intro w
  unfold withCM
  split
  · rfl
  · rename_i w1 h1
    have e1 := emit_eff h1
    have hw1 : w1.old k = w.old k := by rw [e1]
    have h2 := hb w1
    split
    · rename_i w2 hw2
      rw [hw2] at h2
      exact h2.trans hw1
    · rename_i o w2 _ hw2
      rw [hw2] at h2
      split
      · exact h2.trans hw1
      · rename_i sw w3 h3
        have hw3 : w3.old k = w2.old k := by
          unfold ctxExit at h3
          cases he : emit false id w2 with
          | error e => rw [he] at h3; cases h3
          | ok w4 => rw [he] at h3; cases h3; rw [emit_eff he]
        have := hw3.trans (h2.trans hw1)
        split
        · split <;> exact this
        · exact this

theorem keeps_switch {k j : Nat} {body : W σ → Out × W σ} (hne : k ≠ j) (hb : Keeps k body) : Keeps k (withCM (switchEnter j) (switchExit j) body) := by
  intro w
  simp only [withCM, switchEnter, switchExit]
  have h2 := hb { w with old := fun i => if i = j then w.thread else w.old i, thread := false }
  simp only [hne, if_false] at h2
  rcases hw2 : body { w with old := fun i => if i = j then w.thread else w.old i, thread := false } with ⟨o, w2⟩
  rw [hw2] at h2
  replace h2 : w2.old k = w.old k := h2
  cases o <;> simp [h2]

theorem keeps_wrapped {k : Nat} {body : W σ → Out × W σ} (hb : Keeps k body) : ∀ ds : List Dec, k ∉ switchers ds → Keeps k (wrapped body ds)
  | [], _ => hb
  | .traced _ :: ds, h => keeps_ctx (keeps_wrapped hb ds (by simpa [switchers] using h))
  | .suppressed j :: ds, h => by
    simp only [switchers, List.filterMap_cons, List.mem_cons, not_or] at h
    exact keeps_switch h.1 (keeps_wrapped hb ds h.2)

theorem keeps_exec {callee : Nat → W σ → Out × W σ} {k : Nat} : ∀ s : Stmt σ, (∀ g ∈ calls s, Keeps k (callee g)) → Keeps k (exec callee s)
  | .prim f, _ => by intro w; simp only [exec]; split <;> rfl
  | .ret f, _ => by intro w; rfl
  | .seq a b, h => by
    have ha := keeps_exec a fun g hg => h g (List.mem_append_left _ hg)
    have hb := keeps_exec b fun g hg => h g (List.mem_append_right _ hg)
    intro w
    have h1 := ha w
    simp only [exec]
    split
    · rename_i w1 hr
      rw [hr] at h1
      exact (hb w1).trans h1
    · exact h1
  | .ite c a b, h => by
    have ha := keeps_exec a fun g hg => h g (List.mem_append_left _ hg)
    have hb := keeps_exec b fun g hg => h g (List.mem_append_right _ hg)
    intro w
    simp only [exec]
    split
    · exact ha w
    · exact hb w
  | .tryExcept a c b, h => by
    have ha := keeps_exec a fun g hg => h g (List.mem_append_left _ hg)
    have hb := keeps_exec b fun g hg => h g (List.mem_append_right _ hg)
    intro w
    have h1 := ha w
    simp only [exec]
    split
    · rename_i e w1 hr
      rw [hr] at h1
      split
      · exact (hb w1).trans h1
      · exact h1
    · exact h1
  | .tryFinally a b, h => by
    have ha := keeps_exec a fun g hg => h g (List.mem_append_left _ hg)
    have hb := keeps_exec b fun g hg => h g (List.mem_append_right _ hg)
    intro w
    have h1 := ha w
    simp only [exec]
    split
    · rename_i w1 hr
      rw [hr] at h1
      exact h1
    · rename_i o w1 _ hr
      rw [hr] at h1
      have h2 := hb w1
      split
      · rename_i w2 hr2
        rw [hr2] at h2
        exact h2.trans h1
      · exact h2.trans h1
  | .call f g, h => by
    have hf := h f (by simp [calls])
    intro w
    have h1 := hf w
    simp only [exec]
    split
    · rename_i hr; rw [hr] at h1; exact h1
    · rename_i hr; rw [hr] at h1; exact h1
    · exact h1
  | .trace n b, h => by
    have hb := keeps_exec b h
    intro w
    have h1 := (section_eff (n := n) (w := w)).2.2.2.2.1
    simp only [exec]
    split
    · rename_i hr; rw [hr] at h1; exact congrFun h1 k
    · rename_i id w1 hr
      rw [hr] at h1
      exact (keeps_ctx hb w1).trans (congrFun h1 k)

theorem keeps_call {prog : Nat → Def σ} {k : Nat} : ∀ fuel f, (∀ h, Leads prog f h → k ∉ switchers (prog h).decs) → Keeps k (callOf prog fuel f)
  | 0, _, _ => fun _ => rfl
  | fuel + 1, f, h => keeps_wrapped (keeps_exec _ fun g hg => keeps_call fuel g fun i hi => h i (.step hg hi)) _ (h f (.refl f))

/-! ## What is recorded -/

/-- The sections of the events have ids. -/
def Known (sections : List (String × Nat)) (l : List Ev) : Prop := ∀ b n, (b, Label.sec n) ∈ l → (sections.lookup n).isSome = true

/-- Names keep their ids. -/
def Ext (a b : List (String × Nat)) : Prop := ∀ m j, a.lookup m = some j → b.lookup m = some j

theorem coded_ext {a b : List (String × Nat)} (h : Ext a b) {l : List Ev} (hk : Known a l) : l.map (coded b) = l.map (coded a) := by
  apply List.map_congr_left
  rintro ⟨x, y⟩ hm
  cases y with
  | dec id => rfl
  | sec n =>
    have := hk x n hm
    obtain ⟨j, hj⟩ := Option.isSome_iff_exists.1 this
    simp [coded, hj, h n j hj]

theorem known_ext {a b : List (String × Nat)} (h : Ext a b) {l : List Ev} (hk : Known a l) : Known b l := by
  intro x n hm
  obtain ⟨j, hj⟩ := Option.isSome_iff_exists.1 (hk x n hm)
  simp [h n j hj]

/-- `f` does what `R` says, and records it if tracing is on. -/
def Records (f : W σ → Out × W σ) (R : σ → Out → σ → List Ev → Prop) : Prop :=
  ∀ w, IdsOk w → w.process = true → (f w).2.next ≤ 2 ^ 32 → (f w).1 ≠ .timeout →
    ∃ l, R w.user (f w).1 (f w).2.user l ∧ (f w).2.events = w.events ++ (if w.thread then l.map (coded (f w).2.sections) else []) ∧ (f w).2.thread = w.thread ∧ (f w).2.process = true ∧
      Known (f w).2.sections l ∧ Ext w.sections (f w).2.sections ∧ IdsOk (f w).2

theorem records_ctx {id : Nat} (hid : id < 2 ^ 32) {lab : Label} {body : W σ → Out × W σ} {R : σ → Out → σ → List Ev → Prop} (hb : Records body R) (w : W σ) (hw : IdsOk w) (hp : w.process = true)
    (hlim : (withCM (ctxEnter id) (ctxExit id) body w).2.next ≤ 2 ^ 32) (hto : (withCM (ctxEnter id) (ctxExit id) body w).1 ≠ .timeout)
    (hlab : lab = .dec id ∨ ∃ n, lab = .sec n ∧ w.sections.lookup n = some id) :
    ∃ l, R w.user (withCM (ctxEnter id) (ctxExit id) body w).1 (withCM (ctxEnter id) (ctxExit id) body w).2.user l ∧
      (withCM (ctxEnter id) (ctxExit id) body w).2.events =
        w.events ++ (if w.thread then ((true, lab) :: l ++ [(false, lab)]).map (coded (withCM (ctxEnter id) (ctxExit id) body w).2.sections) else []) ∧
      (withCM (ctxEnter id) (ctxExit id) body w).2.thread = w.thread ∧ (withCM (ctxEnter id) (ctxExit id) body w).2.process = true ∧
      Known (withCM (ctxEnter id) (ctxExit id) body w).2.sections ((true, lab) :: l ++ [(false, lab)]) ∧ Ext w.sections (withCM (ctxEnter id) (ctxExit id) body w).2.sections ∧
      IdsOk (withCM (ctxEnter id) (ctxExit id) body w).2 := by
  have hent : ctxEnter id w = .ok { w with events := w.events ++ (if w.process && w.thread then [(true, id)] else []) } := by
    obtain ⟨w', h, _⟩ := emit_ok (entry := true) (w := w) hid
    have := emit_eff h
    subst this
    exact h
  have hexit : ∀ w2 : W σ, ctxExit id w2 = .ok (false, { w2 with events := w2.events ++ (if w2.process && w2.thread then [(false, id)] else []) }) := by
    intro w2
    obtain ⟨w', h, _⟩ := emit_ok (entry := false) (w := w2) hid
    have := emit_eff h
    subst this
    simp [ctxExit, h, Except.map]
  have hres := hb { w with events := w.events ++ (if w.process && w.thread then [(true, id)] else []) } hw hp
  rcases hr : body { w with events := w.events ++ (if w.process && w.thread then [(true, id)] else []) } with ⟨o, w2⟩
  rw [hr] at hres
  have hwith : withCM (ctxEnter id) (ctxExit id) body w = (o, if o = .timeout then w2 else { w2 with events := w2.events ++ (if w2.process && w2.thread then [(false, id)] else []) }) := by
    unfold withCM
    rw [hent]
    simp only [hr]
    cases o <;> simp [hexit]
  rw [hwith] at hlim hto ⊢
  simp only at hto hlim ⊢
  rw [if_neg hto] at hlim ⊢
  obtain ⟨l, h1, h2, h3, h4, h5, h6, h7⟩ := hres hlim hto
  have hlook : (coded w2.sections (true, lab)) = (true, id) ∧ (coded w2.sections (false, lab)) = (false, id) ∧ ∀ n, lab = .sec n → (w2.sections.lookup n).isSome = true := by
    rcases hlab with rfl | ⟨n, rfl, hn⟩
    · exact ⟨rfl, rfl, by simp⟩
    · have := h6 n id hn
      refine ⟨by simp [coded, this], by simp [coded, this], ?_⟩
      intro m hm
      cases hm
      simp [this]
  refine ⟨l, h1, ?_, h3, h4, ?_, h6, h7⟩
  · replace h3 : w2.thread = w.thread := h3
    replace h4 : w2.process = true := h4
    simp only [hp, Bool.true_and] at h2
    cases ht : w.thread
    · simp [h2, h3, h4, ht]
    · simp [h2, h3, h4, ht, hlook.1, hlook.2.1]
  · intro b n hm
    simp only [List.cons_append, List.mem_cons, List.mem_append, List.not_mem_nil, or_false, Prod.mk.injEq] at hm
    rcases hm with ⟨_, h⟩ | hm | ⟨_, h⟩
    · exact hlook.2.2 n h.symm
    · exact h5 b n hm
    · exact hlook.2.2 n h.symm

theorem records_wrapped {body : W σ → Out × W σ} {R : σ → Out → σ → List Ev → Prop} (hb : Records body R) : ∀ ds : List Dec, DecsOk ds → (switchers ds).Nodup → (∀ k ∈ switchers ds, Keeps k body) →
    Records (wrapped body ds) (fun u o u' l => ∃ l0, R u o u' l0 ∧ l = decorated l0 ds)
  | [], _, _, _ => by
    intro w hw hp hlim hto
    obtain ⟨l, h1, h2⟩ := hb w hw hp hlim hto
    exact ⟨l, ⟨l, h1, rfl⟩, h2⟩
  | .traced id :: ds, hd, hn, hk => by
    have ih := records_wrapped hb ds (fun i hi => hd i (List.mem_cons_of_mem _ hi)) (by simpa [switchers] using hn) (by simpa [switchers] using hk)
    intro w hw hp hlim hto
    obtain ⟨l, ⟨l0, h0, rfl⟩, h2⟩ := records_ctx (hd id List.mem_cons_self) (lab := .dec id) ih w hw hp hlim hto (.inl rfl)
    exact ⟨_, ⟨l0, h0, rfl⟩, h2⟩
  | .suppressed k :: ds, hd, hn, hk => by
    simp only [switchers, List.filterMap_cons, List.nodup_cons] at hn
    have ih := records_wrapped hb ds (fun i hi => hd i (List.mem_cons_of_mem _ hi)) hn.2 (fun j hj => hk j (by simp only [switchers, List.filterMap_cons]; exact List.mem_cons_of_mem _ hj))
    have hkeep : Keeps k (wrapped body ds) := keeps_wrapped (hk k (by simp [switchers])) ds hn.1
    intro w hw hp hlim hto
    have hres := ih { w with old := fun i => if i = k then w.thread else w.old i, thread := false } hw hp
    have hold := hkeep { w with old := fun i => if i = k then w.thread else w.old i, thread := false }
    rcases hr : wrapped body ds { w with old := fun i => if i = k then w.thread else w.old i, thread := false } with ⟨o, w2⟩
    rw [hr] at hres hold
    have hwith : wrapped body (.suppressed k :: ds) w = (o, if o = .timeout then w2 else { w2 with thread := w2.old k }) := by
      simp only [wrapped, withCM, switchEnter, switchExit, hr]
      cases o <;> simp
    rw [hwith] at hlim hto ⊢
    simp only at hto hlim ⊢
    rw [if_neg hto] at hlim ⊢
    obtain ⟨l, ⟨l0, h0, rfl⟩, h2, h3, h4, h5, h6, h7⟩ := hres hlim hto
    simp only [if_true] at hold
    refine ⟨[], ⟨l0, h0, rfl⟩, ?_, hold, h4, (fun b n hm => by cases hm), h6, h7⟩
    simpa using h2

/-- Two parts, one after the other. -/
theorem records_append {e0 e1 e2 : List (Bool × Nat)} {t : Bool} {s1 s2 : List (String × Nat)} {l1 l2 : List Ev} (h1 : e1 = e0 ++ (if t then l1.map (coded s1) else []))
    (h2 : e2 = e1 ++ (if t then l2.map (coded s2) else [])) (hk : Known s1 l1) (hx : Ext s1 s2) : e2 = e0 ++ (if t then (l1 ++ l2).map (coded s2) else []) := by
  subst h1 h2
  cases t
  · simp
  · simp only [if_true, List.map_append, coded_ext hx hk, List.append_assoc]

theorem known_append {s1 s2 : List (String × Nat)} {l1 l2 : List Ev} (hk : Known s1 l1) (hx : Ext s1 s2) (h2 : Known s2 l2) : Known s2 (l1 ++ l2) := by
  intro b n hm
  rcases List.mem_append.1 hm with hm | hm
  · exact known_ext hx hk b n hm
  · exact h2 b n hm

theorem ext_trans {a b c : List (String × Nat)} (h1 : Ext a b) (h2 : Ext b c) : Ext a c := fun m j h => h2 m j (h1 m j h)

theorem records_exec {prog : Nat → Def σ} {callee : Nat → W σ → Out × W σ} (hg : ∀ s, NamesOk s → Grows (exec callee s))
    (hc : ∀ f, Records (callee f) (fun u o u' l => ∃ l0, Runs prog (prog f).body u o u' l0 ∧ l = decorated l0 (prog f).decs)) :
    ∀ s : Stmt σ, NamesOk s → Records (exec callee s) (Runs prog s)
  | .prim f, _ => by
    intro w hw hp _ _
    simp only [exec]
    split
    · rename_i u hu
      exact ⟨[], .prim hu, by simp, rfl, hp, (fun _ _ h => by cases h), (fun _ _ h => h), hw⟩
    · rename_i n hu
      exact ⟨[], .primRaise hu, by simp, rfl, hp, (fun _ _ h => by cases h), (fun _ _ h => h), hw⟩
  | .ret f, _ => by
    intro w hw hp _ _
    exact ⟨[], .ret, by simp [exec], rfl, hp, (fun _ _ h => by cases h), (fun _ _ h => h), hw⟩
  | .seq a b, hn => by
    have na : NamesOk a := fun n h => hn n (List.mem_append_left _ h)
    have nb : NamesOk b := fun n h => hn n (List.mem_append_right _ h)
    have ra := records_exec hg hc a na
    have rb := records_exec hg hc b nb
    intro w hw hp hlim hto
    simp only [exec] at hlim hto ⊢
    have h1 := ra w hw hp
    have g1 := hg a na w hw.1
    rcases hr : exec callee a w with ⟨o, w1⟩
    rw [hr] at h1 hlim hto g1
    cases o
    case normal =>
      simp only at hlim hto ⊢
      have g2 := hg b nb w1 g1.2
      obtain ⟨l1, r1, e1, t1, p1, k1, x1, i1⟩ := h1 (Nat.le_trans g2.1 hlim) (by simp)
      obtain ⟨l2, r2, e2, t2, p2, k2, x2, i2⟩ := rb w1 i1 p1 hlim hto
      simp only at e1 t1 k1 x1
      rw [t1] at e2
      exact ⟨l1 ++ l2, .seq r1 r2, records_append e1 e2 k1 x2, t2.trans t1, p2, known_append k1 x2 k2, ext_trans x1 x2, i2⟩
    case timeout => exact absurd rfl hto
    all_goals
      obtain ⟨l1, r1, h2⟩ := h1 hlim hto
      exact ⟨l1, .seqStop r1 (by simp), h2⟩
  | .ite c a b, hn => by
    have na : NamesOk a := fun n h => hn n (List.mem_append_left _ h)
    have nb : NamesOk b := fun n h => hn n (List.mem_append_right _ h)
    have ra := records_exec hg hc a na
    have rb := records_exec hg hc b nb
    intro w hw hp hlim hto
    simp only [exec] at hlim hto ⊢
    by_cases hcw : c w.user = true
    · rw [if_pos hcw] at hlim hto ⊢
      obtain ⟨l, r, h⟩ := ra w hw hp hlim hto
      exact ⟨l, .iteTrue hcw r, h⟩
    · rw [if_neg hcw] at hlim hto ⊢
      obtain ⟨l, r, h⟩ := rb w hw hp hlim hto
      exact ⟨l, .iteFalse (by simpa using hcw) r, h⟩
  | .tryExcept a c b, hn => by
    have na : NamesOk a := fun n h => hn n (List.mem_append_left _ h)
    have nb : NamesOk b := fun n h => hn n (List.mem_append_right _ h)
    have ra := records_exec hg hc a na
    have rb := records_exec hg hc b nb
    intro w hw hp hlim hto
    simp only [exec] at hlim hto ⊢
    have h1 := ra w hw hp
    have g1 := hg a na w hw.1
    rcases hr : exec callee a w with ⟨o, w1⟩
    rw [hr] at h1 hlim hto g1
    cases o
    case raised e =>
      simp only at hlim hto ⊢
      by_cases hce : c e = true
      · rw [if_pos hce] at hlim hto ⊢
        have g2 := hg b nb w1 g1.2
        obtain ⟨l1, r1, e1, t1, p1, k1, x1, i1⟩ := h1 (Nat.le_trans g2.1 hlim) (by simp)
        obtain ⟨l2, r2, e2, t2, p2, k2, x2, i2⟩ := rb w1 i1 p1 hlim hto
        simp only at e1 t1 k1 x1
        rw [t1] at e2
        exact ⟨l1 ++ l2, .tryCatch r1 hce r2, records_append e1 e2 k1 x2, t2.trans t1, p2, known_append k1 x2 k2, ext_trans x1 x2, i2⟩
      · rw [if_neg hce] at hlim hto ⊢
        obtain ⟨l1, r1, h2⟩ := h1 hlim hto
        exact ⟨l1, .tryPass r1 (by intro e' he; cases he; simpa using hce), h2⟩
    case timeout => exact absurd rfl hto
    all_goals
      obtain ⟨l1, r1, h2⟩ := h1 hlim hto
      exact ⟨l1, .tryPass r1 (by simp), h2⟩
  | .tryFinally a b, hn => by
    have na : NamesOk a := fun n h => hn n (List.mem_append_left _ h)
    have nb : NamesOk b := fun n h => hn n (List.mem_append_right _ h)
    have ra := records_exec hg hc a na
    have rb := records_exec hg hc b nb
    intro w hw hp hlim hto
    simp only [exec] at hlim hto ⊢
    have h1 := ra w hw hp
    have g1 := hg a na w hw.1
    rcases hr : exec callee a w with ⟨o, w1⟩
    rw [hr] at h1 hlim hto g1
    have g2 := hg b nb w1 g1.2
    have h2 := rb w1
    rcases hr2 : exec callee b w1 with ⟨o2, w2⟩
    rw [hr2] at g2 h2
    cases o
    case timeout => exact absurd rfl hto
    all_goals
      simp only [hr2] at hlim hto ⊢
      have hl : w2.next ≤ 2 ^ 32 := by cases o2 <;> exact hlim
      have ht2 : o2 ≠ .timeout := by intro he; subst he; exact hto rfl
      obtain ⟨l1, r1, e1, t1, p1, k1, x1, i1⟩ := h1 (Nat.le_trans g2.1 hl) (by simp)
      obtain ⟨l2, r2, e2, t2, p2, k2, x2, i2⟩ := h2 i1 p1 hl ht2
      simp only at e1 t1 k1 x1 e2 t2 p2 k2 x2 i2
      rw [t1] at e2
      have rest := And.intro (records_append e1 e2 k1 x2) (And.intro (t2.trans t1) (And.intro p2 (And.intro (known_append k1 x2 k2) (And.intro (ext_trans x1 x2) i2))))
      cases o2
      case timeout => exact absurd rfl ht2
      case normal => exact ⟨l1 ++ l2, .fin r1 r2, rest⟩
      all_goals exact ⟨l1 ++ l2, .finOver r1 r2 (by simp), rest⟩
  | .call f k, _ => by
    intro w hw hp hlim hto
    simp only [exec] at hlim hto ⊢
    have h1 := hc f w hw hp
    rcases hr : callee f w with ⟨o, w1⟩
    rw [hr] at h1 hlim hto
    cases o
    case timeout => exact absurd rfl hto
    all_goals obtain ⟨l, ⟨l0, r0, rfl⟩, h2⟩ := h1 hlim (by simp)
    · exact ⟨_, .callEnd r0, h2⟩
    · exact ⟨_, .callReturn r0, h2⟩
    · exact ⟨_, .callRaise r0, h2⟩
  | .trace n b, hn => by
    have nb : NamesOk b := fun m h => hn m (List.mem_cons_of_mem _ h)
    have rb := records_exec hg hc b nb
    have hres := not_reserved (hn n List.mem_cons_self)
    intro w hw hp hlim hto
    obtain ⟨s1, s2, s3, s4, _, s6, s7, s8⟩ := section_eff (n := n) (w := w)
    obtain ⟨w1, _, _, _, ⟨id, ⟨h4, _, h5⟩ | ⟨h4, h5⟩⟩ | ⟨id, h4, h5, h6⟩⟩ := section_cases hres hw.1
    · rw [h4] at s1 s2 s3 s4 s6 s7 s8
      simp only [exec, h4] at hlim hto s1 s2 s3 s4 s6 s7 s8 ⊢
      obtain ⟨l, r, e, t, p, k, x, i⟩ := records_ctx h5 (lab := .sec n) rb w1 (s8 hw) (s4.trans hp) hlim hto (.inr ⟨n, rfl, s7 id rfl⟩)
      rw [s1] at r
      rw [s2, s3] at e
      exact ⟨_, .trace r, e, t.trans s3, p, k, ext_trans s6 x, i⟩
    · simp only [exec, h4] at hlim
      exact absurd hlim (Nat.not_le.2 h5)
    · simp only [exec, h4, with_large h5] at hlim
      exact absurd hlim (Nat.not_le.2 (Nat.lt_of_le_of_lt h5 h6))

theorem records_call {prog : Nat → Def σ} (h : ProgOk prog) (hn : NoReentry prog) : ∀ fuel f,
    Records (callOf prog fuel f) (fun u o u' l => ∃ l0, Runs prog (prog f).body u o u' l0 ∧ l = decorated l0 (prog f).decs)
  | 0, _ => fun _ _ _ _ hto => absurd rfl hto
  | fuel + 1, f => by
    have hg : ∀ s : Stmt σ, NamesOk s → Grows (exec (callOf prog fuel) s) := fun s hs => (exec_both (fun f => (call_both h fuel f).1) (fun f => (call_both h fuel f).2) s hs).1
    refine records_wrapped (records_exec hg (fun g => records_call h hn fuel g) _ (h.names f)) _ (h.decs f) (hn.once f) ?_
    intro k hk
    exact keeps_exec _ fun g hg => keeps_call fuel g fun i hi => hn.back f k hk g hg i hi

/-! ## Programs that do not record -/

/-- `f` records nothing if tracing is off for the thread, and leaves it off. -/
def Quiet (f : W σ → Out × W σ) : Prop := ∀ w, w.thread = false → (f w).2.thread = false ∧ (f w).2.events = w.events ∧ ∀ k, w.old k = false → (f w).2.old k = false

theorem quiet_ctx {id : Nat} {body : W σ → Out × W σ} (hb : Quiet body) : Quiet (withCM (ctxEnter id) (ctxExit id) body) := by
  intro w ht
  unfold withCM
  split
  · exact ⟨ht, rfl, fun _ h => h⟩
  · rename_i w1 h1
    have e1 := emit_eff h1
    simp only [ht, Bool.and_false, Bool.false_eq_true, if_false, List.append_nil] at e1
    have h2 := hb w1 (by rw [e1])
    have hev : w1.events = w.events := by rw [e1]
    have hold : ∀ k, w1.old k = w.old k := by intro k; rw [e1]
    rw [hev] at h2
    simp only [hold] at h2
    split
    · rename_i w2 hw2
      rw [hw2] at h2
      exact h2
    · rename_i o w2 _ hw2
      rw [hw2] at h2
      split
      · exact h2
      · rename_i sw w3 h3
        have hw3 : w3 = w2 := by
          unfold ctxExit at h3
          cases he : emit false id w2 with
          | error e => rw [he] at h3; cases h3
          | ok w4 =>
            rw [he] at h3
            cases h3
            have ht2 : w2.thread = false := h2.1
            have hoff : (w2.process && w2.thread) = false := by rw [ht2, Bool.and_false]
            simpa only [hoff, Bool.false_eq_true, if_false, List.append_nil] using emit_eff he
        subst hw3
        split
        · split <;> exact h2
        · exact h2

theorem quiet_switch {j : Nat} {body : W σ → Out × W σ} (hb : Quiet body) : Quiet (withCM (switchEnter j) (switchExit j) body) := by
  intro w ht
  simp only [withCM, switchEnter, switchExit]
  have h2 := hb { w with old := fun i => if i = j then w.thread else w.old i, thread := false } rfl
  rcases hw2 : body { w with old := fun i => if i = j then w.thread else w.old i, thread := false } with ⟨o, w2⟩
  rw [hw2] at h2
  have hj : w2.old j = false := h2.2.2 j (by simp [ht])
  have hall : ∀ k, w.old k = false → w2.old k = false := by
    intro k hk
    apply h2.2.2 k
    simp only
    split
    · exact ht
    · exact hk
  have he : w2.events = w.events := h2.2.1
  have ht2 : w2.thread = false := h2.1
  cases o
  case timeout => exact ⟨ht2, he, hall⟩
  all_goals exact ⟨hj, he, hall⟩

theorem quiet_wrapped {body : W σ → Out × W σ} (hb : Quiet body) : ∀ ds : List Dec, Quiet (wrapped body ds)
  | [] => hb
  | .traced _ :: ds => quiet_ctx (quiet_wrapped hb ds)
  | .suppressed _ :: ds => quiet_switch (quiet_wrapped hb ds)

theorem quiet_then {w w1 w2 : W σ} (h1 : w1.thread = false ∧ w1.events = w.events ∧ ∀ k, w.old k = false → w1.old k = false)
    (h2 : w2.thread = false ∧ w2.events = w1.events ∧ ∀ k, w1.old k = false → w2.old k = false) : w2.thread = false ∧ w2.events = w.events ∧ ∀ k, w.old k = false → w2.old k = false :=
  ⟨h2.1, h2.2.1.trans h1.2.1, fun k h => h2.2.2 k (h1.2.2 k h)⟩

theorem quiet_exec {callee : Nat → W σ → Out × W σ} (hc : ∀ f, Quiet (callee f)) : ∀ s : Stmt σ, Quiet (exec callee s)
  | .prim f => by intro w ht; simp only [exec]; split <;> exact ⟨ht, rfl, fun _ h => h⟩
  | .ret f => fun w ht => ⟨ht, rfl, fun _ h => h⟩
  | .seq a b => by
    intro w ht
    have h1 := quiet_exec hc a w ht
    simp only [exec]
    split
    · rename_i w1 hr
      rw [hr] at h1
      exact quiet_then h1 (quiet_exec hc b w1 h1.1)
    · exact h1
  | .ite c a b => by
    intro w ht
    simp only [exec]
    split
    · exact quiet_exec hc a w ht
    · exact quiet_exec hc b w ht
  | .tryExcept a c b => by
    intro w ht
    have h1 := quiet_exec hc a w ht
    simp only [exec]
    split
    · rename_i e w1 hr
      rw [hr] at h1
      split
      · exact quiet_then h1 (quiet_exec hc b w1 h1.1)
      · exact h1
    · exact h1
  | .tryFinally a b => by
    intro w ht
    have h1 := quiet_exec hc a w ht
    simp only [exec]
    split
    · rename_i w1 hr
      rw [hr] at h1
      exact h1
    · rename_i o w1 _ hr
      rw [hr] at h1
      have h2 := quiet_then h1 (quiet_exec hc b w1 h1.1)
      split
      · rename_i w2 hr2
        rw [hr2] at h2
        exact h2
      · exact h2
  | .call f g => by
    intro w ht
    have h1 := hc f w ht
    simp only [exec]
    split
    · rename_i hr; rw [hr] at h1; exact h1
    · rename_i hr; rw [hr] at h1; exact h1
    · exact h1
  | .trace n b => by
    intro w ht
    obtain ⟨_, s2, s3, _, s5, _⟩ := section_eff (n := n) (w := w)
    simp only [exec]
    split
    · rename_i hr
      rw [hr] at s2 s3 s5
      exact ⟨s3.trans ht, s2, fun k h => (congrFun s5 k).trans h⟩
    · rename_i id w1 hr
      rw [hr] at s2 s3 s5
      exact quiet_then ⟨s3.trans ht, s2, fun k h => (congrFun s5 k).trans h⟩ (quiet_ctx (quiet_exec hc b) w1 (s3.trans ht))

theorem quiet_call (prog : Nat → Def σ) : ∀ fuel f, Quiet (callOf prog fuel f)
  | 0, _ => fun _ ht => ⟨ht, rfl, fun _ h => h⟩
  | fuel + 1, _ => quiet_wrapped (quiet_exec (fun g => quiet_call prog fuel g) _) _

/-- The same for a process in which tracing is off. -/
def Off (f : W σ → Out × W σ) : Prop := ∀ w, w.process = false → (f w).2.process = false ∧ (f w).2.events = w.events

theorem off_ctx {id : Nat} {body : W σ → Out × W σ} (hb : Off body) : Off (withCM (ctxEnter id) (ctxExit id) body) := by
  intro w ht
  unfold withCM
  split
  · exact ⟨ht, rfl⟩
  · rename_i w1 h1
    have e1 := emit_eff h1
    simp only [ht, Bool.false_and, Bool.false_eq_true, if_false, List.append_nil] at e1
    have h2 := hb w1 (by rw [e1])
    have hev : w1.events = w.events := by rw [e1]
    rw [hev] at h2
    split
    · rename_i w2 hw2
      rw [hw2] at h2
      exact h2
    · rename_i o w2 _ hw2
      rw [hw2] at h2
      split
      · exact h2
      · rename_i sw w3 h3
        have hw3 : w3 = w2 := by
          unfold ctxExit at h3
          cases he : emit false id w2 with
          | error e => rw [he] at h3; cases h3
          | ok w4 =>
            rw [he] at h3
            cases h3
            have ht2 : w2.process = false := h2.1
            have hoff : (w2.process && w2.thread) = false := by rw [ht2, Bool.false_and]
            simpa only [hoff, Bool.false_eq_true, if_false, List.append_nil] using emit_eff he
        subst hw3
        split
        · split <;> exact h2
        · exact h2

theorem off_switch {j : Nat} {body : W σ → Out × W σ} (hb : Off body) : Off (withCM (switchEnter j) (switchExit j) body) := by
  intro w ht
  simp only [withCM, switchEnter, switchExit]
  have h2 := hb { w with old := fun i => if i = j then w.thread else w.old i, thread := false } ht
  rcases hw2 : body { w with old := fun i => if i = j then w.thread else w.old i, thread := false } with ⟨o, w2⟩
  rw [hw2] at h2
  cases o <;> exact h2

theorem off_wrapped {body : W σ → Out × W σ} (hb : Off body) : ∀ ds : List Dec, Off (wrapped body ds)
  | [] => hb
  | .traced _ :: ds => off_ctx (off_wrapped hb ds)
  | .suppressed _ :: ds => off_switch (off_wrapped hb ds)

theorem off_then {w w1 w2 : W σ} (h1 : w1.process = false ∧ w1.events = w.events) (h2 : w2.process = false ∧ w2.events = w1.events) : w2.process = false ∧ w2.events = w.events :=
  ⟨h2.1, h2.2.trans h1.2⟩

theorem off_exec {callee : Nat → W σ → Out × W σ} (hc : ∀ f, Off (callee f)) : ∀ s : Stmt σ, Off (exec callee s)
  | .prim f => by intro w ht; simp only [exec]; split <;> exact ⟨ht, rfl⟩
  | .ret f => fun w ht => ⟨ht, rfl⟩
  | .seq a b => by
    intro w ht
    have h1 := off_exec hc a w ht
    simp only [exec]
    split
    · rename_i w1 hr
      rw [hr] at h1
      exact off_then h1 (off_exec hc b w1 h1.1)
    · exact h1
  | .ite c a b => by
    intro w ht
    simp only [exec]
    split
    · exact off_exec hc a w ht
    · exact off_exec hc b w ht
  | .tryExcept a c b => by
    intro w ht
    have h1 := off_exec hc a w ht
    simp only [exec]
    split
    · rename_i e w1 hr
      rw [hr] at h1
      split
      · exact off_then h1 (off_exec hc b w1 h1.1)
      · exact h1
    · exact h1
  | .tryFinally a b => by
    intro w ht
    have h1 := off_exec hc a w ht
    simp only [exec]
    split
    · rename_i w1 hr
      rw [hr] at h1
      exact h1
    · rename_i o w1 _ hr
      rw [hr] at h1
      have h2 := off_then h1 (off_exec hc b w1 h1.1)
      split
      · rename_i w2 hr2
        rw [hr2] at h2
        exact h2
      · exact h2
  | .call f g => by
    intro w ht
    have h1 := hc f w ht
    simp only [exec]
    split
    · rename_i hr; rw [hr] at h1; exact h1
    · rename_i hr; rw [hr] at h1; exact h1
    · exact h1
  | .trace n b => by
    intro w ht
    obtain ⟨_, s2, _, s3, _⟩ := section_eff (n := n) (w := w)
    simp only [exec]
    split
    · rename_i hr
      rw [hr] at s2 s3
      exact ⟨s3.trans ht, s2⟩
    · rename_i id w1 hr
      rw [hr] at s2 s3
      exact off_then ⟨s3.trans ht, s2⟩ (off_ctx (off_exec hc b) w1 (s3.trans ht))

theorem off_call (prog : Nat → Def σ) : ∀ fuel f, Off (callOf prog fuel f)
  | 0, _ => fun _ ht => ⟨ht, rfl⟩
  | fuel + 1, _ => off_wrapped (off_exec (fun g => off_call prog fuel g) _) _

/-! ## The property -/

/-- **C125.** A traced program that ends has a run of the specification, and if tracing is on has recorded exactly what this run enters and leaves, in this order. The tracing switches are as before. Every
section has one id, which it keeps. -/
theorem records {prog : Nat → Def σ} (h : ProgOk prog) (hn : NoReentry prog) (fuel : Nat) (s : Stmt σ) (hs : NamesOk s) {w w' : W σ} {o : Out} (hw : IdsOk w) (hp : w.process = true) (ht : w.thread = true)
    (he : exec (callOf prog fuel) s w = (o, w')) (ho : o ≠ .timeout) (hlim : w'.next ≤ 2 ^ 32) :
    ∃ l, Runs prog s w.user o w'.user l ∧ w'.events = w.events ++ l.map (coded w'.sections) ∧ w'.thread = true ∧ w'.process = true ∧
      (∀ b n, (b, Label.sec n) ∈ l → ∃ id, w'.sections.lookup n = some id) ∧ (∀ n id, w.sections.lookup n = some id → w'.sections.lookup n = some id) ∧ IdsOk w' := by
  have hg : ∀ s : Stmt σ, NamesOk s → Grows (exec (callOf prog fuel) s) := fun s hs => (exec_both (fun f => (call_both h fuel f).1) (fun f => (call_both h fuel f).2) s hs).1
  have := records_exec hg (fun g => records_call h hn fuel g) s hs w hw hp
  rw [he] at this
  obtain ⟨l, h1, h2, h3, h4, h5, h6, h7⟩ := this hlim ho
  rw [ht, if_pos rfl] at h2
  exact ⟨l, h1, h2, h3.trans ht, h4, fun b n hm => Option.isSome_iff_exists.1 (h5 b n hm), h6, h7⟩

/-- If tracing is off for the thread or the process, nothing is recorded, whatever the program is, and tracing stays off; the program still does what the specification says if it ends. -/
theorem off_records_nothing (prog : Nat → Def σ) (fuel : Nat) (s : Stmt σ) (w : W σ) :
    (w.thread = false → (exec (callOf prog fuel) s w).2.events = w.events ∧ (exec (callOf prog fuel) s w).2.thread = false) ∧
    (w.process = false → (exec (callOf prog fuel) s w).2.events = w.events ∧ (exec (callOf prog fuel) s w).2.process = false) := by
  constructor
  · intro ht
    have := quiet_exec (quiet_call prog fuel) s w ht
    exact ⟨this.2.1, this.1⟩
  · intro hp
    have := off_exec (off_call prog fuel) s w hp
    exact ⟨this.2, this.1⟩

/-- Different sections have different ids. -/
theorem ids_differ {w : W σ} (h : IdsOk w) {m n : String} {i j : Nat} (hm : w.sections.lookup m = some i) (hn : w.sections.lookup n = some j) (hne : m ≠ n) : i ≠ j := by
  have h1 := lookup_mem hm
  have h2 := lookup_mem hn
  have hnd := h.2
  clear hm hn h
  revert h1 h2 hnd
  generalize w.sections = l
  intro h1 h2 hnd
  induction l with
  | nil => cases h1
  | cons p l ih =>
    simp only [List.map_cons, List.nodup_cons] at hnd
    intro hij
    subst hij
    rcases List.mem_cons.1 h1 with q1 | q1 <;> rcases List.mem_cons.1 h2 with q2 | q2
    · rw [← q2] at q1; cases q1; exact hne rfl
    · subst q1; exact hnd.1 (List.mem_map.2 ⟨_, q2, rfl⟩)
    · subst q2; exact hnd.1 (List.mem_map.2 ⟨_, q1, rfl⟩)
    · exact ih q1 q2 hnd.2 rfl

/-! ## What the specification says -/

/-- Lists of events in which everything that is entered is left again, the last one entered first. -/
inductive Nested : List Ev → Prop
  | nil : Nested []
  | wrap {l : List Ev} (x : Label) : Nested l → Nested ((true, x) :: l ++ [(false, x)])
  | append {a b : List Ev} : Nested a → Nested b → Nested (a ++ b)

theorem nested_decorated {l : List Ev} (h : Nested l) : ∀ ds, Nested (decorated l ds)
  | [] => h
  | .traced id :: ds => .wrap _ (nested_decorated h ds)
  | .suppressed _ :: _ => .nil

/-- The events of a run are nested, also if it ends with an exception or returns from the middle of sections. -/
theorem runs_nested {prog : Nat → Def σ} {s : Stmt σ} {u u' : σ} {o : Out} {l : List Ev} (h : Runs prog s u o u' l) : Nested l := by
  induction h with
  | prim | primRaise | ret => exact .nil
  | seq _ _ h1 h2 => exact .append h1 h2
  | seqStop _ _ h => exact h
  | iteTrue _ _ h => exact h
  | iteFalse _ _ h => exact h
  | tryPass _ _ h => exact h
  | tryCatch _ _ _ h1 h2 => exact .append h1 h2
  | fin _ _ h1 h2 => exact .append h1 h2
  | finOver _ _ _ h1 h2 => exact .append h1 h2
  | callReturn _ h => exact nested_decorated h _
  | callEnd _ h => exact nested_decorated h _
  | callRaise _ h => exact nested_decorated h _
  | trace _ h => exact .wrap _ h

/-- Runs have ended. -/
theorem runs_no_timeout {prog : Nat → Def σ} {s : Stmt σ} {u u' : σ} {o : Out} {l : List Ev} (h : Runs prog s u o u' l) : o ≠ .timeout := by
  induction h with
  | tryPass _ _ h => exact h
  | seqStop _ _ h => exact h
  | iteTrue _ _ h => exact h
  | iteFalse _ _ h => exact h
  | seq _ _ _ h => exact h
  | tryCatch _ _ _ _ h => exact h
  | fin _ _ h _ => exact h
  | finOver _ _ _ _ h => exact h
  | trace _ h => exact h
  | _ => simp

/-- The specification leaves no choice: what a program does and enters follows from where it starts. -/
theorem runs_unique {prog : Nat → Def σ} {s : Stmt σ} {u u1 : σ} {o1 : Out} {l1 : List Ev} (h1 : Runs prog s u o1 u1 l1) : ∀ {o2 u2 l2}, Runs prog s u o2 u2 l2 → o1 = o2 ∧ u1 = u2 ∧ l1 = l2 := by
  induction h1 with
  | prim h =>
    intro o2 u2 l2 h2
    cases h2 with
    | prim h' => rw [h] at h'; cases h'; exact ⟨rfl, rfl, rfl⟩
    | primRaise h' => rw [h] at h'; cases h'
  | primRaise h =>
    intro o2 u2 l2 h2
    cases h2 with
    | prim h' => rw [h] at h'; cases h'
    | primRaise h' => rw [h] at h'; cases h'; exact ⟨rfl, rfl, rfl⟩
  | ret => intro o2 u2 l2 h2; cases h2; exact ⟨rfl, rfl, rfl⟩
  | seq _ _ iha ihb =>
    intro o2 u2 l2 h2
    cases h2 with
    | seq a b => obtain ⟨_, rfl, rfl⟩ := iha a; obtain ⟨rfl, rfl, rfl⟩ := ihb b; exact ⟨rfl, rfl, rfl⟩
    | seqStop a hne => exact absurd (iha a).1.symm hne
  | seqStop _ hne iha =>
    intro o2 u2 l2 h2
    cases h2 with
    | seq a b => exact absurd (iha a).1 hne
    | seqStop a _ => exact iha a
  | iteTrue hc _ ih =>
    intro o2 u2 l2 h2
    cases h2 with
    | iteTrue _ a => exact ih a
    | iteFalse hc' _ => rw [hc] at hc'; cases hc'
  | iteFalse hc _ ih =>
    intro o2 u2 l2 h2
    cases h2 with
    | iteTrue hc' _ => rw [hc] at hc'; cases hc'
    | iteFalse _ a => exact ih a
  | tryPass _ hp ih =>
    intro o2 u2 l2 h2
    cases h2 with
    | tryPass a _ => exact ih a
    | tryCatch a hc _ => have := hp _ (ih a).1; rw [hc] at this; cases this
  | tryCatch _ hc _ iha ihb =>
    intro o2 u2 l2 h2
    cases h2 with
    | tryPass a hp => have := hp _ (iha a).1.symm; rw [hc] at this; cases this
    | tryCatch a _ b => obtain ⟨_, rfl, rfl⟩ := iha a; obtain ⟨rfl, rfl, rfl⟩ := ihb b; exact ⟨rfl, rfl, rfl⟩
  | fin _ _ iha ihb =>
    intro o2 u2 l2 h2
    cases h2 with
    | fin a b => obtain ⟨rfl, rfl, rfl⟩ := iha a; obtain ⟨_, rfl, rfl⟩ := ihb b; exact ⟨rfl, rfl, rfl⟩
    | finOver a b hne => obtain ⟨rfl, rfl, rfl⟩ := iha a; exact absurd (ihb b).1.symm hne
  | finOver _ _ hne iha ihb =>
    intro o2 u2 l2 h2
    cases h2 with
    | fin a b => obtain ⟨rfl, rfl, rfl⟩ := iha a; exact absurd (ihb b).1 hne
    | finOver a b _ => obtain ⟨rfl, rfl, rfl⟩ := iha a; obtain ⟨rfl, rfl, rfl⟩ := ihb b; exact ⟨rfl, rfl, rfl⟩
  | callReturn _ ih =>
    intro o2 u2 l2 h2
    cases h2 with
    | callReturn a => obtain ⟨h, rfl, rfl⟩ := ih a; cases h; exact ⟨rfl, rfl, rfl⟩
    | callEnd a => cases (ih a).1
    | callRaise a => cases (ih a).1
  | callEnd _ ih =>
    intro o2 u2 l2 h2
    cases h2 with
    | callReturn a => cases (ih a).1
    | callEnd a => obtain ⟨_, rfl, rfl⟩ := ih a; exact ⟨rfl, rfl, rfl⟩
    | callRaise a => cases (ih a).1
  | callRaise _ ih =>
    intro o2 u2 l2 h2
    cases h2 with
    | callReturn a => cases (ih a).1
    | callEnd a => cases (ih a).1
    | callRaise a => obtain ⟨h, rfl, rfl⟩ := ih a; cases h; exact ⟨rfl, rfl, rfl⟩
  | trace _ ih =>
    intro o2 u2 l2 h2
    cases h2 with
    | trace a => obtain ⟨rfl, rfl, rfl⟩ := ih a; exact ⟨rfl, rfl, rfl⟩

theorem runs_plain {prog : Nat → Def σ} {s : Stmt σ} {u u' : σ} {o : Out} {l : List Ev} (h : Runs prog s u o u' l) :
    ∃ n, ∀ fuel, n ≤ fuel → ∀ w : W σ, w.user = u → ∃ w', exec (callOf (plainProg prog) fuel) (plain s) w = (o, w') ∧ w'.user = u' := by
  induction h with
  | @prim f u u' h => exact ⟨0, fun fuel _ w hw => ⟨{ w with user := u' }, by simp only [plain, exec, hw, h], rfl⟩⟩
  | primRaise h => exact ⟨0, fun fuel _ w hw => ⟨w, by simp only [plain, exec, hw, h], hw⟩⟩
  | ret => exact ⟨0, fun fuel _ w hw => ⟨w, by simp only [plain, exec, hw], hw⟩⟩
  | seq _ _ iha ihb =>
    obtain ⟨n, ha⟩ := iha
    obtain ⟨m, hb⟩ := ihb
    refine ⟨max n m, fun fuel hf w hw => ?_⟩
    obtain ⟨w1, e1, u1⟩ := ha fuel (by omega) w hw
    obtain ⟨w2, e2, u2⟩ := hb fuel (by omega) w1 u1
    exact ⟨w2, by simp only [plain, exec, e1, e2], u2⟩
  | @seqStop a b u u1 o l _ hne iha =>
    obtain ⟨n, ha⟩ := iha
    refine ⟨n, fun fuel hf w hw => ?_⟩
    obtain ⟨w1, e1, u1⟩ := ha fuel hf w hw
    refine ⟨w1, ?_, u1⟩
    simp only [plain, exec, e1]
    cases o
    · exact absurd rfl hne
    all_goals rfl
  | iteTrue hc _ ih =>
    obtain ⟨n, ha⟩ := ih
    refine ⟨n, fun fuel hf w hw => ?_⟩
    obtain ⟨w1, e1, u1⟩ := ha fuel hf w hw
    exact ⟨w1, by simp only [plain, exec, hw, hc, if_true, e1], u1⟩
  | iteFalse hc _ ih =>
    obtain ⟨n, ha⟩ := ih
    refine ⟨n, fun fuel hf w hw => ?_⟩
    obtain ⟨w1, e1, u1⟩ := ha fuel hf w hw
    exact ⟨w1, by simp only [plain, exec, hw, hc, Bool.false_eq_true, if_false, e1], u1⟩
  | @tryPass a h c u u1 o l _ hp ih =>
    obtain ⟨n, ha⟩ := ih
    refine ⟨n, fun fuel hf w hw => ?_⟩
    obtain ⟨w1, e1, u1⟩ := ha fuel hf w hw
    refine ⟨w1, ?_, u1⟩
    simp only [plain, exec, e1]
    cases o
    case raised => simp [hp _ rfl]
    all_goals rfl
  | tryCatch _ hc _ iha ihb =>
    obtain ⟨n, ha⟩ := iha
    obtain ⟨m, hb⟩ := ihb
    refine ⟨max n m, fun fuel hf w hw => ?_⟩
    obtain ⟨w1, e1, u1⟩ := ha fuel (by omega) w hw
    obtain ⟨w2, e2, u2⟩ := hb fuel (by omega) w1 u1
    exact ⟨w2, by simp only [plain, exec, e1, hc, if_true, e2], u2⟩
  | @fin a f u u1 u2 o l1 l2 ra _ iha ihb =>
    obtain ⟨n, ha⟩ := iha
    obtain ⟨m, hb⟩ := ihb
    refine ⟨max n m, fun fuel hf w hw => ?_⟩
    obtain ⟨w1, e1, u1⟩ := ha fuel (by omega) w hw
    obtain ⟨w2, e2, u2⟩ := hb fuel (by omega) w1 u1
    refine ⟨w2, ?_, u2⟩
    simp only [plain, exec, e1]
    cases o
    case timeout => exact absurd rfl (runs_no_timeout ra)
    all_goals simp only [e2]
  | @finOver a f u u1 u2 o o' l1 l2 ra rb hne iha ihb =>
    obtain ⟨n, ha⟩ := iha
    obtain ⟨m, hb⟩ := ihb
    refine ⟨max n m, fun fuel hf w hw => ?_⟩
    obtain ⟨w1, e1, u1⟩ := ha fuel (by omega) w hw
    obtain ⟨w2, e2, u2⟩ := hb fuel (by omega) w1 u1
    refine ⟨w2, ?_, u2⟩
    simp only [plain, exec, e1]
    cases o
    case timeout => exact absurd rfl (runs_no_timeout ra)
    all_goals
      simp only [e2]
      cases o'
      · exact absurd rfl hne
      all_goals rfl
  | @callReturn f k u u1 v l _ ih =>
    obtain ⟨n, ha⟩ := ih
    refine ⟨n + 1, fun fuel hf w hw => ?_⟩
    obtain ⟨fuel, rfl⟩ : ∃ m, fuel = m + 1 := ⟨fuel - 1, by omega⟩
    obtain ⟨w1, e1, u1⟩ := ha fuel (by omega) w hw
    exact ⟨{ w1 with user := k v w1.user }, by simp only [plain, exec, callOf, plainProg, wrapped] at e1 ⊢; simp only [e1], by rw [u1]⟩
  | @callEnd f k u u1 l _ ih =>
    obtain ⟨n, ha⟩ := ih
    refine ⟨n + 1, fun fuel hf w hw => ?_⟩
    obtain ⟨fuel, rfl⟩ : ∃ m, fuel = m + 1 := ⟨fuel - 1, by omega⟩
    obtain ⟨w1, e1, u1⟩ := ha fuel (by omega) w hw
    exact ⟨{ w1 with user := k 0 w1.user }, by simp only [plain, exec, callOf, plainProg, wrapped] at e1 ⊢; simp only [e1], by rw [u1]⟩
  | callRaise _ ih =>
    obtain ⟨n, ha⟩ := ih
    refine ⟨n + 1, fun fuel hf w hw => ?_⟩
    obtain ⟨fuel, rfl⟩ : ∃ m, fuel = m + 1 := ⟨fuel - 1, by omega⟩
    obtain ⟨w1, e1, u1⟩ := ha fuel (by omega) w hw
    exact ⟨w1, by simp only [plain, exec, callOf, plainProg, wrapped] at e1 ⊢; simp only [e1], u1⟩
  | trace _ ih => exact ih

/-- Conversely, what the specification says happens: the traced program ends so at all sufficient depths of calls, and records these events if tracing is on, as long as the ids do not run out. -/
theorem runs_happens {prog : Nat → Def σ} (h : ProgOk prog) (hn : NoReentry prog) {s : Stmt σ} (hs : NamesOk s) {u u' : σ} {o : Out} {l : List Ev} (hr : Runs prog s u o u' l) :
    ∃ n, ∀ fuel, n ≤ fuel → ∀ w : W σ, w.user = u → IdsOk w → (exec (callOf prog fuel) s w).2.next ≤ 2 ^ 32 →
      (exec (callOf prog fuel) s w).1 = o ∧ (exec (callOf prog fuel) s w).2.user = u' ∧
      (w.process = true → w.thread = true → (exec (callOf prog fuel) s w).2.events = w.events ++ l.map (coded (exec (callOf prog fuel) s w).2.sections)) := by
  obtain ⟨n, hp⟩ := runs_plain hr
  refine ⟨n, fun fuel hf w hw hi hlim => ?_⟩
  obtain ⟨w1, e1, u1⟩ := hp fuel hf w hw
  have hsame := traced_does_the_same h fuel s hs w hi.1 hlim w rfl
  rw [e1] at hsame
  refine ⟨hsame.1, hsame.2.trans u1, fun hproc hthread => ?_⟩
  rcases he : exec (callOf prog fuel) s w with ⟨o2, w2⟩
  rw [he] at hlim hsame
  have ho : o2 = o := hsame.1
  subst ho
  obtain ⟨l2, r2, ev, _⟩ := records h hn fuel s hs hi hproc hthread he (runs_no_timeout hr) hlim
  rw [hw] at r2
  rw [(runs_unique hr r2).2.2]
  exact ev

/-! ## The hypotheses can be met -/

/-- A traced function that calls itself in a section, with a suppressed helper that is traced as well. -/
def prog2 : Nat → Def (List Nat)
  | 0 => { body := .trace "level" (.seq (.prim fun u => .ok (u.length :: u)) (.seq (.call 1 fun _ u => u)
            (.ite (fun u => u.length > 3) (.prim fun _ => .error 7) (.tryExcept (.seq (.call 0 fun v u => v :: u) (.ret List.length)) (fun e => e == .user 7) (.ret fun u => 10 * u.length)))))
           decs := [.traced 5] }
  | 1 => { body := .trace "helper" (.ret fun _ => 0), decs := [.suppressed 0, .traced 4] }
  | _ => { body := .ret fun _ => 0, decs := [] }

theorem prog2_ok : ProgOk prog2 where
  names f := by
    match f with
    | 0 => simp only [NamesOk, prog2, names, List.mem_append, List.mem_cons, List.not_mem_nil, or_false]; rintro n rfl; decide +kernel
    | 1 => simp only [NamesOk, prog2, names, List.mem_cons, List.not_mem_nil, or_false]; rintro n rfl; decide +kernel
    | _ + 2 => intro n h; cases h
  decs f := by
    match f with
    | 0 => intro id h; simp [prog2] at h; omega
    | 1 => intro id h; simp [prog2] at h; omega
    | _ + 2 => intro n h; cases h

theorem prog2_noReentry : NoReentry prog2 where
  once f := by
    match f with
    | 0 => simp [prog2, switchers]
    | 1 => simp [prog2, switchers]
    | _ + 2 => simp [prog2, switchers]
  back f k hk g hg := by
    match f with
    | 0 => simp [prog2, switchers] at hk
    | 1 => simp [prog2, calls] at hg
    | _ + 2 => simp [prog2, switchers] at hk

example : IdsOk ({ user := [], next := 6 } : W (List Nat)) := ⟨(fun _ h => by cases h), (by simp)⟩

/-- What the program records: four calls and sections, all left again, the helper nowhere. -/
example : (exec (callOf prog2 9) (.call 0 fun _ u => u) { user := [], next := 6 }).1 = .normal ∧ (exec (callOf prog2 9) (.call 0 fun _ u => u) { user := [], next := 6 }).2.next = 8 ∧
    (exec (callOf prog2 9) (.call 0 fun _ u => u) { user := [], next := 6 }).2.events =
      [(true, 5), (true, 6), (true, 5), (true, 6), (true, 5), (true, 6), (true, 5), (true, 6), (false, 6), (false, 5), (false, 6), (false, 5), (false, 6), (false, 5), (false, 6), (false, 5)] := by
  decide +kernel

/-- A suppressed function that calls itself once. -/
def prog3 : Nat → Def Nat
  | 0 => { body := .ite (fun u => u == 0) (.seq (.prim fun u => .ok (u + 1)) (.call 0 fun _ u => u)) (.ret fun _ => 0), decs := [.suppressed 0] }
  | _ => { body := .ret fun _ => 0, decs := [] }

/-- Without `NoReentry` the theorem does not hold: after a call of a suppressed function that calls itself, tracing is off and a section leaves no event. -/
theorem reentry : ProgOk prog3 ∧ ¬ NoReentry prog3 ∧
    (exec (callOf prog3 9) (.seq (.call 0 fun _ u => u) (.trace "a" (.ret fun u => u))) { user := 0 }).1 = .returned 1 ∧
    (exec (callOf prog3 9) (.seq (.call 0 fun _ u => u) (.trace "a" (.ret fun u => u))) { user := 0 }).2.thread = false ∧
    (exec (callOf prog3 9) (.seq (.call 0 fun _ u => u) (.trace "a" (.ret fun u => u))) { user := 0 }).2.events = [] := by
  refine ⟨⟨?_, ?_⟩, ?_, by decide +kernel, by decide +kernel, by decide +kernel⟩
  · intro f
    match f with
    | 0 => intro n hn; simp [prog3, names] at hn
    | _ + 1 => intro n hn; cases hn
  · intro f
    match f with
    | 0 => intro n hn; simp [prog3] at hn
    | _ + 1 => intro n hn; cases hn
  · intro h
    exact h.back 0 0 (by simp [prog3, switchers]) 0 (by simp [prog3, calls]) 0 (.refl 0) (by simp [prog3, switchers])

end Scalopus.C125
