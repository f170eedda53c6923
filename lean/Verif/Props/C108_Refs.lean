import Verif.Model.Refs
import Mathlib.Logic.Relation

/-!
# C108: what a Python program no longer uses is released

`Refers s x y`: `x` holds a reference to `y`. An object is in use when a variable of the program leads to it. A released manager stops polling and closes its connections; a manager that
cannot be released goes on for as long as the program runs.
-/

namespace Scalopus.C108

open Refs

/-- `x` refers to `y`. -/
def Refers (s : State) (x y : Nat) : Prop := ∃ e ∈ s.edges, e.src = x ∧ e.dst = y

/-- References lead from `x` to `y`. -/
def Leads (s : State) : Nat → Nat → Prop := Relation.ReflTransGen (Refers s)

/-- A variable of the program leads to `x`. -/
def InUse (s : State) (x : Nat) : Prop := ∃ r ∈ s.roots, Leads s r x

/-- A circle of references of which C++ holds at least one leads to `x`. -/
def OnCircle (s : State) (x : Nat) : Prop := ∃ e ∈ s.edges, e.hidden = true ∧ Leads s e.dst e.src ∧ Leads s e.dst x

def Alive (s : State) (x : Nat) : Prop := ∃ k, (x, k) ∈ s.objs

/-- Steps that only release. -/
def collects (xss : List (List Nat)) : List Act := xss.map .collect

/-- `x` can be released: by reference counting and by the collector of Python. -/
def CanGo (s : State) (x : Nat) : Prop := ∃ xss s', run s (collects xss) = some s' ∧ ¬ Alive s' x

/-- **C108** in full: after every history, an object that is not in use can be released. -/
def AllReleased : Prop := ∀ as s, run {} as = some s → ∀ x, ¬ InUse s x → CanGo s x

theorem run_cons (a : Act) (as : List Act) (s : State) : run s (a :: as) = (step s a).bind fun t => run t as := rfl

theorem run_append (as bs : List Act) (s : State) : run s (as ++ bs) = (run s as).bind fun t => run t bs := by
  induction as generalizing s with
  | nil => rfl
  | cons a as ih =>
    rw [List.cons_append, run_cons, run_cons]
    cases step s a with
    | none => rfl
    | some t => exact ih t

theorem alive_iff (s : State) (x : Nat) : s.alive x = true ↔ Alive s x := by
  simp only [State.alive, List.any_eq_true, beq_iff_eq, Alive]
  constructor
  · rintro ⟨⟨y, k⟩, h1, rfl⟩; exact ⟨k, h1⟩
  · rintro ⟨k, h⟩; exact ⟨(x, k), h, rfl⟩

theorem has_iff (s : State) (x : Nat) (k : Kind) : s.has x k = true ↔ (x, k) ∈ s.objs := by simp [State.has]

/-- References and variables are to objects that exist. -/
structure Inv (s : State) : Prop where
  src : ∀ e ∈ s.edges, Alive s e.src
  dst : ∀ e ∈ s.edges, Alive s e.dst
  root : ∀ r ∈ s.roots, Alive s r

theorem alive_more {s : State} {o : List (Nat × Kind)} {x : Nat} (h : Alive s x) {s' : State} (e : s'.objs = s.objs ++ o) : Alive s' x := by
  obtain ⟨k, h⟩ := h
  exact ⟨k, by rw [e]; exact List.mem_append_left _ h⟩

theorem inv_step {s s' : State} (h : Inv s) {a : Act} (e : step s a = some s') : Inv s' := by
  obtain ⟨h1, h2, h3⟩ := h
  have fewer : ∀ (p : Edge → Bool), Inv { s with edges := s.edges.filter p } := fun p =>
    ⟨fun e he => h1 e (List.mem_filter.1 he).1, fun e he => h2 e (List.mem_filter.1 he).1, h3⟩
  have more : ∀ (p : Edge → Bool) (n : Edge), Alive s n.src → Alive s n.dst → Inv { s with edges := s.edges.filter p ++ [n] } := by
    intro p n hs hd
    refine ⟨fun e he => ?_, fun e he => ?_, h3⟩
    · rcases List.mem_append.1 he with h | h
      · exact h1 e (List.mem_filter.1 h).1
      · simp only [List.mem_singleton] at h; subst h; exact hs
    · rcases List.mem_append.1 he with h | h
      · exact h2 e (List.mem_filter.1 h).1
      · simp only [List.mem_singleton] at h; subst h; exact hd
  have fresh : ∀ k, Inv { s with next := s.next + 1, objs := s.objs ++ [(s.next, k)], roots := s.roots ++ [s.next] } := by
    intro k
    refine ⟨fun e he => alive_more (h1 e he) rfl, fun e he => alive_more (h2 e he) rfl, fun r hr => ?_⟩
    rcases List.mem_append.1 hr with h | h
    · exact alive_more (h3 r h) rfl
    · simp only [List.mem_singleton] at h; subst h; exact ⟨k, List.mem_append_right _ (by simp)⟩
  cases a with
  | new k =>
    simp only [step] at e
    split at e
    · cases e
    · obtain rfl := Option.some.inj e; exact fresh k
  | keep x y =>
    simp only [step] at e
    split at e
    · rename_i hh
      obtain rfl := Option.some.inj e
      have := more (fun _ => true) { src := x, dst := y, hidden := false } (by
        rcases hh.1 with h | h
        · exact ⟨_, (has_iff _ _ _).1 h⟩
        · exact ⟨_, (has_iff _ _ _).1 h⟩) ((alive_iff _ _).1 hh.2)
      rw [List.filter_eq_self.2 (fun _ _ => rfl)] at this
      exact this
    · cases e
  | unkeep x y => obtain rfl := Option.some.inj e; exact fewer _
  | newGeneral m =>
    simp only [step] at e
    split at e
    · rename_i hh
      obtain rfl := Option.some.inj e
      obtain ⟨f1, f2, f3⟩ := fresh .general
      refine ⟨fun e he => ?_, fun e he => ?_, f3⟩
      · rcases List.mem_append.1 he with h | h
        · exact f1 e h
        · simp only [List.mem_singleton] at h; subst h; exact ⟨.general, List.mem_append_right _ (by simp)⟩
      · rcases List.mem_append.1 he with h | h
        · exact f2 e h
        · simp only [List.mem_singleton] at h; subst h; exact ⟨.manager, List.mem_append_left _ ((has_iff _ _ _).1 hh)⟩
    · cases e
  | addFactory m name f =>
    simp only [step] at e
    split at e
    · rename_i hh
      obtain rfl := Option.some.inj e
      exact more _ _ ⟨_, (has_iff _ _ _).1 hh.1⟩ ⟨_, (has_iff _ _ _).1 hh.2.1⟩
    · cases e
  | addEndpoint t name x =>
    simp only [step] at e
    split at e
    · rename_i hh
      obtain rfl := Option.some.inj e
      exact more _ _ ⟨_, (has_iff _ _ _).1 hh.1⟩ ⟨_, (has_iff _ _ _).1 hh.2.1⟩
    · cases e
  | adopt m =>
    simp only [step] at e
    split at e
    · rename_i hh
      obtain rfl := Option.some.inj e
      refine ⟨fun e he => ?_, fun e he => ?_, fun r hr => alive_more (h3 r hr) rfl⟩
      · rcases List.mem_append.1 he with h | h
        · exact alive_more (h1 e h) rfl
        · simp only [List.mem_singleton] at h; subst h; exact ⟨.manager, List.mem_append_left _ ((has_iff _ _ _).1 hh)⟩
      · rcases List.mem_append.1 he with h | h
        · exact alive_more (h2 e h) rfl
        · simp only [List.mem_singleton] at h; subst h; exact ⟨.transport, List.mem_append_right _ (by simp)⟩
    · cases e
  | forget m t => obtain rfl := Option.some.inj e; exact fewer _
  | weakFactory p =>
    simp only [step] at e
    split at e
    · obtain rfl := Option.some.inj e
      unfold weakFactory
      split
      · exact fresh .function
      · exact ⟨h1, h2, h3⟩
    · cases e
  | drop x =>
    obtain rfl := Option.some.inj e
    exact ⟨h1, h2, fun r hr => h3 r (List.mem_filter.1 hr).1⟩
  | collect xs =>
    simp only [step] at e
    split at e
    · rename_i hh
      obtain rfl := Option.some.inj e
      have live : ∀ x, Alive s x → x ∉ xs → Alive { s with objs := s.objs.filter fun o => !(xs.contains o.1), edges := s.edges.filter fun e => !(xs.contains e.src) } x := by
        rintro x ⟨k, hk⟩ hx
        exact ⟨k, List.mem_filter.2 ⟨hk, by simp [hx]⟩⟩
      refine ⟨fun e he => ?_, fun e he => ?_, fun r hr => ?_⟩
      · have := List.mem_filter.1 he
        exact live _ (h1 e this.1) (by simpa using this.2)
      · have := List.mem_filter.1 he
        exact live _ (h2 e this.1) fun hd => by have := this.2; simp [(hh.2 e (List.mem_filter.1 he).1 hd).1] at this
      · exact live _ (h3 r hr) fun hx => (hh.1 r hx).2 hr
    · cases e

theorem inv_run {as : List Act} {s s' : State} (h : Inv s) (e : run s as = some s') : Inv s' := by
  induction as generalizing s with
  | nil => obtain rfl := Option.some.inj e; exact h
  | cons a as ih =>
    rw [run_cons] at e
    obtain ⟨t, ht, e⟩ := Option.bind_eq_some_iff.1 e
    exact ih (inv_step h ht) e

theorem inv_init : Inv {} := ⟨fun _ h => (by cases h), fun _ h => (by cases h), fun _ h => (by cases h)⟩

theorem collect_eq {s s' : State} {xs : List Nat} (e : step s (.collect xs) = some s') :
    ((∀ x ∈ xs, s.alive x = true ∧ x ∉ s.roots) ∧ (∀ e ∈ s.edges, e.dst ∈ xs → e.src ∈ xs ∧ e.hidden = false)) ∧
    s' = { s with objs := s.objs.filter fun o => !(xs.contains o.1), edges := s.edges.filter fun e => !(xs.contains e.src) } := by
  simp only [step] at e
  split at e
  · rename_i hh
    exact ⟨hh, (Option.some.inj e).symm⟩
  · cases e

/-- What a kept object leads to is kept. -/
theorem leads_kept {s s' : State} {xs : List Nat} (e : step s (.collect xs) = some s') {z w : Nat} (hz : z ∉ xs) (h : Leads s z w) : w ∉ xs ∧ Leads s' z w := by
  obtain ⟨⟨_, h2⟩, rfl⟩ := collect_eq e
  induction h with
  | refl => exact ⟨hz, .refl⟩
  | tail _ h ih =>
    obtain ⟨ed, hm, rfl, rfl⟩ := h
    refine ⟨fun hd => ih.1 (h2 ed hm hd).1, .tail ih.2 ⟨ed, List.mem_filter.2 ⟨hm, by simp [ih.1]⟩, rfl, rfl⟩⟩

theorem use_kept {s s' : State} {xs : List Nat} (e : step s (.collect xs) = some s') {x : Nat} (h : InUse s x ∨ OnCircle s x) : x ∉ xs ∧ (InUse s' x ∨ OnCircle s' x) := by
  have hc := collect_eq e
  rcases h with ⟨r, hr, hl⟩ | ⟨ed, hm, hh, hl1, hl2⟩
  · have := leads_kept e (fun hx => (hc.1.1 r hx).2 hr) hl
    exact ⟨this.1, .inl ⟨r, by rw [hc.2]; exact hr, this.2⟩⟩
  · have hz : ed.dst ∉ xs := fun hd => by
      have := (hc.1.2 ed hm hd).2
      rw [hh] at this; cases this
    have k1 := leads_kept e hz hl1
    have k2 := leads_kept e hz hl2
    refine ⟨k2.1, .inr ⟨ed, ?_, hh, k1.2, k2.2⟩⟩
    rw [hc.2]
    exact List.mem_filter.2 ⟨hm, by simp [k1.1]⟩

theorem never_goes {s s' : State} {xss : List (List Nat)} (e : run s (collects xss) = some s') {x : Nat} (ha : Alive s x) (h : InUse s x ∨ OnCircle s x) : Alive s' x := by
  induction xss generalizing s with
  | nil => obtain rfl := Option.some.inj e; exact ha
  | cons xs xss ih =>
    rw [collects, List.map_cons, run_cons] at e
    obtain ⟨t, ht, e⟩ := Option.bind_eq_some_iff.1 e
    have k := use_kept ht h
    refine ih e ?_ k.2
    obtain ⟨k', hk⟩ := ha
    rw [(collect_eq ht).2]
    exact ⟨k', List.mem_filter.2 ⟨hk, by simp [k.1]⟩⟩

theorem leads_fewer {s s' : State} (h : ∀ e ∈ s'.edges, e ∈ s.edges) {x y : Nat} (hl : Leads s' x y) : Leads s x y := by
  induction hl with
  | refl => exact .refl
  | tail _ hr ih =>
    obtain ⟨e, he, h1, h2⟩ := hr
    exact .tail ih ⟨e, h e he, h1, h2⟩

open Classical in
/-- The objects that lead to `x`. -/
noncomputable def before (s : State) (x : Nat) : List Nat := (s.objs.map (·.1)).filter fun y => decide (Leads s y x)

theorem mem_before {s : State} {x y : Nat} : y ∈ before s x ↔ Alive s y ∧ Leads s y x := by
  classical
  simp only [before, List.mem_filter, List.mem_map, decide_eq_true_eq, Alive]
  constructor
  · rintro ⟨⟨⟨z, k⟩, h1, rfl⟩, h2⟩; exact ⟨⟨k, h1⟩, h2⟩
  · rintro ⟨⟨k, h1⟩, h2⟩; exact ⟨⟨(y, k), h1, rfl⟩, h2⟩

open Classical in
theorem before_lt {s : State} {x y : Nat} (hx : Alive s x) (hyx : Leads s y x) (hxy : ¬ Leads s x y) : (before s y).length < (before s x).length := by
  obtain ⟨k, hk⟩ := hx
  have hm : x ∈ s.objs.map (·.1) := List.mem_map.2 ⟨_, hk, rfl⟩
  unfold before
  generalize s.objs.map (·.1) = l at hm
  have hle : ∀ l : List Nat, (l.filter fun z => decide (Leads s z y)).length ≤ (l.filter fun z => decide (Leads s z x)).length := by
    intro l
    rw [← List.countP_eq_length_filter, ← List.countP_eq_length_filter]
    apply List.countP_mono_left
    intro z _ hz
    simp only [decide_eq_true_eq] at hz ⊢
    exact hz.trans hyx
  obtain ⟨l1, l2, rfl⟩ := List.append_of_mem hm
  rw [List.filter_append, List.filter_append, List.length_append, List.length_append]
  have e1 : ((x :: l2).filter fun z => decide (Leads s z y)) = l2.filter fun z => decide (Leads s z y) := by
    rw [List.filter_cons, if_neg (by simpa using hxy)]
  have e2 : ((x :: l2).filter fun z => decide (Leads s z x)) = x :: l2.filter fun z => decide (Leads s z x) := by
    rw [List.filter_cons, if_pos (decide_eq_true (show Leads s x x from .refl))]
  have a := hle l1
  have b := hle l2
  rw [e1, e2, List.length_cons]
  omega

/-- Among the objects that are not held, one has only objects before it that it leads to. -/
theorem first {s : State} (n : Nat) : ∀ x, (before s x).length ≤ n → Alive s x → ¬ (InUse s x ∨ OnCircle s x) →
    ∃ y, Alive s y ∧ ¬ (InUse s y ∨ OnCircle s y) ∧ ∀ z, Alive s z → Leads s z y → Leads s y z := by
  induction n with
  | zero =>
    intro x hn ha _
    have : x ∈ before s x := mem_before.2 ⟨ha, .refl⟩
    rw [List.eq_nil_of_length_eq_zero (Nat.le_zero.1 hn)] at this
    cases this
  | succ n ih =>
    intro x hn ha hx
    by_cases h : ∀ z, Alive s z → Leads s z x → Leads s x z
    · exact ⟨x, ha, hx, h⟩
    · obtain ⟨z, hz⟩ := Classical.not_forall.1 h
      obtain ⟨hz, hz'⟩ := Classical.not_imp.1 hz
      obtain ⟨hzx, hxz⟩ := Classical.not_imp.1 hz'
      refine ih z (by have := before_lt ha hzx hxz; omega) hz ?_
      rintro (⟨r, hr, hl⟩ | ⟨e, he, hh, h1, h2⟩)
      · exact hx (.inl ⟨r, hr, hl.trans hzx⟩)
      · exact hx (.inr ⟨e, he, hh, h1, h2.trans hzx⟩)

/-- If an object is not held, some objects can be released now, and none of the others is held by something else afterwards. -/
theorem some_go {s : State} (hi : Inv s) {x : Nat} (ha : Alive s x) (hx : ¬ (InUse s x ∨ OnCircle s x)) :
    ∃ xs s', step s (.collect xs) = some s' ∧ s'.objs.length < s.objs.length ∧ ∀ y, InUse s' y ∨ OnCircle s' y → InUse s y ∨ OnCircle s y := by
  obtain ⟨y, hy, hn, hs⟩ := first _ x (Nat.le_refl _) ha hx
  have hc : (∀ x ∈ before s y, s.alive x = true ∧ x ∉ s.roots) ∧ (∀ e ∈ s.edges, e.dst ∈ before s y → e.src ∈ before s y ∧ e.hidden = false) := by
    constructor
    · intro z hz
      rw [mem_before] at hz
      exact ⟨(alive_iff _ _).2 hz.1, fun hr => hn (.inl ⟨z, hr, hz.2⟩)⟩
    · intro e he hd
      rw [mem_before] at hd
      have hsrc : Leads s e.src y := .head ⟨e, he, rfl, rfl⟩ hd.2
      refine ⟨mem_before.2 ⟨hi.src e he, hsrc⟩, ?_⟩
      cases hh : e.hidden with
      | false => rfl
      | true => exact absurd (.inr ⟨e, he, hh, hd.2.trans (hs e.src (hi.src e he) hsrc), hd.2⟩) hn
  refine ⟨before s y, { s with objs := s.objs.filter fun o => !((before s y).contains o.1), edges := s.edges.filter fun e => !((before s y).contains e.src) }, ?_, ?_, ?_⟩
  · simp only [step]
    rw [if_pos hc]
  · obtain ⟨k, hk⟩ := hy
    exact List.length_filter_lt_length_iff_exists.2 ⟨(y, k), hk, by simp [mem_before.2 ⟨⟨k, hk⟩, .refl⟩]⟩
  · have hsub : ∀ e ∈ (s.edges.filter fun e => !((before s y).contains e.src)), e ∈ s.edges := fun e he => (List.mem_filter.1 he).1
    rintro z (⟨r, hr, hl⟩ | ⟨e, he, hh, h1, h2⟩)
    · exact .inl ⟨r, hr, leads_fewer hsub hl⟩
    · exact .inr ⟨e, hsub e he, hh, leads_fewer hsub h1, leads_fewer hsub h2⟩

theorem can_go {s : State} (n : Nat) : s.objs.length ≤ n → Inv s → ∃ xss s', run s (collects xss) = some s' ∧ (∀ x, Alive s' x → InUse s' x ∨ OnCircle s' x) ∧
    ∀ x, InUse s' x ∨ OnCircle s' x → InUse s x ∨ OnCircle s x := by
  induction n generalizing s with
  | zero =>
    intro h _
    refine ⟨[], s, rfl, fun x ⟨k, hk⟩ => ?_, fun _ h => h⟩
    rw [List.eq_nil_of_length_eq_zero (Nat.le_zero.1 h)] at hk
    cases hk
  | succ n ih =>
    intro h hi
    by_cases hall : ∀ x, Alive s x → InUse s x ∨ OnCircle s x
    · exact ⟨[], s, rfl, hall, fun _ h => h⟩
    · obtain ⟨x, hx⟩ := Classical.not_forall.1 hall
      obtain ⟨ha, hx⟩ := Classical.not_imp.1 hx
      obtain ⟨xs, t, ht, hl, hk⟩ := some_go hi ha hx
      obtain ⟨xss, s', e, h1, h2⟩ := ih (by omega) (inv_step hi ht)
      refine ⟨xs :: xss, s', ?_, h1, fun y hy => hk y (h2 y hy)⟩
      rw [collects, List.map_cons, run_cons, ht]
      exact e

/-- **C108, exactly which objects can be released.** After every history: an object can be released exactly if no variable of the program and no circle with a reference held by C++ leads
    to it. -/
theorem released_iff (as : List Act) (s : State) (e : run {} as = some s) (x : Nat) (ha : Alive s x) : CanGo s x ↔ ¬ InUse s x ∧ ¬ OnCircle s x := by
  constructor
  · rintro ⟨xss, s', e', h⟩
    exact ⟨fun hu => h (never_goes e' ha (.inl hu)), fun hu => h (never_goes e' ha (.inr hu))⟩
  · rintro ⟨h1, h2⟩
    obtain ⟨xss, s', e', k1, k2⟩ := can_go _ (Nat.le_refl _) (inv_run inv_init e)
    exact ⟨xss, s', e', fun ha' => (k2 x (k1 x ha')).elim h1 h2⟩

/-- **C108, partial: programs without circles through C++.** Everything that is not in use is released, all of it at once. Missing: objects on circles with a reference held by C++. -/
theorem released_partial (as : List Act) (s : State) (e : run {} as = some s) (h : ∀ x, ¬ OnCircle s x) :
    ∃ xss s', run s (collects xss) = some s' ∧ ∀ x, Alive s' x → InUse s x := by
  obtain ⟨xss, s', e', k1, k2⟩ := can_go _ (Nat.le_refl _) (inv_run inv_init e)
  exact ⟨xss, s', e', fun x hx => (k2 x (k1 x hx)).resolve_right (h x)⟩

/-- Dropping variables and releasing objects. -/
def Ending : Act → Prop
  | .drop _ => True
  | .collect _ => True
  | _ => False

/-- **C108, factories that lead to their manager.** A manager has a factory that leads to an object that refers to the manager – a method of a provider that keeps its manager, say. Whatever
    variables the program drops and whatever is released, the manager stays, and so do the factory and everything that it leads to. -/
theorem factory_keeps_manager (as bs : List Act) (s s' : State) (e : run {} as = some s) (m f x : Nat) (hm : ∃ n ∈ s.edges, n.src = m ∧ n.dst = f ∧ n.hidden = true) (hf : Leads s f m)
    (hx : Leads s f x) (hb : ∀ b ∈ bs, Ending b) (e' : run s bs = some s') : Alive s' m ∧ Alive s' f ∧ Alive s' x := by
  have hi := inv_run inv_init e
  have key : ∀ (bs : List Act) (t : State), (∀ b ∈ bs, Ending b) → run t bs = some s' → Inv t → (∃ n ∈ t.edges, n.src = m ∧ n.dst = f ∧ n.hidden = true) → Leads t f m → Leads t f x →
      Inv s' ∧ (∃ n ∈ s'.edges, n.src = m ∧ n.dst = f ∧ n.hidden = true) ∧ Leads s' f x := by
    intro bs
    induction bs with
    | nil => intro t _ e hi h1 _ h2; obtain rfl := Option.some.inj e; exact ⟨hi, h1, h2⟩
    | cons b bs ih =>
      intro t hb e hi h1 h2 h3
      rw [run_cons] at e
      obtain ⟨u, hu, e2⟩ := Option.bind_eq_some_iff.1 e
      have hb' : ∀ b ∈ bs, Ending b := fun c hc => hb c (List.mem_cons_of_mem _ hc)
      have hend := hb b (by simp)
      cases b with
      | drop y =>
        have hi' := inv_step hi hu
        obtain rfl := Option.some.inj hu
        exact ih _ hb' e2 hi' h1 h2 h3
      | collect xs =>
        obtain ⟨n, hn, rfl, rfl, hh⟩ := h1
        have hc := collect_eq hu
        have hz : n.dst ∉ xs := fun hd => by
          have := (hc.1.2 n hn hd).2
          rw [hh] at this; cases this
        have k1 := leads_kept hu hz h2
        refine ih _ hb' e2 (inv_step hi hu) ⟨n, ?_, rfl, rfl, hh⟩ k1.2 (leads_kept hu hz h3).2
        rw [hc.2]
        exact List.mem_filter.2 ⟨hn, by simp [k1.1]⟩
      | new k => exact hend.elim
      | keep a b => exact hend.elim
      | unkeep a b => exact hend.elim
      | newGeneral a => exact hend.elim
      | addFactory a b c => exact hend.elim
      | addEndpoint a b c => exact hend.elim
      | adopt a => exact hend.elim
      | forget a b => exact hend.elim
      | weakFactory a => exact hend.elim
  obtain ⟨k1, ⟨n, hn, rfl, rfl, _⟩, k3⟩ := key bs s hb e' hi hm hf hx
  refine ⟨k1.src n hn, k1.dst n hn, ?_⟩
  rcases Relation.ReflTransGen.cases_tail k3 with h | ⟨y, _, ed, he, _, rfl⟩
  · rw [h]; exact k1.dst n hn
  · exact k1.dst ed he

/-- **C108, the way out that is offered.** `weak_provider_endpoint_factory` never makes a factory: whatever provider it is given, the program gets an exception and nothing else changes. -/
theorem weak_factory_raises (s : State) (p : Nat) (h : Alive s p) : step s (.weakFactory p) = some { s with raised := s.raised + 1 } := by
  simp only [step, if_pos ((alive_iff s p).2 h)]
  unfold weakFactory
  rw [if_neg (by decide)]

/-- **C108 does not hold**: a manager with a factory that is a method of a provider that keeps the manager. -/
theorem not_AllReleased : ¬ AllReleased := by
  intro h
  have hr := h [.new .manager, .new .python, .new .function, .keep 1 0, .keep 2 1, .addFactory 0 1 2, .drop 0, .drop 1, .drop 2] _ rfl 0 (by
    rintro ⟨r, hr, _⟩
    simp at hr)
  obtain ⟨xss, s', e', hg⟩ := hr
  refine hg (never_goes e' ⟨.manager, by decide⟩ (.inr ⟨⟨0, 2, true, 1⟩, by decide, rfl, ?_, ?_⟩))
  all_goals exact .head ⟨⟨2, 1, false, 0⟩, by decide, rfl, rfl⟩ (.single ⟨⟨1, 0, false, 0⟩, by decide, rfl, rfl⟩)

/-! ## Non-vacuity -/

/-- A program as in `factory_keeps_manager`, with the variables dropped. The manager has a connection with an endpoint made by the factory, and another exception came from the way out. -/
example : ∃ s s', run {} [.new .manager, .new .python, .new .function, .keep 1 0, .keep 2 1, .addFactory 0 1 2, .adopt 0, .new .python, .addEndpoint 3 1 4, .weakFactory 1] = some s ∧
    s.raised = 1 ∧ (∃ n ∈ s.edges, n.src = 0 ∧ n.dst = 2 ∧ n.hidden = true) ∧ Leads s 2 0 ∧ Leads s 2 4 ∧
    run s [.drop 0, .drop 1, .drop 2, .drop 4] = some s' ∧ s'.roots = [] := by
  refine ⟨_, _, rfl, rfl, ⟨⟨0, 2, true, 1⟩, by decide, rfl, rfl, rfl⟩, ?_, ?_, rfl, rfl⟩
  · exact .head ⟨⟨2, 1, false, 0⟩, by decide, rfl, rfl⟩ (.single ⟨⟨1, 0, false, 0⟩, by decide, rfl, rfl⟩)
  · exact .head ⟨⟨2, 1, false, 0⟩, by decide, rfl, rfl⟩ (.head ⟨⟨1, 0, false, 0⟩, by decide, rfl, rfl⟩ (.head ⟨⟨0, 3, true, 0⟩, by decide, rfl, rfl⟩
      (.single ⟨⟨3, 4, true, 1⟩, by decide, rfl, rfl⟩)))

/-- A program whose providers do not keep the manager: a native provider, a general provider, and an endpoint and its Python helper that refer to each other. All is released. -/
example : ∃ s s', run {} [.new .manager, .newGeneral 0, .new .python, .new .function, .keep 3 2, .addFactory 0 1 3, .adopt 0, .new .python, .addEndpoint 4 1 5, .new .python, .keep 5 6,
      .keep 6 5, .drop 0, .drop 1, .drop 2, .drop 3, .drop 5, .drop 6] = some s ∧
    run s (collects [[1], [0], [4], [3], [2], [5, 6]]) = some s' ∧ s'.objs = [] := ⟨_, _, rfl, rfl, rfl⟩

/-- Every object has its own number, and the next number is free. -/
def Numbered (s : State) : Prop := (s.objs.map (·.1)).Nodup ∧ ∀ o ∈ s.objs, o.1 < s.next

theorem numbered_fresh {s s' : State} (h : Numbered s) {k : Kind} (hn : s'.next = s.next + 1) (ho : s'.objs = s.objs ++ [(s.next, k)]) : Numbered s' := by
  obtain ⟨h1, h2⟩ := h
  refine ⟨?_, ?_⟩
  · rw [ho, List.map_append, List.nodup_append]
    refine ⟨h1, by simp, ?_⟩
    intro a ha b hb e
    simp only [List.map_cons, List.map_nil, List.mem_singleton] at hb
    obtain ⟨o, hm, rfl⟩ := List.mem_map.1 ha
    have := h2 o hm
    omega
  · intro o hm
    rw [ho] at hm; rw [hn]
    rcases List.mem_append.1 hm with h | h
    · have := h2 o h; omega
    · simp only [List.mem_singleton] at h; subst h; exact Nat.lt_succ_self _

theorem numbered_step {s s' : State} (h : Numbered s) {a : Act} (e : step s a = some s') : Numbered s' := by
  have keep : ∀ {t : State}, t.next = s.next → t.objs = s.objs → Numbered t := fun h1 h2 => by
    unfold Numbered; rw [h1, h2]; exact h
  cases a <;> simp only [step] at e
  case new k =>
    split at e
    · cases e
    · obtain rfl := Option.some.inj e; exact numbered_fresh h rfl rfl
  case weakFactory p =>
    split at e
    · obtain rfl := Option.some.inj e
      unfold weakFactory
      split
      · exact numbered_fresh h rfl rfl
      · exact keep rfl rfl
    · cases e
  case collect xs =>
    split at e
    · obtain rfl := Option.some.inj e
      exact ⟨h.1.sublist (List.filter_sublist.map _), fun o ho => h.2 o (List.mem_filter.1 ho).1⟩
    · cases e
  case newGeneral m =>
    split at e
    · obtain rfl := Option.some.inj e; exact numbered_fresh h rfl rfl
    · cases e
  case adopt m =>
    split at e
    · obtain rfl := Option.some.inj e; exact numbered_fresh h rfl rfl
    · cases e
  case unkeep => obtain rfl := Option.some.inj e; exact keep rfl rfl
  case forget => obtain rfl := Option.some.inj e; exact keep rfl rfl
  case drop => obtain rfl := Option.some.inj e; exact keep rfl rfl
  all_goals
    split at e
    · obtain rfl := Option.some.inj e; exact keep rfl rfl
    · cases e

theorem numbered_run {as : List Act} {s s' : State} (h : Numbered s) (e : run s as = some s') : Numbered s' := by
  induction as generalizing s with
  | nil => obtain rfl := Option.some.inj e; exact h
  | cons a as ih =>
    rw [run_cons] at e
    obtain ⟨t, ht, e⟩ := Option.bind_eq_some_iff.1 e
    exact ih (numbered_step h ht) e

/-- After every history different objects have different numbers: what is released is exactly the object that was dropped. -/
theorem numbers_differ (as : List Act) (s : State) (e : run {} as = some s) : (s.objs.map (·.1)).Nodup :=
  (numbered_run (s := {}) ⟨.nil, fun _ h => (by cases h)⟩ e).1

/-- A transport that a manager connected and has forgotten is released, whatever else the program keeps; what it did not have anything to do with stays as it was. -/
theorem forgotten_goes (as : List Act) (s s' : State) (m : Nat) (e : run {} as = some s) (e' : run s [.adopt m, .forget m s.next] = some s') :
    CanGo s' s.next ∧ (∀ x, Alive s x → Alive s' x) ∧ (∀ ed ∈ s.edges, ed ∈ s'.edges) := by
  have hn := numbered_run (s := {}) ⟨.nil, fun _ h => (by cases h)⟩ e
  have hi := inv_run inv_init e
  have hd : ∀ x, Alive s x → x ≠ s.next := fun x ⟨k, hk⟩ h => by have := hn.2 _ hk; simp only at this; omega
  simp only [run, step] at e'
  split at e'
  · rename_i hm
    simp only [Option.bind_some, Option.some.injEq] at e'
    have hedges : s'.edges = s.edges := by
      rw [← e']
      simp only [List.filter_append, List.filter_cons, List.filter_nil, BEq.rfl, Bool.and_self, Bool.not_true, Bool.false_eq_true, if_false, List.append_nil]
      refine List.filter_eq_self.2 fun ed hed => ?_
      have := hd _ (hi.dst ed hed)
      simp [this]
    have hroots : s'.roots = s.roots := by rw [← e']
    have hobjs : s'.objs = s.objs ++ [(s.next, .transport)] := by rw [← e']
    have hal : Alive s' s.next := ⟨.transport, by rw [hobjs]; simp⟩
    refine ⟨?_, fun x ⟨k, hk⟩ => ⟨k, by rw [hobjs]; exact List.mem_append_left _ hk⟩, fun ed h => by rw [hedges]; exact h⟩
    refine ⟨[[s.next]], { s' with objs := s'.objs.filter fun o => !([s.next].contains o.1), edges := s'.edges.filter fun e => !([s.next].contains e.src) }, ?_, ?_⟩
    · simp only [collects, List.map_cons, List.map_nil, run, step]
      rw [if_pos]
      · rfl
      · refine ⟨fun x hx => ?_, fun ed hed hx => ?_⟩
        · simp only [List.mem_singleton] at hx; subst hx
          exact ⟨(alive_iff _ _).2 hal, fun hr => hd _ (hi.root _ (hroots ▸ hr)) rfl⟩
        · simp only [List.mem_singleton] at hx
          exact absurd hx (hd _ (hi.dst ed (hedges ▸ hed)))
    · rintro ⟨k, hk⟩
      have := (List.mem_filter.1 hk).2
      simp at this
  · cases e'

/-- A manager with a connection that stays and one that goes. -/
example : ∃ s, run {} [.new .manager, .adopt 0] = some s ∧ ∃ s', run s [.adopt 0, .forget 0 s.next] = some s' ∧ s.next = 2 ∧ s'.edges.length = 1 ∧ ¬ Alive {} 2 :=
  ⟨_, rfl, _, rfl, rfl, rfl, fun ⟨_, h⟩ => (by cases h)⟩

/-- An object that nothing refers to can be released. -/
theorem unreferenced_goes {s : State} (hi : Inv s) {x : Nat} (hr : x ∉ s.roots) (hx : ∀ ed ∈ s.edges, ed.dst ≠ x) (ha : Alive s x) : CanGo s x := by
  refine ⟨[[x]], { s with objs := s.objs.filter fun o => !([x].contains o.1), edges := s.edges.filter fun e => !([x].contains e.src) }, ?_, ?_⟩
  · simp only [collects, List.map_cons, List.map_nil, run, step]
    rw [if_pos]
    · rfl
    · refine ⟨fun y hy => ?_, fun ed hed hy => ?_⟩
      · simp only [List.mem_singleton] at hy; subst hy
        exact ⟨(alive_iff _ _).2 ha, hr⟩
      · simp only [List.mem_singleton] at hy
        exact absurd hy (hx ed hed)
  · rintro ⟨k, hk⟩
    have := (List.mem_filter.1 hk).2
    simp at this

/-- An object that is only kept in an attribute is released when the attribute is deleted, and all other references stay. -/
theorem deleted_goes (as : List Act) (s s' : State) (k : Kind) (x : Nat) (e : run {} as = some s) (e' : run s [.new k, .keep x s.next, .drop s.next, .unkeep x s.next] = some s') :
    CanGo s' s.next ∧ ∀ ed, ed ∈ s'.edges ↔ ed ∈ s.edges := by
  have hn := numbered_run (s := {}) ⟨.nil, fun _ h => (by cases h)⟩ e
  have hi := inv_run inv_init e
  have hi' := inv_run hi e'
  have hd : ∀ x, Alive s x → x ≠ s.next := fun x ⟨k, hk⟩ h => by have := hn.2 _ hk; simp only at this; omega
  simp only [run, step] at e'
  split at e'
  · cases e'
  · simp only [Option.bind_some] at e'
    split at e'
    · simp only [Option.bind_some, Option.some.injEq] at e'
      have hedges : s'.edges = s.edges := by
        rw [← e']
        simp only [List.filter_append, List.filter_cons, List.filter_nil, BEq.rfl, Bool.and_self, Bool.not_true, Bool.not_false, Bool.false_eq_true, if_false, List.append_nil]
        refine List.filter_eq_self.2 fun ed hed => ?_
        have := hd _ (hi.dst ed hed)
        simp [this]
      refine ⟨unreferenced_goes hi' ?_ ?_ ?_, fun ed => by rw [hedges]⟩
      · rw [← e']; simp
      · intro ed hed
        exact hd _ (hi.dst ed (hedges ▸ hed))
      · exact ⟨k, by rw [← e']; simp⟩
    · cases e'

/-- A factory function of the program is released when another is added with the same name, which is then kept; all other references stay. -/
theorem replaced_factory_goes (as : List Act) (s s' : State) (m name : Nat) (e : run {} as = some s)
    (e' : run s [.new .function, .addFactory m name s.next, .new .function, .addFactory m name (s.next + 1), .drop s.next, .drop (s.next + 1)] = some s') :
    CanGo s' s.next ∧ (InUse s m → ¬ CanGo s' (s.next + 1)) ∧ ∀ ed, ed ∈ s'.edges ↔ (ed ∈ s.edges ∧ ¬ (ed.src = m ∧ ed.name = name)) ∨ ed = ⟨m, s.next + 1, true, name⟩ := by
  have hn := numbered_run (s := {}) ⟨.nil, fun _ h => (by cases h)⟩ e
  have hi := inv_run inv_init e
  have hi' := inv_run hi e'
  have hd : ∀ x, Alive s x → x < s.next := fun x ⟨k, hk⟩ => hn.2 _ hk
  have hre : run {} (as ++ [.new .function, .addFactory m name s.next, .new .function, .addFactory m name (s.next + 1), .drop s.next, .drop (s.next + 1)]) = some s' := by
    rw [run_append, e]; exact e'
  simp only [run, step, reduceCtorEq, if_false, Option.bind_some] at e'
  split at e'
  · rename_i hc
    simp only [Option.bind_some] at e'
    split at e'
    · simp only [Option.bind_some, Option.some.injEq] at e'
      have hedges : ∀ ed, ed ∈ s'.edges ↔ (ed ∈ s.edges ∧ ¬ (ed.src = m ∧ ed.name = name)) ∨ ed = ⟨m, s.next + 1, true, name⟩ := by
        intro ed
        rw [← e']
        simp only [List.mem_append, List.mem_filter, List.mem_singleton, Bool.not_eq_true', Bool.and_eq_false_iff, beq_eq_false_iff_ne]
        constructor
        · rintro (⟨⟨h1, h2⟩ | rfl, h3⟩ | h)
          · exact .inl ⟨h1, fun q => h2.elim (fun z => z q.1) (fun z => z q.2)⟩
          · simp at h3
          · exact .inr h
        · rintro (⟨h1, h2⟩ | h)
          · have h3 : ed.src ≠ m ∨ ed.name ≠ name := by
              by_cases q : ed.src = m
              · exact .inr fun z => h2 ⟨q, z⟩
              · exact .inl q
            exact .inl ⟨.inl ⟨h1, h3⟩, h3⟩
          · exact .inr h
      have hal : Alive s' s.next := ⟨.function, by rw [← e']; simp⟩
      have hal' : Alive s' (s.next + 1) := ⟨.function, by rw [← e']; simp⟩
      have hroots : ∀ r ∈ s.roots, r ∈ s'.roots := by
        intro r hr
        have := hd _ (hi.root r hr)
        rw [← e']
        simp only [List.mem_filter, List.mem_append, bne_iff_ne]
        exact ⟨⟨.inl (.inl hr), by omega⟩, by omega⟩
      refine ⟨unreferenced_goes hi' ?_ ?_ hal, ?_, hedges⟩
      · rw [← e']; simp
      · intro ed hed
        rcases (hedges ed).1 hed with ⟨h, _⟩ | rfl
        · have := hd _ (hi.dst ed h); omega
        · simp
      · rintro ⟨r, hr, hl⟩ hg
        refine ((released_iff _ s' hre _ hal').1 hg).1 ?_
        -- either the path to the manager is still there or part of it starts at the manager
        have : ∃ r' ∈ s'.roots, Leads s' r' m := by
          have key : ∀ z, Leads s r z → Leads s' r m ∨ Leads s' r z := by
            intro z hz
            induction hz with
            | refl => exact .inr .refl
            | tail h1 h2 ih =>
              rcases ih with ih | ih
              · exact .inl ih
              · obtain ⟨ed, hed, h3, h4⟩ := h2
                by_cases hm : ed.src = m
                · rw [← h3, hm] at ih; exact .inl ih
                · exact .inr (ih.tail ⟨ed, (hedges ed).2 (.inl ⟨hed, fun q => hm q.1⟩), h3, h4⟩)
          exact ⟨r, hroots r hr, (key m hl).elim id id⟩
        obtain ⟨r', hr', hl'⟩ := this
        exact ⟨r', hr', hl'.tail ⟨_, (hedges _).2 (.inr rfl), rfl, rfl⟩⟩
    · cases e'
  · cases e'

/-- The same for the endpoints of a transport. -/
theorem replaced_endpoint_goes (as : List Act) (s s' : State) (t name : Nat) (e : run {} as = some s)
    (e' : run s [.new .python, .addEndpoint t name s.next, .new .python, .addEndpoint t name (s.next + 1), .drop s.next, .drop (s.next + 1)] = some s') :
    CanGo s' s.next ∧ (InUse s t → ¬ CanGo s' (s.next + 1)) ∧ ∀ ed, ed ∈ s'.edges ↔ (ed ∈ s.edges ∧ ¬ (ed.src = t ∧ ed.name = name)) ∨ ed = ⟨t, s.next + 1, true, name⟩ := by
  have hn := numbered_run (s := {}) ⟨.nil, fun _ h => (by cases h)⟩ e
  have hi := inv_run inv_init e
  have hi' := inv_run hi e'
  have hd : ∀ x, Alive s x → x < s.next := fun x ⟨k, hk⟩ => hn.2 _ hk
  have hre : run {} (as ++ [.new .python, .addEndpoint t name s.next, .new .python, .addEndpoint t name (s.next + 1), .drop s.next, .drop (s.next + 1)]) = some s' := by
    rw [run_append, e]; exact e'
  simp only [run, step, reduceCtorEq, if_false, Option.bind_some] at e'
  split at e'
  · rename_i hc
    simp only [Option.bind_some] at e'
    split at e'
    · simp only [Option.bind_some, Option.some.injEq] at e'
      have hedges : ∀ ed, ed ∈ s'.edges ↔ (ed ∈ s.edges ∧ ¬ (ed.src = t ∧ ed.name = name)) ∨ ed = ⟨t, s.next + 1, true, name⟩ := by
        intro ed
        rw [← e']
        simp only [List.mem_append, List.mem_filter, List.mem_singleton, Bool.not_eq_true', Bool.and_eq_false_iff, beq_eq_false_iff_ne]
        constructor
        · rintro (⟨⟨h1, h2⟩ | rfl, h3⟩ | h)
          · exact .inl ⟨h1, fun q => h2.elim (fun z => z q.1) (fun z => z q.2)⟩
          · simp at h3
          · exact .inr h
        · rintro (⟨h1, h2⟩ | h)
          · have h3 : ed.src ≠ t ∨ ed.name ≠ name := by
              by_cases q : ed.src = t
              · exact .inr fun z => h2 ⟨q, z⟩
              · exact .inl q
            exact .inl ⟨.inl ⟨h1, h3⟩, h3⟩
          · exact .inr h
      have hal : Alive s' s.next := ⟨.python, by rw [← e']; simp⟩
      have hal' : Alive s' (s.next + 1) := ⟨.python, by rw [← e']; simp⟩
      have hroots : ∀ r ∈ s.roots, r ∈ s'.roots := by
        intro r hr
        have := hd _ (hi.root r hr)
        rw [← e']
        simp only [List.mem_filter, List.mem_append, bne_iff_ne]
        exact ⟨⟨.inl (.inl hr), by omega⟩, by omega⟩
      refine ⟨unreferenced_goes hi' ?_ ?_ hal, ?_, hedges⟩
      · rw [← e']; simp
      · intro ed hed
        rcases (hedges ed).1 hed with ⟨h, _⟩ | rfl
        · have := hd _ (hi.dst ed h); omega
        · simp
      · rintro ⟨r, hr, hl⟩ hg
        refine ((released_iff _ s' hre _ hal').1 hg).1 ?_
        have : ∃ r' ∈ s'.roots, Leads s' r' t := by
          have key : ∀ z, Leads s r z → Leads s' r t ∨ Leads s' r z := by
            intro z hz
            induction hz with
            | refl => exact .inr .refl
            | tail h1 h2 ih =>
              rcases ih with ih | ih
              · exact .inl ih
              · obtain ⟨ed, hed, h3, h4⟩ := h2
                by_cases hm : ed.src = t
                · rw [← h3, hm] at ih; exact .inl ih
                · exact .inr (ih.tail ⟨ed, (hedges ed).2 (.inl ⟨hed, fun q => hm q.1⟩), h3, h4⟩)
          exact ⟨r, hroots r hr, (key t hl).elim id id⟩
        obtain ⟨r', hr', hl'⟩ := this
        exact ⟨r', hr', hl'.tail ⟨_, (hedges _).2 (.inr rfl), rfl, rfl⟩⟩
    · cases e'
  · cases e'

/-- A manager whose factory is replaced and that has another; a transport whose endpoint is replaced; an attribute that is deleted. -/
example : (∃ s, run {} [.new .manager, .new .function, .addFactory 0 2 1] = some s ∧
    ∃ s', run s [.new .function, .addFactory 0 1 s.next, .new .function, .addFactory 0 1 (s.next + 1), .drop s.next, .drop (s.next + 1)] = some s' ∧ s'.edges.length = 2 ∧ 0 ∈ s.roots) ∧
    (∃ s, run {} [.new .transport] = some s ∧ ∃ s', run s [.new .python, .addEndpoint 0 1 s.next, .new .python, .addEndpoint 0 1 (s.next + 1), .drop s.next, .drop (s.next + 1)] = some s' ∧
      s'.edges.length = 1) ∧
    ∃ s, run {} [.new .python] = some s ∧ ∃ s', run s [.new .python, .keep 0 s.next, .drop s.next, .unkeep 0 s.next] = some s' ∧ s'.objs.length = 2 :=
  ⟨⟨_, rfl, _, rfl, rfl, by decide⟩, ⟨_, rfl, _, rfl, rfl⟩, _, rfl, _, rfl, rfl⟩

end Scalopus.C108
