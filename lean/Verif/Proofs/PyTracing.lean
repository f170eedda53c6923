import Verif.Spec.PyTracing
import Mathlib.Data.List.Nodup

/-!
# Lemmas about the Python decorators
-/

namespace Scalopus.PyTracing

open Spec

theorem run_append {s : State} {l l' : List Act} : run s (l ++ l') = (run s l).bind fun s' => run s' l' := by
  induction l generalizing s with
  | nil => rfl
  | cons a l ih =>
    simp only [List.cons_append, run]
    cases step s a with
    | none => rfl
    | some s' => exact ih

theorem run_append_some {s s' : State} {l l' : List Act} (h : run s (l ++ l') = some s') : ∃ m, run s l = some m ∧ run m l' = some s' := by
  rw [run_append] at h
  cases hm : run s l with
  | none => rw [hm] at h; cases h
  | some m => rw [hm] at h; exact ⟨m, rfl, h⟩

theorem run_cons_some {s s' : State} {a : Act} {l : List Act} (h : run s (a :: l) = some s') : ∃ m, step s a = some m ∧ run m l = some s' := by
  simp only [run] at h
  cases hm : step s a with
  | none => rw [hm] at h; cases h
  | some m => rw [hm] at h; exact ⟨m, rfl, h⟩

theorem exclusive_append {s m : State} {l l' : List Act} (h : Exclusive s (l ++ l')) (hr : run s l = some m) : Exclusive m l' := by
  induction l generalizing s with
  | nil =>
    simp only [run, Option.some.injEq] at hr
    subst hr
    exact h
  | cons a l ih =>
    obtain ⟨n, h1, h2⟩ := run_cons_some hr
    exact ih (h.2 n h1) h2

/-- A step of another thread leaves a thread alone. -/
theorem step_other {s s' : State} {a : Act} {t : Nat} (h : step s a = some s') (ht : a.thread ≠ t) : s'.thr t = s.thr t := by
  cases a <;> simp only [step, Act.thread, State.setThr] at h ht <;> (try split at h) <;>
    first
    | (cases h; done)
    | (simp only [Option.some.injEq] at h; subst h; simp [Ne.symm ht])

theorem run_others {s s' : State} {l : List Act} {t : Nat} (h : run s l = some s') (hl : l.filter (fun a => decide (a.thread = t)) = []) : s'.thr t = s.thr t := by
  induction l generalizing s with
  | nil => simp only [run, Option.some.injEq] at h; rw [h]
  | cons a l ih =>
    obtain ⟨m, h1, h2⟩ := run_cons_some h
    have ha : a.thread ≠ t := by
      intro hc
      rw [List.filter_cons_of_pos (by simpa using hc)] at hl
      cases hl
    rw [List.filter_cons_of_neg (by simpa using ha)] at hl
    rw [ih h2 hl, step_other h1 ha]

/-- Runs up to and including the next step of thread `t`. -/
theorem run_next {s s' : State} {l p : List Act} {t : Nat} {a : Act} (h : run s l = some s') (hl : l.filter (fun a => decide (a.thread = t)) = a :: p) :
    ∃ l1 l2 m m', l = l1 ++ a :: l2 ∧ run s l1 = some m ∧ m.thr t = s.thr t ∧ step m a = some m' ∧ run m' l2 = some s' ∧ l2.filter (fun a => decide (a.thread = t)) = p := by
  obtain ⟨l1, l2, rfl, h1, _, h3⟩ := List.filter_eq_cons_iff.mp hl
  obtain ⟨m, hm, hr⟩ := run_append_some h
  obtain ⟨m', hs, hr⟩ := run_cons_some hr
  exact ⟨l1, l2, m, m', rfl, hm, run_others hm (List.filter_eq_nil_iff.mpr h1), hs, hr, h3⟩

/-- Complete calls leave the stack as it was. -/
theorem calls_stack {t : Nat} {p : List Act} (hp : Calls t p) : ∀ {s s' : State} {l : List Act}, run s l = some s' → l.filter (fun a => decide (a.thread = t)) = p → (s.thr t).pc = .idle →
    (s'.thr t).stack = (s.thr t).stack ∧ (s'.thr t).pc = .idle := by
  induction hp with
  | nil =>
    intro s s' l h hl hpc
    rw [run_others h hl]
    exact ⟨rfl, hpc⟩
  | suppressed f body rest _ _ ihb ihr =>
    intro s s' l h hl hpc
    simp only [List.append_assoc, List.cons_append, List.nil_append] at hl
    obtain ⟨_, l1, m0, m1, -, -, e0, s1, r1, f1⟩ := run_next h hl
    obtain ⟨_, l2, m2, m3, -, -, e2, s3, r3, f3⟩ := run_next r1 f1
    obtain ⟨lb, l3, rfl, f4, f5⟩ := List.filter_eq_append_iff.mp f3
    obtain ⟨m4, r4, r5⟩ := run_append_some r3
    have hm1 : (m1.thr t).stack = .suppressed f (m0.thr t).on :: (s.thr t).stack ∧ (m1.thr t).pc = .storing f (m0.thr t).on := by
      simp only [step, State.setThr] at s1
      split at s1
      · simp only [Option.some.injEq] at s1
        subst s1
        simp [e0]
      · cases s1
    have hm3 : (m3.thr t).stack = (m1.thr t).stack ∧ (m3.thr t).pc = .idle := by
      simp only [step, State.setThr, e2, hm1.2] at s3
      simp only [Option.some.injEq] at s3
      subst s3
      simp
    have hm4 := ihb r4 f4 hm3.2
    obtain ⟨_, l6, m6, m7, -, -, e6, s7, r7, f7⟩ := run_next r5 f5
    have hm7 : (m7.thr t).stack = (m1.thr t).stack ∧ ∃ v, (m7.thr t).pc = .restoring v := by
      simp only [step, State.setThr, e6, hm4.1, hm3.1, hm4.2, hm1.1] at s7
      simp only [Option.some.injEq] at s7
      subst s7
      simp [hm4.1, hm3.1, hm1.1]
    obtain ⟨h7, v, h7v⟩ := hm7
    obtain ⟨_, l8, m8, m9, -, -, e8, s9, r9, f9⟩ := run_next r7 f7
    have hm9 : (m9.thr t).stack = (s.thr t).stack ∧ (m9.thr t).pc = .idle := by
      simp only [step, State.setThr, e8, h7v] at s9
      simp only [Option.some.injEq] at s9
      subst s9
      simp [h7, hm1.1]
    have := ihr r9 f9 hm9.2
    exact ⟨this.1.trans hm9.1, this.2⟩
  | traced id body rest _ _ ihb ihr =>
    intro s s' l h hl hpc
    simp only [List.cons_append] at hl
    obtain ⟨_, l1, m0, m1, -, -, e0, s1, r1, f1⟩ := run_next h hl
    have hm1 : (m1.thr t).stack = .traced id (m0.thr t).on :: (s.thr t).stack ∧ (m1.thr t).pc = .idle := by
      simp only [step, State.setThr, e0, hpc, if_true] at s1
      simp only [Option.some.injEq] at s1
      subst s1
      simp [e0, hpc]
    obtain ⟨lb, l3, rfl, f4, f5⟩ := List.filter_eq_append_iff.mp f1
    obtain ⟨m4, r4, r5⟩ := run_append_some r1
    have hm4 := ihb r4 f4 hm1.2
    obtain ⟨_, l6, m6, m7, -, -, e6, s7, r7, f7⟩ := run_next r5 f5
    have hm7 : (m7.thr t).stack = (s.thr t).stack ∧ (m7.thr t).pc = .idle := by
      simp only [step, State.setThr, e6, hm4.1, hm4.2, hm1.1] at s7
      simp only [Option.some.injEq] at s7
      subst s7
      simp [hm4.2]
    have := ihr r7 f7 hm7.2
    exact ⟨this.1.trans hm7.1, this.2⟩
  | set b rest _ ihr =>
    intro s s' l h hl hpc
    obtain ⟨_, l1, m0, m1, -, -, e0, s1, r1, f1⟩ := run_next h hl
    have hm1 : (m1.thr t).stack = (s.thr t).stack ∧ (m1.thr t).pc = .idle := by
      simp only [step, State.setThr, e0, hpc, if_true] at s1
      simp only [Option.some.injEq] at s1
      subst s1
      simp [hpc]
    have := ihr r1 f1 hm1.2
    exact ⟨this.1.trans hm1.1, this.2⟩

/-- The suppressed functions on a stack. -/
def fns (l : List Frame) : List Nat := l.filterMap fun
  | .suppressed f _ => some f
  | .traced _ _ => none

theorem mem_fns {l : List Frame} {f : Nat} : f ∈ fns l ↔ ∃ b, Frame.suppressed f b ∈ l := by
  unfold fns
  rw [List.mem_filterMap]
  constructor
  · rintro ⟨x, hx, h⟩
    cases x with
    | suppressed g b => simp only [Option.some.injEq] at h; subst h; exact ⟨b, hx⟩
    | traced _ _ => cases h
  · rintro ⟨b, hb⟩
    exact ⟨_, hb, rfl⟩

theorem fns_unique {l : List Frame} (h : (fns l).Nodup) {f : Nat} {b b' : Bool} (h1 : Frame.suppressed f b ∈ l) (h2 : Frame.suppressed f b' ∈ l) : b = b' := by
  induction l with
  | nil => cases h1
  | cons x l ih =>
    cases x with
    | suppressed g c =>
      have hn : g ∉ fns l ∧ (fns l).Nodup := by simpa [fns] using h
      rcases List.mem_cons.mp h1 with k1 | k1 <;> rcases List.mem_cons.mp h2 with k2 | k2
      · cases k1; cases k2; rfl
      · cases k1; exact absurd (mem_fns (l := l).mpr ⟨_, k2⟩) hn.1
      · cases k2; exact absurd (mem_fns (l := l).mpr ⟨_, k1⟩) hn.1
      · exact ih hn.2 k1 k2
    | traced id c =>
      rcases List.mem_cons.mp h1 with h1 | h1
      · cases h1
      · rcases List.mem_cons.mp h2 with h2 | h2
        · cases h2
        · exact ih (by simpa [fns] using h) h1 h2

/-- Holds of the states that executions without nested or concurrent calls of a function reach. -/
structure Inv (s : State) : Prop where
  nodup : ∀ t, (fns (s.thr t).stack).Nodup
  disj : ∀ t t' f, t ≠ t' → f ∈ fns (s.thr t).stack → f ∉ fns (s.thr t').stack
  kept : ∀ t f b, Frame.suppressed f b ∈ (s.thr t).stack → (s.thr t).pc = .storing f b ∨ s.old f = b
  storing : ∀ t f v, (s.thr t).pc = .storing f v → ∃ r, (s.thr t).stack = .suppressed f v :: r
  restoring : ∀ t v, (s.thr t).pc = .restoring v → ∃ f r, (s.thr t).stack = .suppressed f v :: r

theorem inv_init : Inv {} := by
  constructor <;> intros <;> simp_all [fns]

theorem inv_step {s s' : State} {a : Act} (hi : Inv s) (h : step s a = some s') (hx : ∀ t f, a = .enter t f → ¬ Active s f) : Inv s' := by
  obtain ⟨i1, i2, i3, i4, i5⟩ := hi
  cases a with
  | enter t f =>
    simp only [step, State.setThr] at h
    split at h
    case isFalse => cases h
    case isTrue hpc =>
      simp only [Option.some.injEq] at h
      subst h
      have ha : ∀ u, f ∉ fns (s.thr u).stack := fun u hu => hx t f rfl (by obtain ⟨b, hb⟩ := mem_fns.mp hu; exact ⟨u, b, hb⟩)
      have hf : ∀ b, fns (.suppressed f b :: (s.thr t).stack) = f :: fns (s.thr t).stack := fun b => rfl
      refine ⟨?_, ?_, ?_, ?_, ?_⟩
      · intro u
        by_cases hu : u = t
        · subst hu; simp only [if_true, hf]; exact List.nodup_cons.mpr ⟨ha u, i1 u⟩
        · simp only [if_neg hu]; exact i1 u
      · intro u u' g huu
        by_cases hu : u = t
        · subst hu
          simp only [if_true, if_neg (Ne.symm huu), hf, List.mem_cons]
          rintro (rfl | hg)
          · exact ha u'
          · exact i2 u u' g huu hg
        · by_cases hu' : u' = t
          · subst hu'
            simp only [if_true, if_neg huu, hf, List.mem_cons]
            rintro hg (rfl | hg')
            · exact ha u hg
            · exact i2 u u' g huu hg hg'
          · simp only [if_neg hu, if_neg hu']; exact i2 u u' g huu
      · intro u g b
        by_cases hu : u = t
        · subst hu
          simp only [if_true, List.mem_cons]
          rintro (hg | hg)
          · cases hg; exact .inl rfl
          · rcases i3 u g b hg with h' | h'
            · rw [hpc] at h'; cases h'
            · exact .inr h'
        · simp only [if_neg hu]; exact i3 u g b
      · intro u g v
        by_cases hu : u = t
        · subst hu
          simp only [if_true]
          intro hv
          cases hv
          exact ⟨_, rfl⟩
        · simp only [if_neg hu]; exact i4 u g v
      · intro u v
        by_cases hu : u = t
        · subst hu; simp
        · simp only [if_neg hu]; exact i5 u v
  | store t =>
    simp only [step, State.setThr] at h
    split at h
    case h_2 => cases h
    case h_1 f v hpc =>
      simp only [Option.some.injEq] at h
      subst h
      obtain ⟨r, hr⟩ := i4 t f v hpc
      have hst : ∀ u, (if u = t then { s.thr t with pc := Pc.idle } else s.thr u).stack = (s.thr u).stack := by
        intro u; split
        · next hu => subst hu; rfl
        · rfl
      have hm : Frame.suppressed f v ∈ (s.thr t).stack := by rw [hr]; simp
      refine ⟨fun u => by simp only [hst]; exact i1 u, fun u u' g huu => by simp only [hst]; exact i2 u u' g huu, ?_, ?_, ?_⟩
      · intro u g b
        simp only [hst]
        intro hg
        by_cases hgf : g = f
        · subst hgf
          simp only [if_true]
          by_cases hu : u = t
          · subst hu; exact .inr (fns_unique (i1 u) hm hg)
          · exact absurd (mem_fns.mpr ⟨_, hm⟩) (i2 u t g hu (mem_fns.mpr ⟨_, hg⟩))
        · simp only [if_neg hgf]
          rcases i3 u g b hg with h' | h'
          · by_cases hu : u = t
            · subst hu; rw [hpc] at h'; cases h'; exact absurd rfl hgf
            · simp only [if_neg hu]; exact .inl h'
          · exact .inr h'
      · intro u g w
        simp only [hst]
        by_cases hu : u = t
        · subst hu; simp
        · simp only [if_neg hu]; exact i4 u g w
      · intro u w
        simp only [hst]
        by_cases hu : u = t
        · subst hu; simp
        · simp only [if_neg hu]; exact i5 u w
  | load t =>
    simp only [step, State.setThr] at h
    split at h
    case h_2 => cases h
    case h_1 f b r hpc hr =>
      simp only [Option.some.injEq] at h
      subst h
      have hst : ∀ u, (if u = t then { s.thr t with pc := Pc.restoring (s.old f) } else s.thr u).stack = (s.thr u).stack := by
        intro u; split
        · next hu => subst hu; rfl
        · rfl
      refine ⟨fun u => by simp only [hst]; exact i1 u, fun u u' g huu => by simp only [hst]; exact i2 u u' g huu, ?_, ?_, ?_⟩
      · intro u g b
        simp only [hst]
        intro hg
        rcases i3 u g b hg with h' | h'
        · by_cases hu : u = t
          · subst hu; rw [hpc] at h'; cases h'
          · simp only [if_neg hu]; exact .inl h'
        · exact .inr h'
      · intro u g w
        simp only [hst]
        by_cases hu : u = t
        · subst hu; simp
        · simp only [if_neg hu]; exact i4 u g w
      · intro u w
        simp only [hst]
        by_cases hu : u = t
        · subst hu
          simp only [if_true]
          intro hw
          cases hw
          rcases i3 u f b (by rw [hr]; simp) with h' | h'
          · rw [hpc] at h'; cases h'
          · exact ⟨f, r, by rw [hr, h']⟩
        · simp only [if_neg hu]; exact i5 u w
  | restore t =>
    simp only [step, State.setThr] at h
    split at h
    case h_2 => cases h
    case h_1 v hpc =>
      simp only [Option.some.injEq] at h
      subst h
      obtain ⟨f, r, hr⟩ := i5 t v hpc
      have hf : fns (s.thr t).stack = f :: fns r := by rw [hr]; rfl
      have ht := i1 t
      rw [hf] at ht
      refine ⟨?_, ?_, ?_, ?_, ?_⟩
      · intro u
        by_cases hu : u = t
        · subst hu; simp only [if_true, hr, List.tail_cons]; exact (List.nodup_cons.mp ht).2
        · simp only [if_neg hu]; exact i1 u
      · intro u u' g huu
        by_cases hu : u = t
        · subst hu
          simp only [if_true, if_neg (Ne.symm huu), hr, List.tail_cons]
          intro hg
          exact i2 u u' g huu (by rw [hf]; exact List.mem_cons_of_mem _ hg)
        · by_cases hu' : u' = t
          · subst hu'
            simp only [if_true, if_neg huu, hr, List.tail_cons]
            intro hg hg'
            exact i2 u u' g huu hg (by rw [hf]; exact List.mem_cons_of_mem _ hg')
          · simp only [if_neg hu, if_neg hu']; exact i2 u u' g huu
      · intro u g b
        by_cases hu : u = t
        · subst hu
          simp only [if_true, hr, List.tail_cons]
          intro hg
          rcases i3 u g b (by rw [hr]; exact List.mem_cons_of_mem _ hg) with h' | h'
          · rw [hpc] at h'; cases h'
          · exact .inr h'
        · simp only [if_neg hu]; exact i3 u g b
      · intro u g w
        by_cases hu : u = t
        · subst hu; simp
        · simp only [if_neg hu]; exact i4 u g w
      · intro u w
        by_cases hu : u = t
        · subst hu; simp
        · simp only [if_neg hu]; exact i5 u w
  | trace t id =>
    simp only [step, State.setThr] at h
    split at h
    case isFalse => cases h
    case isTrue hpc =>
      simp only [Option.some.injEq] at h
      subst h
      have hst : ∀ u, fns (if u = t then { s.thr t with events := emit (s.thr t) (.entry id), stack := .traced id (s.thr t).on :: (s.thr t).stack } else s.thr u).stack = fns (s.thr u).stack := by
        intro u; split
        · next hu => subst hu; rfl
        · rfl
      refine ⟨fun u => by rw [hst]; exact i1 u, fun u u' g huu => by rw [hst, hst]; exact i2 u u' g huu, ?_, ?_, ?_⟩
      · intro u g b
        by_cases hu : u = t
        · subst hu
          simp only [if_true, List.mem_cons]
          rintro (hg | hg)
          · cases hg
          · exact i3 u g b hg
        · simp only [if_neg hu]; exact i3 u g b
      · intro u g w
        by_cases hu : u = t
        · subst hu; simp [hpc]
        · simp only [if_neg hu]; exact i4 u g w
      · intro u w
        by_cases hu : u = t
        · subst hu; simp [hpc]
        · simp only [if_neg hu]; exact i5 u w
  | untrace t =>
    simp only [step, State.setThr] at h
    split at h
    case h_2 => cases h
    case h_1 id b r hpc hr =>
      simp only [Option.some.injEq] at h
      subst h
      have hst : ∀ u, fns (if u = t then { s.thr t with events := emit (s.thr t) (.exit id), stack := r } else s.thr u).stack = fns (s.thr u).stack := by
        intro u; split
        · next hu => subst hu; rw [hr]; rfl
        · rfl
      refine ⟨fun u => by rw [hst]; exact i1 u, fun u u' g huu => by rw [hst, hst]; exact i2 u u' g huu, ?_, ?_, ?_⟩
      · intro u g b
        by_cases hu : u = t
        · subst hu
          simp only [if_true]
          intro hg
          exact i3 u g b (by rw [hr]; exact List.mem_cons_of_mem _ hg)
        · simp only [if_neg hu]; exact i3 u g b
      · intro u g w
        by_cases hu : u = t
        · subst hu; simp [hpc]
        · simp only [if_neg hu]; exact i4 u g w
      · intro u w
        by_cases hu : u = t
        · subst hu; simp [hpc]
        · simp only [if_neg hu]; exact i5 u w
  | set t b =>
    simp only [step, State.setThr] at h
    split at h
    case isFalse => cases h
    case isTrue hpc =>
      simp only [Option.some.injEq] at h
      subst h
      have hst : ∀ u, (if u = t then { s.thr t with on := b } else s.thr u).stack = (s.thr u).stack := by
        intro u; split
        · next hu => subst hu; rfl
        · rfl
      have hpp : ∀ u, (if u = t then { s.thr t with on := b } else s.thr u).pc = (s.thr u).pc := by
        intro u; split
        · next hu => subst hu; rfl
        · rfl
      exact ⟨fun u => by simp only [hst]; exact i1 u, fun u u' g huu => by simp only [hst]; exact i2 u u' g huu, fun u g b => by simp only [hst, hpp]; exact i3 u g b,
        fun u g w => by simp only [hst, hpp]; exact i4 u g w, fun u w => by simp only [hst, hpp]; exact i5 u w⟩

theorem inv_run {s s' : State} {l : List Act} (hi : Inv s) (h : run s l = some s') (hx : Exclusive s l) : Inv s' := by
  induction l generalizing s with
  | nil => simp only [run, Option.some.injEq] at h; subst h; exact hi
  | cons a l ih =>
    obtain ⟨m, h1, h2⟩ := run_cons_some h
    exact ih (inv_step hi h1 hx.1) h2 (hx.2 m h1)

/-! ## Nested events -/

theorem nested_append {l l' : List Event} (h : Nested l) (h' : Nested l') : Nested (l ++ l') := by
  induction h with
  | nil => exact h'
  | scope id l r hl _ _ ih =>
    have := Nested.scope id l (r ++ l') hl ih
    simpa using this

/-- The events of a thread, given the calls in progress. -/
inductive Opened : List Frame → List Event → Prop
  | nil (e : List Event) : Nested e → Opened [] e
  | suppressed (f : Nat) (b : Bool) (st : List Frame) (e : List Event) : Opened st e → Opened (.suppressed f b :: st) e
  | traced (id : Nat) (st : List Frame) (e e' : List Event) : Opened st e → Nested e' → Opened (.traced id true :: st) (e ++ .entry id :: e')
  | hidden (id : Nat) (st : List Frame) (e : List Event) : Opened st e → Opened (.traced id false :: st) e

theorem Opened.append {st : List Frame} {e : List Event} (h : Opened st e) {e' : List Event} (h' : Nested e') : Opened st (e ++ e') := by
  induction h with
  | nil e he => exact .nil _ (nested_append he h')
  | suppressed f b st e _ ih => exact .suppressed _ _ _ _ ih
  | traced id st e e1 h1 he _ =>
    have := Opened.traced id st e (e1 ++ e') h1 (nested_append he h')
    simpa using this
  | hidden id st e _ ih => exact .hidden _ _ _ ih

/-- The tracing state that follows from the calls in progress, starting from on. -/
def cur : List Frame → Bool
  | [] => true
  | .suppressed _ _ :: _ => false
  | .traced _ b :: _ => b

/-- Each frame has the right state before it. -/
def Chain : List Frame → Prop
  | [] => True
  | .suppressed _ b :: r => b = cur r ∧ Chain r
  | .traced _ b :: r => b = cur r ∧ Chain r

structure EvInv (s : State) : Prop where
  on : ∀ t, (s.thr t).on = cur (s.thr t).stack
  chain : ∀ t, Chain (s.thr t).stack
  opened : ∀ t, Opened (s.thr t).stack (s.thr t).events

theorem evInv_init : EvInv {} := ⟨fun _ => rfl, fun _ => trivial, fun _ => .nil _ .nil⟩

theorem evInv_step {s s' : State} {a : Act} (hi : Inv s) (he : EvInv s) (h : step s a = some s') (hs : ∀ t b, a ≠ .set t b) : EvInv s' := by
  suffices ∀ t, t = a.thread → (s'.thr t).on = cur (s'.thr t).stack ∧ Chain (s'.thr t).stack ∧ Opened (s'.thr t).stack (s'.thr t).events by
    refine ⟨fun t => ?_, fun t => ?_, fun t => ?_⟩ <;> by_cases ht : t = a.thread
    · exact (this t ht).1
    · rw [step_other h (Ne.symm ht)]; exact he.on t
    · exact (this t ht).2.1
    · rw [step_other h (Ne.symm ht)]; exact he.chain t
    · exact (this t ht).2.2
    · rw [step_other h (Ne.symm ht)]; exact he.opened t
  intro t ht
  have h1 := he.on t
  have h2 := he.chain t
  have h3 := he.opened t
  cases a with
  | enter t' f =>
    simp only [Act.thread] at ht
    subst ht
    simp only [step, State.setThr] at h
    split at h
    case isFalse => cases h
    case isTrue hpc =>
      simp only [Option.some.injEq] at h
      subst h
      simp only [if_true]
      exact ⟨rfl, ⟨h1, h2⟩, .suppressed _ _ _ _ h3⟩
  | store t' =>
    simp only [Act.thread] at ht
    subst ht
    simp only [step, State.setThr] at h
    split at h
    case h_2 => cases h
    case h_1 f v hpc =>
      simp only [Option.some.injEq] at h
      subst h
      simp only [if_true]
      exact ⟨h1, h2, h3⟩
  | load t' =>
    simp only [Act.thread] at ht
    subst ht
    simp only [step, State.setThr] at h
    split at h
    case h_2 => cases h
    case h_1 f v hpc =>
      simp only [Option.some.injEq] at h
      subst h
      simp only [if_true]
      exact ⟨h1, h2, h3⟩
  | restore t' =>
    simp only [Act.thread] at ht
    subst ht
    simp only [step, State.setThr] at h
    split at h
    case h_2 => cases h
    case h_1 v hpc =>
      simp only [Option.some.injEq] at h
      subst h
      simp only [if_true]
      obtain ⟨f, r, hr⟩ := hi.restoring t v hpc
      rw [hr] at h2 h3
      simp only [hr, List.tail_cons]
      refine ⟨h2.1, h2.2, ?_⟩
      cases h3 with
      | suppressed _ _ _ _ h => exact h
  | trace t' id =>
    simp only [Act.thread] at ht
    subst ht
    simp only [step, State.setThr] at h
    split at h
    case isFalse => cases h
    case isTrue hpc =>
      simp only [Option.some.injEq] at h
      subst h
      simp only [if_true]
      refine ⟨rfl, ⟨h1, h2⟩, ?_⟩
      unfold emit
      cases hon : (s.thr t).on with
      | true => exact .traced _ _ _ _ h3 .nil
      | false => exact .hidden _ _ _ h3
  | untrace t' =>
    simp only [Act.thread] at ht
    subst ht
    simp only [step, State.setThr] at h
    split at h
    case h_2 => cases h
    case h_1 id b r hpc hr =>
      simp only [Option.some.injEq] at h
      subst h
      simp only [if_true]
      rw [hr] at h1 h2 h3
      simp only [cur] at h1
      refine ⟨by rw [h1]; exact h2.1, h2.2, ?_⟩
      unfold emit
      rw [h1]
      generalize (s.thr t).events = ev at h3
      cases h3 with
      | traced _ _ e e' ho hn =>
        have := ho.append (nested_append (Nested.scope id e' [] hn .nil) .nil)
        simpa using this
      | hidden _ _ _ ho => simpa using ho
  | set t' b => exact absurd rfl (hs t' b)

theorem evInv_run {s s' : State} {l : List Act} (hi : Inv s) (he : EvInv s) (h : run s l = some s') (hx : Exclusive s l) (hs : ∀ t b, .set t b ∉ l) : EvInv s' := by
  induction l generalizing s with
  | nil => simp only [run, Option.some.injEq] at h; subst h; exact he
  | cons a l ih =>
    obtain ⟨m, h1, h2⟩ := run_cons_some h
    exact ih (inv_step hi h1 hx.1) (evInv_step hi he h1 fun t b hc => hs t b (by simp [hc])) h2 (hx.2 m h1) fun t b hc => hs t b (by simp [hc])

/-! ## Call trees of one thread -/

/-- After the steps of a call of `f`. -/
theorem run_call {s : State} {t f : Nat} {body : List Act} {Q : (Nat → Bool) → Prop} (hpc : (s.thr t).pc = .idle)
    (hb : ∀ s0 : State, s0.thr t = { s.thr t with on := false, stack := .suppressed f (s.thr t).on :: (s.thr t).stack } → (∀ g, s0.old g = if g = f then (s.thr t).on else s.old g) →
      ∃ s1, run s0 body = some s1 ∧ (s1.thr t).pc = .idle ∧ (s1.thr t).stack = .suppressed f (s.thr t).on :: (s.thr t).stack ∧ Q s1.old) :
    ∃ s', run s ([.enter t f, .store t] ++ body ++ [.load t, .restore t]) = some s' ∧ (s'.thr t).pc = .idle ∧ (s'.thr t).stack = (s.thr t).stack ∧ (s'.thr t).on = s'.old f ∧ Q s'.old := by
  let a : State := s.setThr t { s.thr t with on := false, pc := .storing f (s.thr t).on, stack := .suppressed f (s.thr t).on :: (s.thr t).stack }
  have ha : step s (.enter t f) = some a := by
    simp only [step]
    rw [if_pos hpc]
  have hat : a.thr t = { s.thr t with on := false, pc := .storing f (s.thr t).on, stack := .suppressed f (s.thr t).on :: (s.thr t).stack } := by
    simp [a, State.setThr]
  let b : State := { a.setThr t { a.thr t with pc := .idle } with old := fun g => if g = f then (s.thr t).on else s.old g }
  have hbs : step a (.store t) = some b := by
    simp only [step]
    rw [hat]
    simp only [b, hat]
    rfl
  have hbt : b.thr t = { s.thr t with on := false, stack := .suppressed f (s.thr t).on :: (s.thr t).stack } := by
    simp [b, State.setThr, hat, hpc]
  obtain ⟨s1, r1, p1, k1, o1⟩ := hb b hbt fun g => rfl
  let c : State := s1.setThr t { s1.thr t with pc := .restoring (s1.old f) }
  have hc : step s1 (.load t) = some c := by
    unfold step
    simp only [p1, k1, c]
  have hct : c.thr t = { s1.thr t with pc := .restoring (s1.old f) } := by simp [c, State.setThr]
  let d : State := c.setThr t { c.thr t with on := s1.old f, pc := .idle, stack := (c.thr t).stack.tail }
  have hd : step c (.restore t) = some d := by
    simp only [step]
    rw [hct]
    simp only [d, hct]
  refine ⟨d, ?_, ?_, ?_, ?_, ?_⟩
  · rw [List.append_assoc, run_append]
    have : run s [.enter t f, .store t] = some b := by simp only [run, ha, hbs, Option.bind_some]
    rw [this]
    simp only [Option.bind_some]
    rw [run_append, r1]
    simp only [Option.bind_some, run, hc, hd]
  · simp [d, State.setThr]
  · simp [d, State.setThr, hct, k1]
  · simp [d, c, State.setThr]
  · simpa [d, c, State.setThr] using o1

mutual
/-- Calls made while tracing is off leave it off, and all switchers used remember that it was off. -/
theorem tree_off (t : Nat) : ∀ (k : Tree) {s : State}, (s.thr t).pc = .idle → (s.thr t).on = false →
    ∃ s', run s (k.acts t) = some s' ∧ (s'.thr t).pc = .idle ∧ (s'.thr t).stack = (s.thr t).stack ∧ (s'.thr t).on = false ∧
      ∀ g, (k.Calls g → s'.old g = false) ∧ (¬ k.Calls g → s'.old g = s.old g)
  | .call f kids, s, hpc, hon => by
    obtain ⟨s', h1, h2, h3, h4, h5⟩ := run_call (s := s) (t := t) (f := f) (body := actsL t kids)
      (Q := fun old => ∀ g, (callsL g kids → old g = false) ∧ (¬ callsL g kids → old g = if g = f then false else s.old g)) hpc (by
        intro s0 e0 o0
        obtain ⟨s1, r1, p1, k1, _, q1⟩ := forest_off t kids (s := s0) (by rw [e0]; exact hpc) (by rw [e0])
        refine ⟨s1, r1, p1, by rw [k1, e0], fun g => ⟨(q1 g).1, fun hg => ?_⟩⟩
        rw [(q1 g).2 hg, o0 g, hon])
    have hall : ∀ g, (g = f ∨ callsL g kids) → s'.old g = false := by
      intro g hg
      by_cases hk : callsL g kids
      · exact (h5 g).1 hk
      · rcases hg with hg | hg
        · rw [(h5 g).2 hk, if_pos hg]
        · exact absurd hg hk
    refine ⟨s', by simpa only [Tree.acts] using h1, h2, h3, by rw [h4]; exact hall f (.inl rfl), fun g => ⟨fun hg => ?_, fun hg => ?_⟩⟩
    · simp only [Tree.Calls] at hg
      exact hall g hg
    · simp only [Tree.Calls, not_or] at hg
      rw [(h5 g).2 hg.2, if_neg hg.1]

theorem forest_off (t : Nat) : ∀ (l : List Tree) {s : State}, (s.thr t).pc = .idle → (s.thr t).on = false →
    ∃ s', run s (actsL t l) = some s' ∧ (s'.thr t).pc = .idle ∧ (s'.thr t).stack = (s.thr t).stack ∧ (s'.thr t).on = false ∧
      ∀ g, (callsL g l → s'.old g = false) ∧ (¬ callsL g l → s'.old g = s.old g)
  | [], s, hpc, hon => ⟨s, rfl, hpc, rfl, hon, fun g => ⟨fun h => (by simp only [callsL] at h), fun _ => rfl⟩⟩
  | k :: l, s, hpc, hon => by
    obtain ⟨s1, r1, p1, k1, n1, q1⟩ := tree_off t k hpc hon
    obtain ⟨s2, r2, p2, k2, n2, q2⟩ := forest_off t l p1 n1
    refine ⟨s2, ?_, p2, k2.trans k1, n2, fun g => ⟨fun hg => ?_, fun hg => ?_⟩⟩
    · simp only [actsL]
      rw [run_append, r1]
      exact r2
    · simp only [callsL] at hg
      by_cases h2 : callsL g l
      · exact (q2 g).1 h2
      · rw [(q2 g).2 h2]
        exact (q1 g).1 (hg.resolve_right h2)
    · simp only [callsL, not_or] at hg
      rw [(q2 g).2 hg.2, (q1 g).2 hg.1]
end

end Scalopus.PyTracing
