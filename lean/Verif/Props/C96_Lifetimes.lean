import Verif.Model.Lifetime

/-!
# C96: transports and endpoints may be released in any order
-/

namespace Scalopus.C96

open Lifetime

/-- The full property: no history of holding, releasing, adding and using transports and endpoints is undefined behaviour. -/
def NeverDangling : Prop := ∀ as, run {} as ≠ .ub

theorem run_append (as bs : List Act) (s : State) : run s (as ++ bs) = match run s as with
    | .ok s' => run s' bs
    | o => o := by
  induction as generalizing s with
  | nil => rfl
  | cons a as ih =>
    simp only [List.cons_append, run]
    cases step s a with
    | ok s' => exact ih s'
    | no => rfl
    | ub => rfl

/-! ### Invariants -/

structure Inv (s : State) : Prop where
  fresh : ∀ t, s.nt ≤ t → s.tr t = {}
  made : ∀ e, s.ne ≤ e → s.ep e = {} ∧ ∀ t n, (n, e) ∉ (s.tr t).eps
  alive : ∀ t, 0 < (s.tr t).held ↔ (s.tr t).phase = .alive
  dead : ∀ t, (s.tr t).phase = .dead → (s.tr t).eps = [] ∧ (s.tr t).waits = none
  waits : ∀ t e, (s.tr t).waits = some e → e < s.ne ∧ (s.ep e).running = false ∧ (s.ep e).held = 0 ∧ ∀ t' n, (n, e) ∉ (s.tr t').eps
  once : ∀ t t' e, (s.tr t).waits = some e → (s.tr t').waits = some e → t = t'

theorem inMap_iff {s : State} (hf : ∀ t, s.nt ≤ t → s.tr t = {}) {e : Nat} : inMap s e = true ↔ ∃ t n, (n, e) ∈ (s.tr t).eps := by
  simp only [inMap, List.any_eq_true, List.mem_range, beq_iff_eq]
  constructor
  · rintro ⟨t, _, ⟨n, o⟩, hp, rfl⟩; exact ⟨t, n, hp⟩
  · rintro ⟨t, n, hp⟩
    refine ⟨t, ?_, (n, e), hp, rfl⟩
    apply Classical.byContradiction
    intro h
    rw [hf t (by omega)] at hp
    cases hp

theorem owned_iff {s : State} (hf : ∀ t, s.nt ≤ t → s.tr t = {}) {e : Nat} : owned s e = true ↔ 0 < (s.ep e).held ∨ ∃ t n, (n, e) ∈ (s.tr t).eps := by
  simp only [owned, Bool.or_eq_true, decide_eq_true_eq, inMap_iff hf]

theorem mem_of_lookup {l : List (Nat × Nat)} {n o : Nat} (h : lookup l n = some o) : (n, o) ∈ l := by
  simp only [lookup, Option.map_eq_some_iff] at h
  obtain ⟨⟨a, b⟩, hf, rfl⟩ := h
  have h1 := List.find?_some hf
  have h2 := List.mem_of_find?_eq_some hf
  simp only [beq_iff_eq] at h1
  subst h1
  exact h2

theorem inv_init : Inv {} := ⟨fun _ _ => rfl, fun _ _ => ⟨rfl, fun _ _ h => (by cases h)⟩, fun _ => (by simp), fun _ _ => ⟨rfl, rfl⟩, fun _ _ h => (by cases h), fun _ _ _ h => (by cases h)⟩

/-- A transport changes, but not its map and whom it waits for. -/
theorem inv_setTr {s : State} (h : Inv s) {t : Nat} (ht : t < s.nt) {x : Tr} (he : x.eps = (s.tr t).eps) (hw : x.waits = (s.tr t).waits ∨ x.waits = none)
    (ha : 0 < x.held ↔ x.phase = .alive) (hd : x.phase = .dead → x.eps = [] ∧ x.waits = none) : Inv (setTr s t x) := by
  have heps : ∀ i, ((setTr s t x).tr i).eps = (s.tr i).eps := by intro i; simp only [setTr]; split <;> simp_all
  have hwt : ∀ i e, ((setTr s t x).tr i).waits = some e → (s.tr i).waits = some e := by
    intro i e; simp only [setTr]; split
    · rename_i hi; subst hi; intro h1; rcases hw with hw | hw
      · rw [← hw]; exact h1
      · rw [hw] at h1; cases h1
    · exact id
  refine ⟨fun i hi => ?_, fun e hi => ⟨(h.made e hi).1, fun i n => by rw [heps]; exact (h.made e hi).2 i n⟩, fun i => ?_, fun i hp => ?_,
    fun i e hi => ?_, fun i j e hi hj => h.once i j e (hwt _ _ hi) (hwt _ _ hj)⟩
  · have hne : i ≠ t := by simp only [setTr] at hi; omega
    simp only [setTr, if_neg hne]; exact h.fresh i hi
  · simp only [setTr]; split
    · exact ha
    · exact h.alive i
  · simp only [setTr] at *; split at hp
    · rename_i hi; rw [if_pos hi]; exact hd hp
    · rename_i hi; rw [if_neg hi]; exact h.dead i hp
  · have := h.waits i e (hwt _ _ hi)
    exact ⟨this.1, this.2.1, this.2.2.1, fun j n => by rw [heps]; exact this.2.2.2 j n⟩

/-- An endpoint changes that nobody waits for, or only in its pointer or thread. -/
theorem inv_setEp {s : State} (h : Inv s) {e : Nat} (he : e < s.ne) {x : Ep} (hx : (∀ t, (s.tr t).waits ≠ some e) ∨ (x.running = (s.ep e).running ∧ x.held = (s.ep e).held)) : Inv (setEp s e x) := by
  refine ⟨h.fresh, fun i hi => ⟨?_, (h.made i hi).2⟩, h.alive, h.dead, fun t i hi => ?_, h.once⟩
  · have hne : i ≠ e := by simp only [setEp] at hi; omega
    simp only [setEp, if_neg hne]; exact (h.made i hi).1
  · have := h.waits t i hi
    refine ⟨this.1, ?_⟩
    simp only [setEp]; split
    · rename_i hie; subst hie
      rcases hx with hx | hx
      · exact absurd hi (hx t)
      · rw [hx.1, hx.2]; exact this.2
    · exact this.2

theorem lt_nt {s : State} (h : Inv s) {t : Nat} (ht : (s.tr t).phase ≠ .dead) : t < s.nt := by
  apply Classical.byContradiction
  intro hn
  rw [h.fresh t (by omega)] at ht
  exact ht rfl

theorem alive_lt {s : State} (h : Inv s) {t : Nat} (ht : 0 < (s.tr t).held) : t < s.nt := lt_nt h (by rw [(h.alive t).1 ht]; simp)

theorem held_lt {s : State} (h : Inv s) {e : Nat} (he : 0 < (s.ep e).held) : e < s.ne := by
  apply Classical.byContradiction
  intro hn
  rw [(h.made e (by omega)).1] at he
  exact absurd he (by decide)

theorem worker_lt {s : State} (h : Inv s) {e : Nat} (he : (s.ep e).worker ≠ .absent) : e < s.ne := by
  apply Classical.byContradiction
  intro hn
  rw [(h.made e (by omega)).1] at he
  exact he rfl

theorem not_waited {s : State} (h : Inv s) {e : Nat} (he : owned s e = true) (t : Nat) : (s.tr t).waits ≠ some e := by
  intro hw
  have := h.waits t e hw
  rcases (owned_iff h.fresh).1 he with h1 | ⟨t', n, h1⟩
  · omega
  · exact this.2.2.2 t' n h1

/-- The end of a reference, with the transport `t` waiting for the destructor if there is one. -/
theorem inv_release {s : State} (h : Inv s) {t o : Nat} (ho : o < s.ne) (hn : ∀ t', (s.tr t').waits ≠ some o) (ht : (s.tr t).phase ≠ .dead) :
    Inv (setTr (release s o).1 t { s.tr t with waits := (release s o).2 }) := by
  have hlt := lt_nt h ht
  unfold release
  split
  · exact inv_setTr h hlt rfl (Or.inr rfl) (h.alive t) (fun hp => absurd hp ht)
  · rename_i hown
    have hs := inv_setEp h ho (x := { s.ep o with running := false }) (Or.inl hn)
    have hno : ¬ (0 < (s.ep o).held ∨ ∃ t n, (n, o) ∈ (s.tr t).eps) := fun hh => hown ((owned_iff h.fresh).2 hh)
    show Inv (setTr (setEp s o { s.ep o with running := false }) t { s.tr t with waits := some o })
    have heps : ∀ i, ((setTr (setEp s o { s.ep o with running := false }) t { s.tr t with waits := some o }).tr i).eps = (s.tr i).eps := by
      intro i; simp only [setTr, setEp]; split
      · rename_i hi; subst hi; rfl
      · rfl
    refine ⟨fun i hi => ?_, fun e hi => ⟨(hs.made e hi).1, fun i n => by rw [heps]; exact (h.made e hi).2 i n⟩, fun i => ?_, fun i hp => ?_, fun i e hi => ?_, fun i j e hi hj => ?_⟩
    · have hne : i ≠ t := by simp only [setTr, setEp] at hi; omega
      simp only [setTr, setEp, if_neg hne]; exact h.fresh i hi
    · simp only [setTr, setEp]; split
      · rename_i hi; subst hi; exact h.alive i
      · exact h.alive i
    · simp only [setTr, setEp] at *; split at hp
      · exact absurd hp ht
      · rename_i hi; rw [if_neg hi]; exact h.dead i hp
    · by_cases hit : i = t
      · subst hit
        simp only [setTr, if_true, Option.some.injEq] at hi
        subst hi
        refine ⟨ho, ?_, ?_, fun j n => ?_⟩
        · simp [setTr, setEp]
        · simp only [setTr, setEp, if_true]; omega
        · rw [heps]; exact fun hh => hno (Or.inr ⟨j, n, hh⟩)
      · simp only [setTr, setEp, if_neg hit] at hi
        have := hs.waits i e hi
        exact ⟨this.1, this.2.1, this.2.2.1, fun j n => by rw [heps]; exact (h.waits i e hi).2.2.2 j n⟩
    · by_cases hit : i = t <;> by_cases hjt : j = t
      · rw [hit, hjt]
      · subst hit
        simp only [setTr, if_true, Option.some.injEq] at hi
        subst hi
        simp only [setTr, setEp, if_neg hjt] at hj
        exact absurd hj (hn j)
      · subst hjt
        simp only [setTr, if_true, Option.some.injEq] at hj
        subst hj
        simp only [setTr, setEp, if_neg hit] at hi
        exact absurd hi (hn i)
      · simp only [setTr, setEp, if_neg hit] at hi
        simp only [setTr, setEp, if_neg hjt] at hj
        exact h.once i j e hi hj

/-- The map of a transport changes. -/
theorem inv_map {s : State} (h : Inv s) {t : Nat} (ht : (s.tr t).phase ≠ .dead) {l : List (Nat × Nat)} (hl : ∀ n e, (n, e) ∈ l → (n, e) ∈ (s.tr t).eps ∨ (0 < (s.ep e).held)) :
    Inv (setTr s t { s.tr t with eps := l }) := by
  have hm : ∀ e, (∀ t' n, (n, e) ∉ (s.tr t').eps) → (s.ep e).held = 0 → ∀ t' n, (n, e) ∉ ((setTr s t { s.tr t with eps := l }).tr t').eps := by
    intro e h1 h2 t' n
    simp only [setTr]; split
    · intro h3
      rcases hl n e h3 with h4 | h4
      · exact h1 t n h4
      · omega
    · exact h1 t' n
  refine ⟨fun i hi => ?_, fun e hi => ⟨(h.made e hi).1, hm e (h.made e hi).2 (by rw [(h.made e hi).1])⟩, fun i => ?_, fun i hp => ?_, fun i e hi => ?_, fun i j e hi hj => ?_⟩
  · have hne : i ≠ t := by have := lt_nt h ht; simp only [setTr] at hi; omega
    simp only [setTr, if_neg hne]; exact h.fresh i hi
  · simp only [setTr]; split
    · rename_i hi; subst hi; exact h.alive i
    · exact h.alive i
  · simp only [setTr] at *; split at hp
    · exact absurd hp ht
    · rename_i hi; rw [if_neg hi]; exact h.dead i hp
  · have hi' : (s.tr i).waits = some e := by simp only [setTr] at hi; split at hi <;> simp_all
    have := h.waits i e hi'
    exact ⟨this.1, this.2.1, this.2.2.1, hm e this.2.2.2 this.2.2.1⟩
  · refine h.once i j e ?_ ?_
    · simp only [setTr] at hi; split at hi <;> simp_all
    · simp only [setTr] at hj; split at hj <;> simp_all

theorem inv_step {s s' : State} (h : Inv s) {a : Act} (e : step s a = .ok s') : Inv s' := by
  cases a with
  | newTransport =>
    simp only [step, Out.ok.injEq] at e; subst e
    have heps : ∀ i, (({ setTr s s.nt { held := 1, phase := .alive } with nt := s.nt + 1 } : State).tr i).eps = (s.tr i).eps := by
      intro i; simp only [setTr]; split
      · rename_i hi; subst hi; rw [h.fresh s.nt (Nat.le_refl _)]
      · rfl
    have hwt : ∀ i, (({ setTr s s.nt { held := 1, phase := .alive } with nt := s.nt + 1 } : State).tr i).waits = (s.tr i).waits := by
      intro i; simp only [setTr]; split
      · rename_i hi; subst hi; rw [h.fresh s.nt (Nat.le_refl _)]
      · rfl
    refine ⟨fun i hi => ?_, fun e hi => ⟨(h.made e hi).1, fun i n => by rw [heps]; exact (h.made e hi).2 i n⟩, fun i => ?_, fun i hp => ?_, fun i e hi => ?_,
      fun i j e hi hj => h.once i j e (by rw [← hwt]; exact hi) (by rw [← hwt]; exact hj)⟩
    · have hlt : s.nt + 1 ≤ i := hi
      have hne : i ≠ s.nt := by omega
      simp only [setTr, if_neg hne]; exact h.fresh i (by omega)
    · simp only [setTr]; split
      · simp
      · exact h.alive i
    · rw [heps, hwt]
      simp only [setTr] at hp; split at hp
      · cases hp
      · exact h.dead i hp
    · rw [hwt] at hi
      have := h.waits i e hi
      exact ⟨this.1, this.2.1, this.2.2.1, fun j n => by rw [heps]; exact this.2.2.2 j n⟩
  | newEndpoint name sender =>
    simp only [step, Out.ok.injEq] at e; subst e
    refine ⟨h.fresh, fun e hi => ⟨?_, fun i n => (h.made e (Nat.le_of_succ_le hi)).2 i n⟩, h.alive, h.dead, fun i e hi => ?_, h.once⟩
    · have hlt : s.ne + 1 ≤ e := hi
      have hne : e ≠ s.ne := by omega
      simp only [setEp, if_neg hne]; exact (h.made e (by omega)).1
    · have := h.waits i e hi
      have hne : e ≠ s.ne := by have := this.1; omega
      refine ⟨Nat.lt_succ_of_lt this.1, ?_⟩
      simp only [setEp, if_neg hne]; exact this.2
  | holdT t =>
    simp only [step] at e; split at e
    · rename_i ht
      simp only [Out.ok.injEq] at e; subst e
      refine inv_setTr h (alive_lt h ht) rfl (Or.inl rfl) ?_ (h.dead t)
      rw [← h.alive t]; simp [ht]
    · cases e
  | dropT t =>
    simp only [step] at e; split at e
    · rename_i ht
      simp only [Out.ok.injEq] at e; subst e
      refine inv_setTr h (alive_lt h (Nat.lt_trans Nat.zero_lt_one ht)) rfl (Or.inl rfl) ?_ (h.dead t)
      rw [← h.alive t]; show 0 < (s.tr t).held - 1 ↔ _; omega
    · split at e
      · rename_i ht
        simp only [Out.ok.injEq] at e; subst e
        exact inv_setTr h (alive_lt h (by omega)) rfl (Or.inl rfl) (by simp) (by simp)
      · cases e
  | holdE i =>
    simp only [step] at e; split at e
    · rename_i ho
      simp only [Out.ok.injEq] at e; subst e
      have hlt : i < s.ne := by
        rcases (owned_iff h.fresh).1 ho with h1 | ⟨t', n, h1⟩
        · exact held_lt h h1
        · apply Classical.byContradiction; intro hn; exact (h.made i (by omega)).2 t' n h1
      exact inv_setEp h hlt (Or.inl (not_waited h ho))
    · cases e
  | dropE i =>
    simp only [step] at e; split at e
    · rename_i ho
      simp only [Out.ok.injEq] at e; subst e
      have hlt := held_lt h ho
      have hnw : ∀ t, (s.tr t).waits ≠ some i := not_waited h ((owned_iff h.fresh).2 (Or.inl ho))
      have h1 : Inv (setEp s i { s.ep i with held := (s.ep i).held - 1 }) := inv_setEp h hlt (Or.inl hnw)
      unfold release
      split
      · exact h1
      · exact inv_setEp h1 hlt (Or.inl hnw)
    · cases e
  | add t i =>
    simp only [step] at e; split at e
    · rename_i hc
      have hph : (s.tr t).phase ≠ .dead := by rw [(h.alive t).1 hc.1]; simp
      have h1 : Inv (setTr s t { s.tr t with eps := Lifetime.insert (s.tr t).eps (s.ep i).name i }) := by
        refine inv_map h hph fun n e he => ?_
        simp only [Lifetime.insert, List.mem_cons, Prod.mk.injEq, List.mem_filter] at he
        rcases he with ⟨_, rfl⟩ | he
        · exact Or.inr hc.2.2
        · exact Or.inl he.1
      have h2 : Inv (setEp (setTr s t { s.tr t with eps := Lifetime.insert (s.tr t).eps (s.ep i).name i }) i { s.ep i with transport := some t }) :=
        inv_setEp h1 (held_lt h hc.2.2) (Or.inr ⟨rfl, rfl⟩)
      split at e
      · simp only [Out.ok.injEq] at e; subst e; exact h2
      · rename_i o hlk
        simp only [Out.ok.injEq] at e; subst e
        have hmem := mem_of_lookup hlk
        refine inv_release h2 ?_ ?_ ?_
        · apply Classical.byContradiction; intro hn; exact (h.made o (Nat.le_of_not_lt hn)).2 t _ hmem
        · intro t' hw
          refine not_waited h ((owned_iff h.fresh).2 (Or.inr ⟨t, _, hmem⟩)) t' ?_
          simp only [setEp, setTr] at hw; split at hw <;> simp_all
        · simpa [setEp, setTr] using hph
    · cases e
  | set i t =>
    simp only [step] at e; split at e
    · rename_i hc
      simp only [Out.ok.injEq] at e; subst e
      exact inv_setEp h (held_lt h hc.2) (Or.inr ⟨rfl, rfl⟩)
    · cases e
  | use i =>
    simp only [step] at e; split at e
    · split at e
      · simp only [Out.ok.injEq] at e; subst e; exact h
      · split at e
        · simp only [Out.ok.injEq] at e; subst e; exact h
        · cases e
    · cases e
  | collect i ev =>
    simp only [step] at e; split at e
    · rename_i hw
      have hlt : i < s.ne := worker_lt h (by rw [hw]; simp)
      split at e
      · simp only [Out.ok.injEq] at e; subst e
        split
        · exact inv_setEp h hlt (Or.inr ⟨rfl, rfl⟩)
        · exact h
      · simp only [Out.ok.injEq] at e; subst e
        exact inv_setEp h hlt (Or.inr ⟨rfl, rfl⟩)
    · cases e
  | look i =>
    simp only [step] at e; split at e
    · rename_i hw
      have hlt : i < s.ne := worker_lt h (by rw [hw]; simp)
      split at e <;> (simp only [Out.ok.injEq] at e; subst e; exact inv_setEp h hlt (Or.inr ⟨rfl, rfl⟩))
    · cases e
  | cast i =>
    simp only [step] at e; split at e
    · rename_i t hw
      have hlt : i < s.ne := worker_lt h (by rw [hw]; simp)
      split at e
      · cases e
      · simp only [Out.ok.injEq] at e; subst e; exact inv_setEp h hlt (Or.inr ⟨rfl, rfl⟩)
    · cases e
  | dropEntry t name =>
    simp only [step] at e; split at e
    · rename_i hc
      split at e
      · cases e
      · rename_i o hlk
        simp only [Out.ok.injEq] at e; subst e
        have hph : (s.tr t).phase ≠ .dead := by rw [hc.1]; simp
        have hmem := mem_of_lookup hlk
        refine inv_release (inv_map h hph fun n e he => Or.inl (List.mem_filter.1 he).1) ?_ ?_ ?_
        · apply Classical.byContradiction; intro hn; exact (h.made o (Nat.le_of_not_lt hn)).2 t _ hmem
        · intro t' hw
          refine not_waited h ((owned_iff h.fresh).2 (Or.inr ⟨t, _, hmem⟩)) t' ?_
          simp only [setTr] at hw; split at hw <;> simp_all
        · simpa [setTr] using hph
    · cases e
  | joined t =>
    simp only [step] at e; split at e
    · rename_i o hw
      split at e
      · simp only [Out.ok.injEq] at e; subst e
        have hph : (s.tr t).phase ≠ .dead := fun hp => by rw [(h.dead t hp).2] at hw; cases hw
        exact inv_setTr h (lt_nt h hph) rfl (Or.inr rfl) (h.alive t) (fun hp => absurd hp hph)
      · cases e
    · cases e
  | finish t =>
    simp only [step] at e; split at e
    · rename_i hc
      simp only [Out.ok.injEq] at e; subst e
      refine inv_setTr h (lt_nt h (by rw [hc.1]; simp)) rfl (Or.inl rfl) ?_ (fun _ => ⟨hc.2.2, hc.2.1⟩)
      have := h.alive t
      rw [hc.1] at this
      simp only [reduceCtorEq, iff_false] at this ⊢
      exact this
    · cases e

theorem inv_run (as : List Act) : ∀ {s s' : State}, Inv s → run s as = .ok s' → Inv s' := by
  induction as with
  | nil => intro s s' h e; simp only [run, Out.ok.injEq] at e; subst e; exact h
  | cons a as ih =>
    intro s s' h e
    simp only [run] at e
    cases h1 : step s a with
    | ok s1 => rw [h1] at e; exact ih (inv_step h h1) e
    | no => rw [h1] at e; cases e
    | ub => rw [h1] at e; cases e

/-! ### The property does not hold -/

/-- **C96, calls on an endpoint (negation).** Whenever someone drops the last reference to a transport and keeps an endpoint that was added to it or given it, the next use of the endpoint is undefined behaviour. -/
theorem use_after_drop (as : List Act) (s : State) (_ : run {} as = .ok s) (t e : Nat) (he : 0 < (s.ep e).held) (ht : (s.ep e).transport = some t) (hh : (s.tr t).held = 1)
    (hw : (s.tr t).waits = none) : run {} (as ++ [.dropT t, .use e]) = .ub := by
  rename_i h
  rw [run_append, h]
  simp only [run, step, hh, hw, ht, setTr, Nat.lt_irrefl, if_false, and_self, if_true, he]
  simp

/-- A program that keeps its sender and lets its server go: `auto sender = make_shared<EndpointNativeTraceSender>(); server->addEndpoint(sender); server.reset();`, and events are traced. -/
def senderSchedule : List Act := [.newTransport, .newEndpoint 5 true, .add 0 0, .dropT 0, .dropEntry 0 5, .finish 0, .collect 0 true, .look 0, .cast 0]

/-- **C96, the thread of a sender (negation).** No further call is needed: the sender's thread uses the transport that is gone. -/
theorem sender_after_drop : run {} senderSchedule = .ub := by rfl

/-- A sender that is moved to another transport, and nobody but that transport keeps it; the old transport is dropped while the sender's thread is about to use it. -/
def movedSchedule : List Act := [.newTransport, .newTransport, .newEndpoint 5 true, .add 0 0, .collect 0 true, .look 0, .add 1 0, .dropE 0, .dropT 0, .dropEntry 0 5, .finish 0, .cast 0]

theorem moved_sender : run {} movedSchedule = .ub := by rfl

theorem not_NeverDangling : ¬ NeverDangling := fun h => h _ sender_after_drop

example : ∃ s, run {} [.newTransport, .newEndpoint 1 false, .add 0 0] = .ok s ∧ 0 < (s.ep 0).held ∧ (s.ep 0).transport = some 0 ∧ (s.tr 0).held = 1 ∧ (s.tr 0).waits = none := ⟨_, rfl, by decide, rfl, rfl, rfl⟩

/-! ### What holds -/

/-- The endpoint has a pointer to the transport. -/
def Uses (s : State) (e t : Nat) : Prop := (s.ep e).transport = some t ∨ (s.ep e).worker = .call t

/-- Someone other than the transport `t` keeps the endpoint, or is destroying it. -/
def KeptByOthers (s : State) (e t : Nat) : Prop :=
  0 < (s.ep e).held ∨ (∃ t' n, t' ≠ t ∧ (n, e) ∈ (s.tr t').eps) ∨ (owned s e = false ∧ (s.ep e).worker.done = false ∧ (s.tr t).waits ≠ some e)

/-- Whoever keeps an endpoint keeps its transport too. -/
def KeepsTransport (s : State) : Prop := ∀ e t, Uses s e t → KeptByOthers s e t → 0 < (s.tr t).held

/-- The pointers that threads may still use are good. -/
theorem thread_safe {s : State} (h : Inv s) (hk : KeepsTransport s) {e t : Nat} (hu : Uses s e t) (hd : (s.ep e).worker.done = false) : (s.tr t).phase ≠ .dead := by
  intro hp
  have hdead := h.dead t hp
  have hno : ¬ KeptByOthers s e t := fun hh => by
    have := (h.alive t).1 (hk e t hu hh)
    rw [hp] at this; cases this
  cases ho : owned s e with
  | true =>
    rcases (owned_iff h.fresh).1 ho with h1 | ⟨t', n, h1⟩
    · exact hno (Or.inl h1)
    · by_cases ht : t' = t
      · subst ht; rw [hdead.1] at h1; cases h1
      · exact hno (Or.inr (Or.inl ⟨t', n, ht, h1⟩))
  | false => exact hno (Or.inr (Or.inr ⟨ho, hd, by rw [hdead.2]; simp⟩))

/-- **C96 (partial).** If everyone who keeps an endpoint also keeps its transport, at all times, then nothing is undefined; in particular the transport that alone keeps a sender can be destroyed at any time,
whatever the sender's thread is doing. -/
theorem safe_partial (as : List Act) (hk : ∀ bs, bs <+: as → ∀ s, run {} bs = .ok s → KeepsTransport s) : run {} as ≠ .ub := by
  have go : ∀ (bs as : List Act) (s : State), run {} bs = .ok s → (∀ cs, cs <+: bs ++ as → ∀ s, run {} cs = .ok s → KeepsTransport s) → run s as ≠ .ub := by
    intro bs as
    induction as generalizing bs with
    | nil => intro s _ _ h; cases h
    | cons a as ih =>
      intro s hs hk
      have hi := inv_run bs inv_init hs
      have hks := hk bs (List.prefix_append _ _) s hs
      simp only [run]
      cases h1 : step s a with
      | no => simp
      | ok s' =>
        refine ih (bs ++ [a]) s' ?_ (by rwa [List.append_assoc]) 
        rw [run_append, hs]; simp only [run, h1]
      | ub =>
        exfalso
        cases a with
        | use e =>
          simp only [step] at h1; split at h1
          · rename_i he
            split at h1
            · cases h1
            · rename_i t ht
              split at h1
              · cases h1
              · rename_i hp
                exact hp ((hi.alive t).1 (hks e t (Or.inl ht) (Or.inl he)))
          · cases h1
        | cast e =>
          simp only [step] at h1; split at h1
          · rename_i t ht
            split at h1
            · rename_i hp
              exact thread_safe hi hks (Or.inr ht) (by rw [ht]; rfl) hp
            · cases h1
          · cases h1
        | add t e => simp only [step] at h1; split at h1 <;> (try split at h1) <;> cases h1
        | collect e ev => simp only [step] at h1; split at h1 <;> (try split at h1) <;> cases h1
        | dropT t => simp only [step] at h1; split at h1 <;> (try split at h1) <;> cases h1
        | look t => simp only [step] at h1; split at h1 <;> (try split at h1) <;> cases h1
        | dropEntry t n => simp only [step] at h1; split at h1 <;> (try split at h1) <;> cases h1
        | joined t => simp only [step] at h1; split at h1 <;> (try split at h1) <;> cases h1
        | newTransport => simp only [step] at h1; cases h1
        | newEndpoint n b => simp only [step] at h1; cases h1
        | holdT t => simp only [step] at h1; split at h1 <;> cases h1
        | holdE t => simp only [step] at h1; split at h1 <;> cases h1
        | dropE t => simp only [step] at h1; split at h1 <;> cases h1
        | set e t => simp only [step] at h1; split at h1 <;> cases h1
        | finish t => simp only [step] at h1; split at h1 <;> cases h1
  exact go [] as {} rfl hk

/-! ### Destructors return -/

/-- Steps of the destructor of `t` and of the threads of senders. -/
def Own (t : Nat) (a : Act) : Prop := a = .finish t ∨ a = .joined t ∨ (∃ n, a = .dropEntry t n) ∨ ∃ e, a = .collect e false ∨ a = .look e ∨ a = .cast e

/-- No thread has a pointer to a transport that is gone. -/
def ThreadSafe (s : State) : Prop := ∀ e t, Uses s e t → (s.ep e).worker.done = false → (s.tr t).phase ≠ .dead

theorem setEp_setEp (s : State) (e : Nat) (x y : Ep) : setEp (setEp s e x) e y = setEp s e y := by
  simp only [setEp]
  congr 1
  funext i
  split <;> rfl

theorem setEp_ep (s : State) (e : Nat) (x : Ep) : (setEp s e x).ep e = x := by simp [setEp]

theorem setEp_same (s : State) (e : Nat) : setEp s e (s.ep e) = s := by
  cases s
  simp only [setEp]
  congr 1
  funext i
  split
  · rename_i h; rw [h]
  · rfl

theorem run_cons {s s' : State} {a : Act} (h : step s a = .ok s') (as : List Act) : run s (a :: as) = run s' as := by simp only [run, h]

/-- A thread that is told to stop ends by itself. -/
theorem thread_ends {s : State} {e : Nat} (hr : (s.ep e).running = false) (hsafe : ThreadSafe s) :
    ∃ bs w, (∀ a ∈ bs, ∃ e, a = Act.collect e false ∨ a = .look e ∨ a = .cast e) ∧ w.done = true ∧ run s bs = .ok (setEp s e { s.ep e with worker := w }) := by
  have hcollect : ∀ x : Ep, x.worker = .idle → x.running = false → run (setEp s e x) [.collect e false] = .ok (setEp s e { x with worker := .ended }) := by
    intro x h1 h2
    simp only [run, step, setEp_ep, h1, h2, if_true, Bool.false_eq_true, if_false, setEp_setEp]
  have hcall : ∀ (x : Ep) (t : Nat), x.worker = .call t → x.running = false → (s.tr t).phase ≠ .dead → run (setEp s e x) [.cast e, .collect e false] = .ok (setEp s e { x with worker := .ended }) := by
    intro x t h1 h2 h3
    have hp : ¬ ((setEp s e x).tr t).phase = .dead := h3
    rw [run_cons (s' := setEp s e { x with worker := .idle }) (by simp only [step, setEp_ep, h1, if_neg hp, setEp_setEp])]
    exact hcollect { x with worker := .idle } rfl h2
  cases hw : (s.ep e).worker with
  | absent =>
    refine ⟨[], .absent, by simp, rfl, ?_⟩
    have : ({ s.ep e with worker := .absent } : Ep) = s.ep e := by rw [← hw]
    rw [this, setEp_same]; rfl
  | ended =>
    refine ⟨[], .ended, by simp, rfl, ?_⟩
    have : ({ s.ep e with worker := .ended } : Ep) = s.ep e := by rw [← hw]
    rw [this, setEp_same]; rfl
  | idle =>
    refine ⟨[.collect e false], .ended, fun a ha => ⟨e, by simp_all⟩, rfl, ?_⟩
    have := hcollect (s.ep e) hw hr
    rwa [setEp_same] at this
  | call t =>
    refine ⟨[.cast e, .collect e false], .ended, fun a ha => ⟨e, by simp at ha; rcases ha with rfl | rfl <;> simp⟩, rfl, ?_⟩
    have := hcall (s.ep e) t hw hr (hsafe e t (Or.inr hw) (by rw [hw]; rfl))
    rwa [setEp_same] at this
  | look =>
    cases ht : (s.ep e).transport with
    | none =>
      refine ⟨[.look e, .collect e false], .ended, fun a ha => ⟨e, by simp at ha; rcases ha with rfl | rfl <;> simp⟩, rfl, ?_⟩
      rw [run_cons (s' := setEp s e { s.ep e with worker := .idle }) (by simp only [step, hw, ht, if_true])]
      exact hcollect { s.ep e with worker := .idle } rfl hr
    | some t =>
      refine ⟨[.look e, .cast e, .collect e false], .ended, fun a ha => ⟨e, by simp at ha; rcases ha with rfl | rfl | rfl <;> simp⟩, rfl, ?_⟩
      rw [run_cons (s' := setEp s e { s.ep e with worker := .call t }) (by simp only [step, hw, ht, if_true])]
      exact hcall { s.ep e with worker := .call t } t rfl hr (hsafe e t (Or.inl ht) (by rw [hw]; rfl))

/-- The transport stops waiting. -/
theorem wait_ends {s : State} (hi : Inv s) (hsafe : ThreadSafe s) (t : Nat) : ∃ bs s', (∀ a ∈ bs, Own t a) ∧ run s bs = .ok s' ∧ Inv s' ∧ ThreadSafe s' ∧
    (s'.tr t).waits = none ∧ (s'.tr t).eps = (s.tr t).eps ∧ (s'.tr t).phase = (s.tr t).phase := by
  cases hw : (s.tr t).waits with
  | none => exact ⟨[], s, by simp, rfl, hi, hsafe, hw, rfl, rfl⟩
  | some e =>
    obtain ⟨bs, w, hb, hd, hr⟩ := thread_ends (hi.waits t e hw).2.1 hsafe
    have hr2 : run s (bs ++ [.joined t]) = .ok (setTr (setEp s e { s.ep e with worker := w }) t { s.tr t with waits := none }) := by
      rw [run_append, hr]
      simp only [run, step]
      have : ((setEp s e { s.ep e with worker := w }).tr t).waits = some e := hw
      rw [this]
      simp only [setEp_ep, hd, if_true]
      rfl
    refine ⟨bs ++ [.joined t], _, ?_, hr2, inv_run _ hi hr2, ?_, ?_, ?_, ?_⟩
    · intro a ha
      rcases List.mem_append.1 ha with ha | ha
      · exact Or.inr (Or.inr (Or.inr (hb a ha)))
      · simp only [List.mem_singleton] at ha; exact Or.inr (Or.inl ha)
    · intro i t2 hu hnd
      have hp : ((setTr (setEp s e { s.ep e with worker := w }) t { s.tr t with waits := none }).tr t2).phase = (s.tr t2).phase := by
        simp only [setTr, setEp]; split
        · rename_i h; rw [h]
        · rfl
      rw [hp]
      by_cases hie : i = e
      · subst hie
        simp [setTr, setEp, hd] at hnd
      · simp only [Uses, setTr, setEp, if_neg hie] at hu hnd
        exact hsafe i t2 hu hnd
    all_goals simp [setTr]

theorem length_filter_lt {l : List (Nat × Nat)} {n o : Nat} (h : (n, o) ∈ l) : (l.filter (·.1 != n)).length < l.length := by
  apply List.length_filter_lt_length_iff_exists.2
  exact ⟨(n, o), h, by simp⟩

theorem release_eq (s : State) (o : Nat) : (∀ t, (release s o).1.tr t = s.tr t) ∧ ∀ e, ((release s o).1.ep e).worker = (s.ep e).worker ∧ ((release s o).1.ep e).transport = (s.ep e).transport := by
  unfold release
  split
  · exact ⟨fun _ => rfl, fun _ => ⟨rfl, rfl⟩⟩
  · refine ⟨fun _ => rfl, fun e => ?_⟩
    simp only [setEp]; split
    · rename_i h; subst h; exact ⟨rfl, rfl⟩
    · exact ⟨rfl, rfl⟩

theorem entries_end : ∀ (n : Nat) {s : State} (t : Nat), Inv s → ThreadSafe s → (s.tr t).phase = .dying → (s.tr t).eps.length ≤ n →
    ∃ bs s', (∀ a ∈ bs, Own t a) ∧ run s bs = .ok s' ∧ (s'.tr t).phase = .dying ∧ (s'.tr t).waits = none ∧ (s'.tr t).eps = [] := by
  intro n
  induction n with
  | zero =>
    intro s t hi hs hp hl
    obtain ⟨bs, s', h1, h2, _, _, h5, h6, h7⟩ := wait_ends hi hs t
    exact ⟨bs, s', h1, h2, h7.trans hp, h5, h6.trans (List.eq_nil_of_length_eq_zero (by omega))⟩
  | succ n ih =>
    intro s t hi hs hp hl
    obtain ⟨bs, s1, h1, h2, h3, h4, h5, h6, h7⟩ := wait_ends hi hs t
    cases he : (s1.tr t).eps with
    | nil => exact ⟨bs, s1, h1, h2, h7.trans hp, h5, he⟩
    | cons p rest =>
      obtain ⟨name, o⟩ := p
      have hlk : lookup (s1.tr t).eps name = some o := by rw [he]; simp [lookup]
      let s2 := setTr s1 t { s1.tr t with eps := (s1.tr t).eps.filter (·.1 != name) }
      have hstep : run s1 [.dropEntry t name] = .ok (setTr (release s2 o).1 t { s2.tr t with waits := (release s2 o).2 }) := by
        refine run_cons ?_ []
        simp only [step]
        rw [if_pos ⟨h7.trans hp, h5⟩]
        simp only [hlk]
        rfl
      have hlen : ((setTr (release s2 o).1 t { s2.tr t with waits := (release s2 o).2 }).tr t).eps.length ≤ n := by
        have : ((setTr (release s2 o).1 t { s2.tr t with waits := (release s2 o).2 }).tr t).eps = (s1.tr t).eps.filter (·.1 != name) := by simp [setTr, s2]
        rw [this]
        have := length_filter_lt (l := (s1.tr t).eps) (n := name) (o := o) (by rw [he]; simp)
        rw [h6] at this ⊢
        omega
      have hph : ∀ t2, ((setTr (release s2 o).1 t { s2.tr t with waits := (release s2 o).2 }).tr t2).phase = (s1.tr t2).phase := by
        intro t2
        simp only [setTr]
        split
        · rename_i h; subst h; simp [s2, setTr]
        · rename_i h
          rw [(release_eq s2 o).1]
          simp [s2, setTr, if_neg h]
      have hsafe : ThreadSafe (setTr (release s2 o).1 t { s2.tr t with waits := (release s2 o).2 }) := by
        intro e t2 hu hnd
        rw [hph]
        have hr := (release_eq s2 o).2 e
        have e1 : ((setTr (release s2 o).1 t { s2.tr t with waits := (release s2 o).2 }).ep e).worker = (s1.ep e).worker := hr.1
        have e2 : ((setTr (release s2 o).1 t { s2.tr t with waits := (release s2 o).2 }).ep e).transport = (s1.ep e).transport := hr.2
        simp only [Uses, e1, e2] at hu hnd
        exact h4 e t2 hu hnd
      obtain ⟨cs, s3, g1, g2, g3⟩ := ih t (inv_run _ h3 hstep) hsafe ((hph t).trans (h7.trans hp)) hlen
      refine ⟨bs ++ ([.dropEntry t name] ++ cs), s3, ?_, ?_, g3⟩
      · intro a ha
        rcases List.mem_append.1 ha with ha | ha
        · exact h1 a ha
        · rcases List.mem_append.1 ha with ha | ha
          · simp only [List.mem_singleton] at ha; exact Or.inr (Or.inr (Or.inl ⟨name, ha⟩))
          · exact g1 a ha
      · rw [run_append, h2]
        simp only []
        rw [run_append, hstep]
        exact g2

/-- **C96, destruction.** The destructor of a transport can always return, if whoever keeps an endpoint keeps its transport: the threads of the senders that it destroys end, and can be waited for. -/
theorem destructor_returns (as : List Act) (s : State) (h : run {} as = .ok s) (hk : KeepsTransport s) (t : Nat) (hp : (s.tr t).phase = .dying) :
    ∃ bs s', (∀ a ∈ bs, Own t a) ∧ run {} (as ++ bs) = .ok s' ∧ (s'.tr t).phase = .dead := by
  have hi := inv_run as inv_init h
  obtain ⟨bs, s', h1, h2, h3, h4, h5⟩ := entries_end _ t hi (fun e t hu hd => thread_safe hi hk hu hd) hp (Nat.le_refl _)
  refine ⟨bs ++ [.finish t], setTr s' t { s'.tr t with phase := .dead }, ?_, ?_, by simp [setTr]⟩
  · intro a ha
    rcases List.mem_append.1 ha with ha | ha
    · exact h1 a ha
    · simp only [List.mem_singleton] at ha; exact Or.inl ha
  · rw [run_append, h]
    simp only []
    rw [run_append, h2]
    simp only [run, step, h3, h4, h5, and_self, if_true]

/-! ### Races -/

/-- **C96, races (negation).** A sender's thread runs before the sender is added: it may read `transport_` while `addEndpoint` writes it, and `running_` while the destructor writes it.
Both are plain. -/
theorem sender_races : (∃ as s, run {} as = .ok s ∧ (s.ep 0).worker = .look ∧ ∃ s', step s (.add 0 0) = .ok s' ∧ (s.ep 0).transport ≠ (s'.ep 0).transport) ∧
    (∃ as s, run {} as = .ok s ∧ (s.ep 0).worker = .idle ∧ ∃ s', step s (.dropE 0) = .ok s' ∧ (s.ep 0).running ≠ (s'.ep 0).running) :=
  ⟨⟨[.newTransport, .newEndpoint 5 true, .collect 0 true], _, rfl, rfl, _, rfl, by decide⟩, ⟨[.newEndpoint 5 true], _, rfl, rfl, _, rfl, by decide⟩⟩

/-- **C96, holding is balanced.** Taking another reference to a transport and dropping it again changes nothing: nothing is released early and nothing stays behind. -/
theorem hold_drop_transport (s s' : State) (t : Nat) (h : step s (.holdT t) = .ok s') : step s' (.dropT t) = .ok s := by
  simp only [step] at h
  split at h
  · rename_i hh
    cases h
    have e : (setTr s t { s.tr t with held := (s.tr t).held + 1 }).tr t = { s.tr t with held := (s.tr t).held + 1 } := by simp [setTr]
    simp only [step, e]
    rw [if_pos (by omega)]
    congr 1
    cases s
    simp only [setTr, Nat.add_sub_cancel]
    congr 1
    funext i
    split
    · rename_i h; rw [h]
    · rfl
  · cases h

/-- **C96, holding is balanced**, for endpoints. -/
theorem hold_drop_endpoint (s s' : State) (e : Nat) (h : step s (.holdE e) = .ok s') : step s' (.dropE e) = .ok s := by
  simp only [step] at h
  split at h
  · rename_i hh
    cases h
    simp only [step, setEp_ep, setEp_setEp, Nat.add_sub_cancel]
    rw [if_pos (by omega), setEp_same, release, if_pos hh]
  · cases h

/-! ### Examples -/

/-- The usual program: the endpoints are given to the server and not kept, and the server is destroyed while the sender's thread is about to broadcast. -/
def usual : List Act := [.newTransport, .newEndpoint 5 true, .add 0 0, .dropE 0, .newEndpoint 6 false, .add 0 1, .dropE 1, .collect 0 true, .look 0, .dropT 0, .dropEntry 0 6, .joined 0, .dropEntry 0 5]

theorem usual_state : ∃ s, run {} usual = .ok s ∧ s.ne = 2 ∧ s.nt = 1 ∧ s.ep 0 = { name := 5, transport := some 0, worker := .call 0, running := false } ∧
    s.ep 1 = { name := 6, transport := some 0, running := false } ∧ s.tr 0 = { phase := .dying, waits := some 0 } := ⟨_, rfl, rfl, rfl, rfl, rfl, rfl⟩

example : ∃ s, run {} usual = .ok s ∧ KeepsTransport s ∧ (s.tr 0).phase = .dying ∧ (s.ep 0).worker = .call 0 ∧ (s.ep 0).running = false ∧ (s.tr 0).waits = some 0 := by
  obtain ⟨s, h, hne, hnt, h0, h1, ht⟩ := usual_state
  have hi := inv_run usual inv_init h
  refine ⟨s, h, ?_, by rw [ht], by rw [h0], by rw [h0], by rw [ht]⟩
  intro e t hu hk
  exfalso
  have he : e = 0 ∨ e = 1 ∨ 2 ≤ e := by omega
  have htz : t = 0 ∧ e < 2 := by
    rcases he with rfl | rfl | he
    · rcases hu with hu | hu <;> (rw [h0] at hu; simp at hu; omega)
    · rcases hu with hu | hu <;> rw [h1] at hu <;> simp at hu
      omega
    · rcases hu with hu | hu <;> (rw [(hi.made e (by omega)).1] at hu; cases hu)
  obtain ⟨rfl, he2⟩ := htz
  have he : e = 0 ∨ e = 1 := by omega
  rcases hk with hk | ⟨t', n, hne, hk⟩ | hk
  · rcases he with rfl | rfl
    · rw [h0] at hk; exact Nat.lt_irrefl _ hk
    · rw [h1] at hk; exact Nat.lt_irrefl _ hk
  · rw [hi.fresh t' (by omega)] at hk; cases hk
  · rcases he with rfl | rfl
    · rw [ht] at hk; exact hk.2.2 rfl
    · rw [h1] at hk; cases hk.2.1

example : ∃ s, run {} (usual ++ [.cast 0, .collect 0 false, .joined 0, .finish 0]) = .ok s ∧ (s.tr 0).phase = .dead ∧ (s.ep 0).worker = .ended := ⟨_, rfl, rfl, rfl⟩

example : ∃ s s', run {} [.newTransport, .newEndpoint 5 true, .add 0 0, .dropE 0] = .ok s ∧ step s (.holdT 0) = .ok s' := ⟨_, _, rfl, rfl⟩

example : ∃ s s', run {} [.newTransport, .newEndpoint 5 true, .add 0 0, .dropE 0] = .ok s ∧ step s (.holdE 0) = .ok s' := ⟨_, _, rfl, rfl⟩

/-! ### When a use is undefined -/

/-- The transport that an endpoint was given last, by `addEndpoint` or by `setTransport`. -/
def given (e : Nat) : List Act → Option Nat
  | [] => none
  | a :: as =>
    match given e as with
    | some t => some t
    | none => match a with
      | .add t e' => if e' = e then some t else none
      | .set e' t => if e' = e then some t else none
      | _ => none

theorem given_snoc (e : Nat) (as : List Act) (a : Act) : given e (as ++ [a]) = (match given e [a] with | some t => some t | none => given e as) := by
  induction as with
  | nil => cases h : given e [a] <;> simp [h, given]
  | cons b as ih =>
    simp only [List.cons_append, given, ih]
    cases h : given e [a] with
    | some t => simp only [given] at h; simp only [h]
    | none => simp only [given] at h; simp only [h]

theorem transport_step {s s' : State} (hi : Inv s) {a : Act} (h : step s a = .ok s') (e : Nat) :
    (s'.ep e).transport = (match given e [a] with | some t => some t | none => (s.ep e).transport) := by
  have rel : ∀ (s : State) (o : Nat), (((release s o).1).ep e).transport = (s.ep e).transport := by
    intro s o
    simp only [release]
    split
    · rfl
    · simp only [setEp]; split
      · rename_i e'; rw [e']
      · rfl
  cases a with
  | newEndpoint name sender =>
    simp only [step, Out.ok.injEq] at h
    subst h
    simp only [setEp, given]
    split
    · rename_i e'; rw [e', (hi.made s.ne (Nat.le_refl _)).1]
    · rfl
  | add t o =>
    simp only [step] at h
    split at h
    · split at h
      all_goals
        injection h with h
        subst h
        simp only [given, setTr, rel, setEp]
        by_cases e' : e = o
        · subst e'; simp
        · have : ¬ o = e := fun x => e' x.symm
          simp [e', this]
    · cases h
  | set o t =>
    simp only [step] at h
    split at h
    · injection h with h
      subst h
      simp only [given, setEp]
      by_cases e' : e = o
      · subst e'; simp
      · have : ¬ o = e := fun x => e' x.symm
        simp [e', this]
    · cases h
  | dropE o =>
    simp only [step] at h
    split at h
    · injection h with h
      subst h
      simp only [given, rel, setEp]
      split
      · rename_i e'; rw [e']
      · rfl
    · cases h
  | dropEntry t n =>
    simp only [step] at h
    split at h
    · split at h
      · cases h
      · injection h with h
        subst h
        simp only [given, setTr, rel]
    · cases h
  | _ =>
    simp only [step] at h
    repeat' split at h
    all_goals first
      | (cases h; done)
      | (injection h with h; subst h; simp only [given, setTr, setEp]; done)
      | (injection h with h; subst h; simp only [given, setTr, setEp]; first | rfl | (split <;> simp_all))

theorem transport_given (as : List Act) (s : State) (h : run {} as = .ok s) (e : Nat) : (s.ep e).transport = given e as := by
  have key : ∀ n, ∀ (as : List Act) (s : State), as.length = n → run {} as = .ok s → (s.ep e).transport = given e as := by
    intro n
    induction n with
    | zero =>
      intro as s hl h
      rw [List.length_eq_zero_iff.1 hl] at h ⊢
      simp only [run, Out.ok.injEq] at h
      rw [← h]
      rfl
    | succ n ih =>
      intro as s hl h
      have hne : as ≠ [] := fun e => by rw [e] at hl; simp at hl
      obtain ⟨l, a, rfl⟩ : ∃ l' a, as = l' ++ [a] := ⟨as.dropLast, as.getLast hne, (List.dropLast_concat_getLast hne).symm⟩
      rw [run_append] at h
      cases hl1 : run {} l with
      | no => rw [hl1] at h; cases h
      | ub => rw [hl1] at h; cases h
      | ok s1 =>
        rw [hl1] at h
        simp only [run] at h
        cases hs : step s1 a with
        | no => rw [hs] at h; cases h
        | ub => rw [hs] at h; cases h
        | ok s2 =>
          rw [hs] at h
          simp only [Out.ok.injEq] at h
          subst h
          rw [transport_step (inv_run l inv_init hl1) hs e, given_snoc, ih l s1 (by simpa using hl) hl1]
  exact key _ as s rfl h

/-- **C96, exactly when.** Using an endpoint is undefined exactly if the transport that it was given last, by `addEndpoint` or `setTransport`, is no longer there. -/
theorem use_iff (as : List Act) (s : State) (h : run {} as = .ok s) (e : Nat) (he : 0 < (s.ep e).held) :
    run {} (as ++ [.use e]) = .ub ↔ ∃ t, given e as = some t ∧ (s.tr t).phase ≠ .alive := by
  rw [run_append, h]
  have ht := transport_given as s h e
  simp only [run, step, he, if_true, ht]
  cases hg : given e as with
  | none => simp
  | some t =>
    by_cases hp : (s.tr t).phase = .alive
    · simp [hp]
    · simp [hp]

/-- An endpoint that was added to one transport and then set to another. -/
example : ∃ s, run {} [.newTransport, .newTransport, .newEndpoint 5 false, .add 0 0, .set 0 1, .dropT 1] = .ok s ∧ 0 < (s.ep 0).held ∧
    given 0 [.newTransport, .newTransport, .newEndpoint 5 false, .add 0 0, .set 0 1, .dropT 1] = some 1 ∧ (s.tr 1).phase ≠ .alive ∧ (s.tr 0).phase = .alive := ⟨_, rfl, by decide, rfl, by decide, rfl⟩

end Scalopus.C96
