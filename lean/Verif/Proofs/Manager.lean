import Verif.Model.Manager
import Verif.Proofs.Assoc
import Mathlib.Data.List.Nodup

/-!
# Proofs about the endpoint manager
-/

namespace Scalopus.Manager

open Assoc
open Endpoints (Answer supported)

section assign
variable {α β : Type} [DecidableEq α]

theorem lookup_assign (k k' : α) (v : β) (m : List (α × β)) : (assign k v m).lookup k' = if k' = k then some v else m.lookup k' := by
  unfold assign
  rw [lookup_cons', lookup_filter]
  by_cases h : k' = k <;> simp [h]

theorem keys_assign (k : α) (v : β) (m : List (α × β)) (h : (m.map (·.1)).Nodup) : ((assign k v m).map (·.1)).Nodup := by
  unfold assign
  rw [List.map_cons, List.nodup_cons]
  constructor
  · simp
  · have : ((m.filter fun x => x.1 ≠ k).map (·.1)).Sublist (m.map (·.1)) := List.filter_sublist.map _
    exact this.nodup h

theorem mem_keys_assign (k k' : α) (v : β) (m : List (α × β)) : k' ∈ (assign k v m).map (·.1) ↔ k' = k ∨ k' ∈ m.map (·.1) := by
  unfold assign
  simp only [List.map_cons, List.mem_cons, List.mem_map, List.mem_filter, decide_eq_true_eq]
  constructor
  · rintro (h | ⟨x, ⟨hx, _⟩, rfl⟩)
    · exact Or.inl h
    · exact Or.inr ⟨x, hx, rfl⟩
  · rintro (h | ⟨x, hx, rfl⟩)
    · exact Or.inl h
    · by_cases h : x.1 = k
      · exact Or.inl h
      · exact Or.inr ⟨x, ⟨hx, h⟩, rfl⟩

theorem lookup_isSome {m : List (α × β)} {k : α} : (m.lookup k).isSome ↔ k ∈ m.map (·.1) := by
  cases h : m.lookup k with
  | none => simp only [Option.isSome_none, Bool.false_eq_true, false_iff]; exact lookup_none.mp h
  | some v => simp only [Option.isSome_some, true_iff]; exact List.mem_map.mpr ⟨_, lookup_mem h, rfl⟩

end assign

/-- What holds in every state. -/
structure Inv (s : State) : Prop where
  hashes : (s.transports.map (·.1)).Nodup
  values : (s.transports.map (·.2)).Nodup
  keys : (s.tables.map (·.1)).Nodup
  same : ∀ t, t ∈ s.tables.map (·.1) ↔ t ∈ s.transports.map (·.2)
  bound : ∀ t ∈ s.transports.map (·.2), t < s.next
  addedBound : ∀ x ∈ s.added, x.1 < s.next

/-- What a step that connects does to a state. -/
structure Grows (s s' : State) : Prop where
  factories : s'.factories = s.factories
  next : s.next ≤ s'.next
  transports : ∃ l : List (Nat × Nat), s'.transports = l ++ s.transports ∧ ∀ x ∈ l, s.next ≤ x.2
  tables : ∀ t, t < s.next → s'.tables.lookup t = s.tables.lookup t
  added : ∃ l : List (Nat × Nat), s'.added = s.added ++ l ∧ ∀ x ∈ l, s.next ≤ x.1

theorem Grows.refl (s : State) : Grows s s := ⟨rfl, Nat.le_refl _, ⟨[], by simp⟩, fun _ _ => rfl, ⟨[], by simp⟩⟩

theorem Grows.trans {a b c : State} (h : Grows a b) (g : Grows b c) : Grows a c := by
  obtain ⟨l, hl, hl'⟩ := h.transports
  obtain ⟨m, hm, hm'⟩ := g.transports
  obtain ⟨u, hu, hu'⟩ := h.added
  obtain ⟨v, hv, hv'⟩ := g.added
  refine ⟨g.factories.trans h.factories, Nat.le_trans h.next g.next, ⟨m ++ l, by rw [hm, hl, List.append_assoc], ?_⟩, ?_, ⟨u ++ v, by rw [hv, hu, List.append_assoc], ?_⟩⟩
  · intro x hx
    rcases List.mem_append.mp hx with hx | hx
    · exact Nat.le_trans h.next (hm' x hx)
    · exact hl' x hx
  · intro t ht
    rw [g.tables t (Nat.lt_of_lt_of_le ht h.next), h.tables t ht]
  · intro x hx
    rcases List.mem_append.mp hx with hx | hx
    · exact hu' x hx
    · exact Nat.le_trans h.next (hv' x hx)

/-- The endpoint that is made for a name. -/
def made (fs : List (String × Nat)) (call : Nat → Nat → Res (Option Nat)) (t : Nat) (n : String) : Option Nat :=
  match fs.lookup n with
  | none => none
  | some f => match call f t with
    | .ok r => r
    | _ => none

theorem made_eq {fs : List (String × Nat)} {call : Nat → Nat → Res (Option Nat)} {t : Nat} {n : String} {e : Nat} :
    made fs call t n = some e ↔ ∃ f, fs.lookup n = some f ∧ call f t = .ok (some e) := by
  unfold made
  cases hf : fs.lookup n with
  | none => simp
  | some f =>
    simp only [Option.some.injEq, exists_eq_left']
    cases hc : call f t <;> simp

theorem create_spec (call : Nat → Nat → Res (Option Nat)) (t : Nat) (ns : List String) : ∀ s s' r, create call t ns s = (s', r) → t ∈ s.tables.map (·.1) →
    (s.tables.map (·.1)).Nodup →
    s'.transports = s.transports ∧ s'.factories = s.factories ∧ s'.next = s.next ∧ (s'.tables.map (·.1)).Nodup ∧ (∀ u, u ∈ s'.tables.map (·.1) ↔ u ∈ s.tables.map (·.1)) ∧
    (∀ u, u ≠ t → s'.tables.lookup u = s.tables.lookup u) ∧
    (∃ l : List Nat, s'.added = s.added ++ l.map (fun e => (t, e)) ∧ (r = .ok () → l = ns.filterMap (made s.factories call t))) ∧
    (r = .ok () → ∀ n, ((s'.tables.lookup t).getD []).lookup n =
      (if n ∈ ns then made s.factories call t n else none).or (((s.tables.lookup t).getD []).lookup n)) := by
  induction ns with
  | nil =>
    intro s s' r h _ hn
    simp only [create, Prod.mk.injEq] at h
    obtain ⟨rfl, rfl⟩ := h
    exact ⟨rfl, rfl, rfl, hn, fun _ => Iff.rfl, fun _ _ => rfl, ⟨[], by simp, by simp⟩, by simp⟩
  | cons n ns ih =>
    intro s s' r h ht hn
    simp only [create] at h
    have skip (h' : create call t ns s = (s', r)) (he : made s.factories call t n = none) :
        s'.transports = s.transports ∧ s'.factories = s.factories ∧ s'.next = s.next ∧ (s'.tables.map (·.1)).Nodup ∧ (∀ u, u ∈ s'.tables.map (·.1) ↔ u ∈ s.tables.map (·.1)) ∧
    (∀ u, u ≠ t → s'.tables.lookup u = s.tables.lookup u) ∧
    (∃ l : List Nat, s'.added = s.added ++ l.map (fun e => (t, e)) ∧ (r = .ok () → l = (n :: ns).filterMap (made s.factories call t))) ∧
    (r = .ok () → ∀ m, ((s'.tables.lookup t).getD []).lookup m =
      (if m ∈ n :: ns then made s.factories call t m else none).or (((s.tables.lookup t).getD []).lookup m)) := by
      obtain ⟨a1, a2, a3, a4, a5, a6, ⟨l, b1, b2⟩, a8⟩ := ih s s' r h' ht hn
      refine ⟨a1, a2, a3, a4, a5, a6, ⟨l, b1, ?_⟩, ?_⟩
      · intro hr
        rw [b2 hr]
        simp [he]
      · intro hr m
        rw [a8 hr m]
        by_cases hm : m = n
        · subst hm
          rw [he]; simp
        · simp [hm]
    have stop (w : Res Unit) (hw : w ≠ .ok ()) (h' : (s, w) = (s', r)) :
        s'.transports = s.transports ∧ s'.factories = s.factories ∧ s'.next = s.next ∧ (s'.tables.map (·.1)).Nodup ∧ (∀ u, u ∈ s'.tables.map (·.1) ↔ u ∈ s.tables.map (·.1)) ∧
    (∀ u, u ≠ t → s'.tables.lookup u = s.tables.lookup u) ∧
    (∃ l : List Nat, s'.added = s.added ++ l.map (fun e => (t, e)) ∧ (r = .ok () → l = (n :: ns).filterMap (made s.factories call t))) ∧
    (r = .ok () → ∀ m, ((s'.tables.lookup t).getD []).lookup m =
      (if m ∈ n :: ns then made s.factories call t m else none).or (((s.tables.lookup t).getD []).lookup m)) := by
      simp only [Prod.mk.injEq] at h'
      obtain ⟨rfl, rfl⟩ := h'
      exact ⟨rfl, rfl, rfl, hn, fun _ => Iff.rfl, fun _ _ => rfl, ⟨[], by simp, fun h => absurd h hw⟩, fun h => absurd h hw⟩
    cases hf : s.factories.lookup n with
    | none =>
      rw [hf] at h
      exact skip h (by simp [made, hf])
    | some f =>
      rw [hf] at h
      simp only at h
      cases hc : call f t with
      | throws w => rw [hc] at h; exact stop (.throws w) (by simp) h
      | ub => rw [hc] at h; exact stop .ub (by simp) h
      | terminate => rw [hc] at h; exact stop .terminate (by simp) h
      | ok o =>
        rw [hc] at h
        cases o with
        | none => exact skip h (by simp [made, hf, hc])
        | some e =>
          simp only at h
          have hm : made s.factories call t n = some e := made_eq.mpr ⟨f, hf, hc⟩
          have hk := mem_keys_assign (β := List (String × Nat)) t
          obtain ⟨a1, a2, a3, a4, a5, a6, ⟨l, b1, b2⟩, a8⟩ := ih _ s' r h ((hk _ _ _).mpr (Or.inl rfl)) (keys_assign _ _ _ hn)
          simp only [lookup_assign, if_true, Option.getD_some] at a8
          refine ⟨a1, a2, a3, a4, ?_, ?_, ⟨e :: l, ?_, ?_⟩, ?_⟩
          · intro u
            rw [a5, hk]
            constructor
            · rintro (rfl | hu)
              · exact ht
              · exact hu
            · exact Or.inr
          · intro u hu
            rw [a6 u hu, lookup_assign, if_neg hu]
          · rw [b1]; simp
          · intro hr
            rw [b2 hr]
            simp [hm]
          · intro hr m
            rw [a8 hr m]
            by_cases hmn : m = n
            · subst hmn
              simp only [if_true, List.mem_cons, true_or]
              rw [hm]
              split <;> rfl
            · simp [hmn]

theorem inv_init : Inv {} := by
  constructor <;> simp

theorem connectTo_spec (call : Nat → Nat → Res (Option Nat)) (s s' : State) (d : Dest) (r : Res Unit) (hi : Inv s) (h : connectTo call s d = (s', r)) :
    Inv s' ∧ Grows s s' ∧
    (r = .ok () → ∀ x ∈ s'.transports, x ∈ s.transports ∨ (x = (d.hash, s.next) ∧ d.conn = .ok (some true) ∧
      ∃ names, supported true d.answer = .ok names ∧ s'.added = s.added ++ (names.filterMap (made s.factories call s.next)).map (fun e => (s.next, e)) ∧
      ∀ n, ((s'.tables.lookup s.next).getD []).lookup n = if n ∈ names then made s.factories call s.next n else none)) ∧
    (r = .ok () → d.conn = .ok (some true) → d.hash ∈ s'.transports.map (·.1)) := by
  unfold connectTo at h
  by_cases hk : (s.transports.lookup d.hash).isSome
  · rw [if_pos hk] at h
    simp only [Prod.mk.injEq] at h
    obtain ⟨rfl, rfl⟩ := h
    exact ⟨hi, Grows.refl _, fun _ x hx => Or.inl hx, fun _ _ => lookup_isSome.mp hk⟩
  · rw [if_neg hk] at h
    have hnk : d.hash ∉ s.transports.map (·.1) := fun hc => hk (lookup_isSome.mpr hc)
    have stop (w : Res Unit) (hw : w ≠ .ok ()) (h' : (s, w) = (s', r)) : Inv s' ∧ Grows s s' ∧
    (r = .ok () → ∀ x ∈ s'.transports, x ∈ s.transports ∨ (x = (d.hash, s.next) ∧ d.conn = .ok (some true) ∧
      ∃ names, supported true d.answer = .ok names ∧ s'.added = s.added ++ (names.filterMap (made s.factories call s.next)).map (fun e => (s.next, e)) ∧
      ∀ n, ((s'.tables.lookup s.next).getD []).lookup n = if n ∈ names then made s.factories call s.next n else none)) ∧
    (r = .ok () → d.conn = .ok (some true) → d.hash ∈ s'.transports.map (·.1)) := by
      simp only [Prod.mk.injEq] at h'
      obtain ⟨rfl, rfl⟩ := h'
      exact ⟨hi, Grows.refl _, fun hc => absurd hc hw, fun hc => absurd hc hw⟩
    cases hc : d.conn with
    | throws w => rw [hc] at h; rw [← hc]; exact stop (.throws w) (by simp) h
    | ub => rw [hc] at h; rw [← hc]; exact stop .ub (by simp) h
    | terminate => rw [hc] at h; rw [← hc]; exact stop .terminate (by simp) h
    | ok o =>
      rw [hc] at h
      cases o with
      | none => rw [← hc]; exact stop .ub (by simp) h
      | some b =>
        cases b with
        | false =>
          simp only [Prod.mk.injEq] at h
          obtain ⟨rfl, rfl⟩ := h
          refine ⟨⟨hi.hashes, hi.values, hi.keys, hi.same, fun t ht => Nat.lt_succ_of_lt (hi.bound t ht), fun x hx => Nat.lt_succ_of_lt (hi.addedBound x hx)⟩,
            ⟨rfl, Nat.le_succ _, ⟨[], by simp⟩, fun _ _ => rfl, ⟨[], by simp⟩⟩, fun _ x hx => Or.inl hx, fun _ hc => by simp at hc⟩
        | true =>
          simp only at h
          have hfresh : s.next ∉ s.tables.map (·.1) := fun hc => absurd (hi.bound _ ((hi.same _).mp hc)) (Nat.lt_irrefl _)
          have htr : assign d.hash s.next s.transports = (d.hash, s.next) :: s.transports := by
            unfold assign
            congr 1
            rw [List.filter_eq_self]
            intro x hx
            simp only [decide_eq_true_eq]
            intro hc
            exact hnk (List.mem_map.mpr ⟨x, hx, hc⟩)
          generalize hs1 : ({ s with transports := assign d.hash s.next s.transports, tables := assign s.next [] s.tables, next := s.next + 1 } : State) = s1 at h
          have i1 : Inv s1 := by
            subst hs1
            refine ⟨keys_assign _ _ _ hi.hashes, ?_, keys_assign _ _ _ hi.keys, ?_, ?_, fun x hx => Nat.lt_succ_of_lt (hi.addedBound x hx)⟩
            · simp only [htr, List.map_cons, List.nodup_cons]
              exact ⟨fun hc => absurd (hi.bound _ hc) (Nat.lt_irrefl _), hi.values⟩
            · intro t
              rw [mem_keys_assign]
              simp only [htr, List.map_cons, List.mem_cons]
              rw [hi.same]
            · intro t ht
              simp only [htr, List.map_cons, List.mem_cons] at ht
              rcases ht with rfl | ht
              · exact Nat.lt_succ_self _
              · exact Nat.lt_succ_of_lt (hi.bound t ht)
          have g1 : Grows s s1 := by
            subst hs1
            refine ⟨rfl, Nat.le_succ _, ⟨[(d.hash, s.next)], by simp [htr], by simp⟩, ?_, ⟨[], by simp⟩⟩
            intro t ht
            simp only
            rw [lookup_assign, if_neg (Nat.ne_of_lt ht)]
          have m1 : d.hash ∈ s1.transports.map (·.1) := by subst hs1; simp [htr]
          have e1 : s1.transports = (d.hash, s.next) :: s.transports := by subst hs1; exact htr
          have e2 : s1.added = s.added := by subst hs1; rfl
          have e3 : s1.factories = s.factories := by subst hs1; rfl
          have e4 : s1.next = s.next + 1 := by subst hs1; rfl
          have e5 : s1.tables.lookup s.next = some [] := by subst hs1; simp only; rw [lookup_assign, if_pos rfl]
          have e6 : s.next ∈ s1.tables.map (·.1) := by rw [← lookup_isSome, e5]; rfl
          have stop2 (w : Res Unit) (hw : w ≠ .ok ()) (h' : (s1, w) = (s', r)) : Inv s' ∧ Grows s s' ∧
    (r = .ok () → ∀ x ∈ s'.transports, x ∈ s.transports ∨ (x = (d.hash, s.next) ∧ (Res.ok (some true)) = .ok (some true) ∧
      ∃ names, supported true d.answer = .ok names ∧ s'.added = s.added ++ (names.filterMap (made s.factories call s.next)).map (fun e => (s.next, e)) ∧
      ∀ n, ((s'.tables.lookup s.next).getD []).lookup n = if n ∈ names then made s.factories call s.next n else none)) ∧
    (r = .ok () → (Res.ok (some true)) = .ok (some true) → d.hash ∈ s'.transports.map (·.1)) := by
            simp only [Prod.mk.injEq] at h'
            obtain ⟨rfl, rfl⟩ := h'
            exact ⟨i1, g1, fun hc => absurd hc hw, fun hc => absurd hc hw⟩
          cases hsup : supported true d.answer with
          | throws w => rw [hsup] at h stop2; exact stop2 (.throws w) (by simp) h
          | ub => rw [hsup] at h stop2; exact stop2 .ub (by simp) h
          | terminate => rw [hsup] at h stop2; exact stop2 .terminate (by simp) h
          | ok names =>
            rw [hsup] at h
            obtain ⟨a1, a2, a3, a4, a5, a6, ⟨l, b1, b2⟩, a8⟩ := create_spec call s.next names s1 s' r h e6 i1.keys
            refine ⟨?_, ?_, ?_, ?_⟩
            · refine ⟨by rw [a1]; exact i1.hashes, by rw [a1]; exact i1.values, a4, ?_, ?_, ?_⟩
              · intro t; rw [a5, a1]; exact i1.same t
              · rw [a1, a3]; exact i1.bound
              · intro x hx
                rw [b1] at hx
                rw [a3]
                rcases List.mem_append.mp hx with hx | hx
                · exact i1.addedBound x hx
                · obtain ⟨e, _, rfl⟩ := List.mem_map.mp hx
                  rw [e4]; exact Nat.lt_succ_self _
            · refine ⟨a2.trans e3, by rw [a3, e4]; exact Nat.le_succ _, ⟨[(d.hash, s.next)], by rw [a1, e1]; rfl, by simp⟩, ?_,
                ⟨l.map (fun e => (s.next, e)), by rw [b1, e2], by simp⟩⟩
              intro t ht
              rw [a6 t (Nat.ne_of_lt ht), g1.tables t ht]
            · intro hr x hx
              rw [a1, e1] at hx
              rcases List.mem_cons.mp hx with rfl | hx
              · refine Or.inr ⟨rfl, rfl, names, rfl, ?_, ?_⟩
                · rw [b1, b2 hr, e2, e3]
                · intro n
                  rw [a8 hr n, e5, e3]
                  simp
              · exact Or.inl hx
            · intro _ _
              rw [a1]; exact m1

theorem filter_added_of_bound {l : List (Nat × Nat)} {b t : Nat} (h : ∀ x ∈ l, x.1 < b) (ht : b ≤ t) : l.filter (fun x => x.1 = t) = [] := by
  rw [List.filter_eq_nil_iff]
  intro x hx
  have := h x hx
  simp only [decide_eq_true_eq]
  omega

/-- What a new transport gets. -/
def Gets (fs : List (String × Nat)) (call : Nat → Nat → Res (Option Nat)) (d : Dest) (s' : State) (t : Nat) : Prop :=
  ∃ names, supported true d.answer = .ok names ∧ s'.added.filter (fun x => x.1 = t) = (names.filterMap (made fs call t)).map (fun e => (t, e)) ∧
    ∀ n, ((s'.tables.lookup t).getD []).lookup n = if n ∈ names then made fs call t n else none

theorem Gets.grows {fs : List (String × Nat)} {call : Nat → Nat → Res (Option Nat)} {d : Dest} {s s' : State} {t : Nat} (h : Gets fs call d s t) (g : Grows s s')
    (ht : t < s.next) : Gets fs call d s' t := by
  obtain ⟨names, h1, h2, h3⟩ := h
  obtain ⟨l, hl, hl'⟩ := g.added
  refine ⟨names, h1, ?_, ?_⟩
  · rw [hl, List.filter_append, h2]
    have : l.filter (fun x => x.1 = t) = [] := by
      rw [List.filter_eq_nil_iff]
      intro x hx
      have := hl' x hx
      simp only [decide_eq_true_eq]
      omega
    rw [this, List.append_nil]
  · rw [g.tables t ht]; exact h3

theorem connectAll_spec (call : Nat → Nat → Res (Option Nat)) (ds : List Dest) : ∀ (s s' : State) (r : Res Unit), Inv s → connectAll call ds s = (s', r) →
    Inv s' ∧ Grows s s' ∧
    (r = .ok () → ∀ x ∈ s'.transports, x ∈ s.transports ∨ (s.next ≤ x.2 ∧ ∃ d ∈ ds, x.1 = d.hash ∧ d.conn = .ok (some true) ∧ Gets s.factories call d s' x.2)) ∧
    (r = .ok () → ∀ d ∈ ds, d.conn = .ok (some true) → d.hash ∈ s'.transports.map (·.1)) := by
  induction ds with
  | nil =>
    intro s s' r hi h
    simp only [connectAll, Prod.mk.injEq] at h
    obtain ⟨rfl, rfl⟩ := h
    exact ⟨hi, Grows.refl _, fun _ x hx => Or.inl hx, by simp⟩
  | cons d ds ih =>
    intro s s' r hi h
    simp only [connectAll] at h
    obtain ⟨s1, r1, hc⟩ : ∃ s1 r1, connectTo call s d = (s1, r1) := ⟨_, _, rfl⟩
    obtain ⟨i1, g1, n1, c1⟩ := connectTo_spec call s s1 d r1 hi hc
    rw [hc] at h
    by_cases hr : r1 = .ok ()
    · subst hr
      simp only at h
      obtain ⟨i2, g2, n2, c2⟩ := ih s1 s' r i1 h
      refine ⟨i2, g1.trans g2, ?_, ?_⟩
      · intro hr x hx
        rcases n2 hr x hx with hx1 | ⟨hx1, d', hd', e1, e2, e3⟩
        · rcases n1 rfl x hx1 with hx2 | ⟨rfl, e2, names, e3, e4, e5⟩
          · exact Or.inl hx2
          · have hlt : s.next < s1.next := i1.bound _ (List.mem_map.mpr ⟨_, hx1, rfl⟩)
            refine Or.inr ⟨Nat.le_refl _, d, List.mem_cons_self, rfl, e2, Gets.grows ⟨names, e3, ?_, e5⟩ g2 hlt⟩
            rw [e4, List.filter_append, filter_added_of_bound hi.addedBound (Nat.le_refl _), List.nil_append, List.filter_eq_self]
            simp only [List.mem_map, decide_eq_true_eq]
            rintro x ⟨e, _, rfl⟩
            rfl
        · rw [g1.factories] at e3
          exact Or.inr ⟨Nat.le_trans g1.next hx1, d', List.mem_cons_of_mem _ hd', e1, e2, e3⟩
      · intro hr d' hd' e
        rcases List.mem_cons.mp hd' with rfl | hd'
        · obtain ⟨x, hx, hx'⟩ := List.mem_map.mp (c1 rfl e)
          obtain ⟨l, hl, _⟩ := g2.transports
          exact List.mem_map.mpr ⟨x, by rw [hl]; exact List.mem_append_right _ hx, hx'⟩
        · exact c2 hr d' hd' e
    · have : (s1, r1) = (s', r) := by
        split at h
        · rename_i heq
          simp only [Prod.mk.injEq] at heq
          exact absurd heq.2 hr
        · exact h
      simp only [Prod.mk.injEq] at this
      obtain ⟨rfl, rfl⟩ := this
      exact ⟨i1, g1, fun h => absurd h hr, fun h => absurd h hr⟩

theorem cleanup_spec (connected : Nat → Bool) (l : List (Nat × Nat)) : ∀ s : State, Inv s → (∀ x ∈ l, x ∈ s.transports) → (l.map (·.1)).Nodup →
    ∃ s1, cleanup connected l s = .ok s1 ∧ Inv s1 ∧ s1.factories = s.factories ∧ s1.next = s.next ∧ s1.added = s.added ∧
      s1.transports = s.transports.filter (fun x => ¬ (x ∈ l ∧ connected x.2 = false)) ∧
      ∀ t ∈ s1.transports.map (·.2), s1.tables.lookup t = s.tables.lookup t := by
  induction l with
  | nil =>
    intro s hi _ _
    exact ⟨s, rfl, hi, rfl, rfl, rfl, by simp, fun _ _ => rfl⟩
  | cons x l ih =>
    obtain ⟨h, t⟩ := x
    intro s hi hm hn
    simp only [List.map_cons, List.nodup_cons] at hn
    simp only [cleanup]
    have hmem := hm (h, t) List.mem_cons_self
    by_cases hc : connected t = true
    · rw [if_pos hc]
      obtain ⟨s1, a1, a2, a3, a4, a5, a6, a7⟩ := ih s hi (fun x hx => hm x (List.mem_cons_of_mem _ hx)) hn.2
      refine ⟨s1, a1, a2, a3, a4, a5, ?_, a7⟩
      rw [a6]
      apply List.filter_congr
      intro x _
      simp only [List.mem_cons, decide_eq_decide, not_iff_not]
      constructor
      · exact fun ⟨p, q⟩ => ⟨Or.inr p, q⟩
      · rintro ⟨rfl | p, q⟩
        · simp only at q; rw [hc] at q; cases q
        · exact ⟨p, q⟩
    · rw [if_neg hc]
      have hk : t ∈ s.tables.map (·.1) := (hi.same t).mpr (List.mem_map.mpr ⟨_, hmem, rfl⟩)
      cases hl : s.tables.lookup t with
      | none => exact absurd hk (lookup_none.mp hl)
      | some v =>
        simp only
        have hf : s.transports.filter (fun x => x.1 ≠ h) = s.transports.filter (fun x => x ≠ (h, t)) := by
          apply List.filter_congr
          intro x hx
          simp only [ne_eq, decide_eq_decide, not_iff_not]
          constructor
          · intro hxh
            exact List.inj_on_of_nodup_map hi.hashes hx hmem hxh
          · rintro rfl; rfl
        generalize hs1 : ({ s with transports := s.transports.filter (fun x => x.1 ≠ h), tables := s.tables.filter (fun x => x.1 ≠ t) } : State) = s1
        have hs2 : s1.transports = s.transports.filter (fun x => x ≠ (h, t)) := by subst hs1; exact hf
        have hs3 : s1.tables = s.tables.filter (fun x => x.1 ≠ t) := by subst hs1; rfl
        have e1 : s1.factories = s.factories := by subst hs1; rfl
        have e2 : s1.next = s.next := by subst hs1; rfl
        have e3 : s1.added = s.added := by subst hs1; rfl
        have i1 : Inv s1 := by
          refine ⟨?_, ?_, ?_, ?_, ?_, ?_⟩
          · rw [hs2]; exact (List.filter_sublist.map _).nodup hi.hashes
          · rw [hs2]; exact (List.filter_sublist.map _).nodup hi.values
          · rw [hs3]; exact (List.filter_sublist.map _).nodup hi.keys
          · intro u
            rw [hs2, hs3]
            simp only [List.mem_map, List.mem_filter, decide_eq_true_eq]
            have hsame := hi.same u
            simp only [List.mem_map] at hsame
            constructor
            · rintro ⟨y, ⟨hy, hy'⟩, rfl⟩
              obtain ⟨z, hz, hz'⟩ := hsame.mp ⟨y, hy, rfl⟩
              refine ⟨z, ⟨hz, ?_⟩, hz'⟩
              rintro rfl
              exact hy' hz'.symm
            · rintro ⟨z, ⟨hz, hz'⟩, rfl⟩
              obtain ⟨y, hy, hy'⟩ := hsame.mpr ⟨z, hz, rfl⟩
              refine ⟨y, ⟨hy, ?_⟩, hy'⟩
              intro hyt
              exact hz' (List.inj_on_of_nodup_map hi.values hz hmem (by simp only; rw [← hy', hyt]))
          · intro u hu
            rw [hs2] at hu
            rw [e2]
            exact hi.bound u ((List.filter_sublist.map _).subset hu)
          · rw [e3, e2]; exact hi.addedBound
        have hne : ∀ x ∈ l, x ≠ (h, t) := by
          rintro x hx rfl
          exact hn.1 (List.mem_map.mpr ⟨_, hx, rfl⟩)
        obtain ⟨s', a1, a2, a3, a4, a5, a6, a7⟩ := ih s1 i1 (by
          intro x hx
          rw [hs2, List.mem_filter]
          exact ⟨hm x (List.mem_cons_of_mem _ hx), by simpa using hne x hx⟩) hn.2
        refine ⟨s', a1, a2, a3.trans e1, a4.trans e2, a5.trans e3, ?_, ?_⟩
        · rw [a6, hs2, List.filter_filter]
          apply List.filter_congr
          intro x _
          simp only [List.mem_cons, ← Bool.decide_and, decide_eq_decide]
          constructor
          · rintro ⟨p, q⟩ ⟨rfl | u, v⟩
            · exact q rfl
            · exact p ⟨u, v⟩
          · intro p
            refine ⟨fun q => p ⟨Or.inr q.1, q.2⟩, ?_⟩
            rintro rfl
            exact p ⟨Or.inl rfl, by simpa using hc⟩
        · intro u hu
          rw [a7 u hu, hs3, lookup_filter, if_neg]
          rintro rfl
          rw [a6, hs2] at hu
          obtain ⟨z, hz, hz'⟩ := List.mem_map.mp hu
          have hz1 := (List.mem_filter.mp (List.mem_filter.mp hz).1)
          exact (of_decide_eq_true hz1.2) (List.inj_on_of_nodup_map hi.values hz1.1 hmem hz')

/-- One call of `manage`. -/
theorem manage_spec (p : Poll) (s s' : State) (r : Res Unit) (hi : Inv s) (h : manage p s = (s', r)) :
    ∃ s1, Inv s1 ∧ s1.factories = s.factories ∧ s1.next = s.next ∧ s1.added = s.added ∧ s1.transports = s.transports.filter (fun x => p.connected x.2) ∧
      (∀ t ∈ s1.transports.map (·.2), s1.tables.lookup t = s.tables.lookup t) ∧ connectAll p.call p.found s1 = (s', r) := by
  obtain ⟨s1, a1, a2, a3, a4, a5, a6, a7⟩ := cleanup_spec p.connected s.transports s hi (fun _ h => h) hi.hashes
  unfold manage at h
  rw [a1] at h
  refine ⟨s1, a2, a3, a4, a5, ?_, a7, h⟩
  rw [a6]
  apply List.filter_congr
  intro x hx
  simp [hx]

theorem inv_reachable {s : State} (h : Reachable s) : Inv s := by
  induction h with
  | init => exact inv_init
  | @manage s s' p r _ e _ ih =>
    obtain ⟨s1, i1, _, _, _, _, _, e⟩ := manage_spec p s s' r ih e
    exact (connectAll_spec p.call p.found s1 s' r i1 e).1
  | @addFactory s name f _ ih => exact ⟨ih.hashes, ih.values, ih.keys, ih.same, ih.bound, ih.addedBound⟩

end Scalopus.Manager
