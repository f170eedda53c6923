import Verif.Proofs.PySource
import Mathlib.Data.List.Perm.Subperm

/-!
# C157: sets in the values of Python sources

A set is converted to the list of what its elements are converted to. `l` is the set in the order in which Python walks through it.
-/

namespace Scalopus.C157

open PyJson PyJson.Spec

/-! ## What the elements of a set can be -/

/-- `f` is a NaN. -/
def NaN (f : UInt64) : Prop := 2047 * 2 ^ 52 < f.toNat % 2 ^ 63

/-- The numbers of a set. -/
inductive Numbers where
  /-- Only integers. -/
  | ints
  /-- Only floats. -/
  | floats
  deriving DecidableEq

/-- Values that can be in a set: None, booleans, strings and tuples of such values, either 64 bit integers or floats except NaN and -0.0 (which equals 0.0 in Python), and, if `all`, also bytes and objects of other
types. -/
inductive Exact (all : Prop) (k : Numbers) : Py → Prop
  | none : Exact all k .none
  | bool (b : Bool) : Exact all k (.bool b)
  | int (n : Int) : k = .ints → Signed64 n → Exact all k (.int n)
  | float (f : UInt64) : k = .floats → ¬ NaN f → f.toNat ≠ 2 ^ 63 → Exact all k (.float f)
  | str (s : String) : Exact all k (.str s)
  | tuple (l : List Py) : (∀ v ∈ l, Exact all k v) → Exact all k (.tuple l)
  | bytes (l : List UInt8) : all → k = .ints → Exact all k (.bytes l)
  | other : all → Exact all k .other

/-- What they are converted to. -/
inductive Tame (k : Numbers) : Json → Prop
  | null : Tame k .null
  | bool (b : Bool) : Tame k (.bool b)
  | int (n : Int) : k = .ints → Tame k (.int n)
  | float (f : UInt64) : k = .floats → ¬ NaN f → f.toNat ≠ 2 ^ 63 → Tame k (.float f)
  | str (s : String) : Tame k (.str s)
  | arr (l : List Json) : (∀ j ∈ l, Tame k j) → Tame k (.arr l)

variable {k : Numbers}

theorem tame_of_exact {all : Prop} (v : Py) (h : Exact all k v) : ∃ j, pyToJson v = .ok j ∧ Tame k j := by
  induction h with
  | none => exact ⟨_, rfl, .null⟩
  | bool b => exact ⟨_, rfl, .bool b⟩
  | int n hk hn => exact ⟨.int n, by simp only [pyToJson]; rw [if_pos (show -(2 : Int) ^ 63 ≤ n ∧ n < 2 ^ 63 from hn)], .int n hk⟩
  | float f hk h1 h2 => exact ⟨.float f, by simp only [pyToJson], .float f hk h1 h2⟩
  | str s => exact ⟨_, rfl, .str s⟩
  | other _ => exact ⟨_, rfl, .null⟩
  | bytes l _ hk => exact ⟨_, rfl, .arr _ (by simp only [List.mem_map]; rintro j ⟨b, _, rfl⟩; exact .int _ hk)⟩
  | tuple l _ ih =>
    have : ∃ js, pyToJsonList l = .ok js ∧ ∀ j ∈ js, Tame k j := by
      clear * - ih
      induction l with
      | nil => exact ⟨[], rfl, by simp⟩
      | cons v l ihl =>
        obtain ⟨j, h1, h2⟩ := ih v (by simp)
        obtain ⟨js, h3, h4⟩ := ihl fun x hx => ih x (by simp [hx])
        refine ⟨j :: js, by simp only [pyToJsonList]; rw [h1, h3]; rfl, ?_⟩
        intro x hx
        rcases List.mem_cons.mp hx with rfl | hx
        · exact h2
        · exact h4 x hx
    obtain ⟨js, h1, h2⟩ := this
    exact ⟨.arr js, by simp only [pyToJson]; rw [h1]; rfl, .arr js h2⟩

/-! ## They are in a linear order -/

theorem intCmp_lt {a b : Int} : intCmp a b = .lt ↔ a < b := by unfold intCmp; grind
theorem intCmp_gt {a b : Int} : intCmp a b = .gt ↔ b < a := by unfold intCmp; grind
theorem intCmp_eq {a b : Int} : intCmp a b = .eq ↔ a = b := by unfold intCmp; grind

theorem intCmp_swap {a b : Int} : intCmp b a = (intCmp a b).swap := by
  unfold intCmp
  rcases lt_trichotomy a b with h | h | h
  · rw [if_pos h, if_neg (lt_asymm h), if_pos h]; rfl
  · subst h; rw [if_neg (lt_irrefl a), if_neg (lt_irrefl a)]; rfl
  · rw [if_pos h, if_neg (lt_asymm h), if_pos h]; rfl

/-- Floats that are not NaN have a key, and different ones have different keys. -/
theorem key_some {f : UInt64} (h : ¬ NaN f) : ∃ x, doubleKey f = some x := by
  unfold NaN at h
  unfold doubleKey
  simp only
  rw [if_neg h]
  exact ⟨_, rfl⟩

theorem key_inj {f g : UInt64} (hf : ¬ NaN f) (hg : ¬ NaN g) (hf' : f.toNat ≠ 2 ^ 63) (hg' : g.toNat ≠ 2 ^ 63) (h : doubleKey f = doubleKey g) : f = g := by
  unfold NaN at hf hg
  unfold doubleKey at h
  simp only at h
  rw [if_neg hf, if_neg hg, Option.some.injEq] at h
  have h1 := f.toNat_lt
  have h2 := g.toNat_lt
  apply UInt64.toNat.inj
  by_cases c1 : f.toNat < 2 ^ 63 <;> by_cases c2 : g.toNat < 2 ^ 63 <;> simp only [c1, c2, if_true, if_false] at h <;> omega

theorem keyCmp_swap {a b : Option Int} : keyCmp b a = (keyCmp a b).swap := by
  cases a <;> cases b <;> simp only [keyCmp] <;> first | rfl | exact intCmp_swap

theorem keyCmp_trans {a b c : Option Int} (h1 : keyCmp a b = .lt) (h2 : keyCmp b c = .lt) : keyCmp a c = .lt := by
  cases a <;> cases b <;> cases c <;> simp only [keyCmp, reduceCtorEq, intCmp_lt] at h1 h2 ⊢
  exact lt_trans h1 h2

theorem stringCmp_lt {a b : String} : stringCmp a b = .lt ↔ a < b := by
  unfold stringCmp
  by_cases h : a < b
  · rw [if_pos h]; exact ⟨fun _ => h, fun _ => rfl⟩
  · rw [if_neg h]
    constructor
    · intro h'; split at h' <;> cases h'
    · exact fun h' => absurd h' h

theorem stringCmp_eq {a b : String} : stringCmp a b = .eq ↔ a = b := by
  unfold stringCmp
  rcases lt_trichotomy a b with h | h | h
  · rw [if_pos h]; exact ⟨nofun, fun e => absurd h (e ▸ lt_irrefl a)⟩
  · subst h; rw [if_neg (lt_irrefl a), if_neg (lt_irrefl a)]; exact ⟨fun _ => rfl, fun _ => rfl⟩
  · rw [if_neg (lt_asymm h), if_pos h]; exact ⟨nofun, fun e => absurd h (e ▸ lt_irrefl b)⟩

theorem stringCmp_swap {a b : String} : stringCmp b a = (stringCmp a b).swap := by
  unfold stringCmp
  rcases lt_trichotomy a b with h | h | h
  · rw [if_pos h, if_neg (lt_asymm h), if_pos h]; rfl
  · subst h; rw [if_neg (lt_irrefl a), if_neg (lt_irrefl a)]; rfl
  · rw [if_pos h, if_neg (lt_asymm h), if_pos h]; rfl

/-- Same means equal. -/
theorem cmp_eq {a : Json} (ha : Tame k a) : ∀ {b : Json}, Tame k b → (compareJson a b = .eq ↔ a = b) := by
  induction ha with
  | null => intro b hb; cases hb <;> simp [compareJson, rank]
  | bool x => intro b hb; cases hb <;> simp [compareJson, rank] <;> (rename_i y; cases x <;> cases y <;> simp)
  | int x hk =>
    intro b hb
    cases hb with
    | int y _ => simp [compareJson, intCmp_eq]
    | float g hk' _ _ => rw [hk] at hk'; cases hk'
    | _ => simp [compareJson, rank]
  | float f hk h1 h2 =>
    intro b hb
    cases hb with
    | int y hk' => rw [hk] at hk'; cases hk'
    | float g _ h3 h4 =>
      obtain ⟨x, hx⟩ := key_some h1
      obtain ⟨y, hy⟩ := key_some h3
      simp only [compareJson, hx, hy, keyCmp, intCmp_eq, Json.float.injEq]
      constructor
      · rintro rfl
        exact key_inj h1 h3 h2 h4 (hx.trans hy.symm)
      · rintro rfl
        rw [hx] at hy
        exact Option.some.inj hy
    | _ => simp [compareJson, rank]
  | str x => intro b hb; cases hb <;> simp [compareJson, rank, stringCmp_eq]
  | arr l _ ih =>
    intro b hb
    cases hb with
    | arr m hm =>
      simp only [compareJson, Json.arr.injEq]
      clear * - ih hm
      induction l generalizing m with
      | nil => cases m <;> simp [compareList]
      | cons x l ihl =>
        cases m with
        | nil => simp [compareList]
        | cons y m =>
          simp only [compareList, Ordering.then_eq_eq, List.cons.injEq]
          rw [ih x (by simp) (hm y (by simp)), ihl (fun j hj => ih j (by simp [hj])) m (fun j hj => hm j (by simp [hj]))]
    | _ => simp [compareJson, rank]

/-- One is before the other iff the other is after it. -/
theorem cmp_swap {a : Json} (ha : Tame k a) : ∀ {b : Json}, Tame k b → compareJson b a = (compareJson a b).swap := by
  induction ha with
  | null => intro b hb; cases hb <;> simp [compareJson, rank]
  | bool x => intro b hb; cases hb <;> simp [compareJson, rank] <;> (rename_i y; cases x <;> cases y <;> simp)
  | int x hk =>
    intro b hb
    cases hb with
    | int y _ => simp only [compareJson]; exact intCmp_swap
    | float g hk' _ _ => rw [hk] at hk'; cases hk'
    | _ => simp [compareJson, rank]
  | float f hk h1 h2 =>
    intro b hb
    cases hb with
    | int y hk' => rw [hk] at hk'; cases hk'
    | float g _ h3 h4 => simp only [compareJson]; exact keyCmp_swap
    | _ => simp [compareJson, rank]
  | str x => intro b hb; cases hb <;> simp [compareJson, rank]; exact stringCmp_swap
  | arr l _ ih =>
    intro b hb
    cases hb with
    | arr m hm =>
      simp only [compareJson]
      clear * - ih hm
      induction l generalizing m with
      | nil => cases m <;> simp [compareList]
      | cons x l ihl =>
        cases m with
        | nil => simp [compareList]
        | cons y m =>
          simp only [compareList, Ordering.swap_then]
          rw [ih x (by simp) (hm y (by simp)), ihl (fun j hj => ih j (by simp [hj])) m (fun j hj => hm j (by simp [hj]))]
    | _ => simp [compareJson, rank]

theorem cmp_trans {a : Json} (ha : Tame k a) : ∀ {b c : Json}, Tame k b → Tame k c → compareJson a b = .lt → compareJson b c = .lt → compareJson a c = .lt := by
  induction ha with
  | null => intro b c hb hc h1 h2; cases hb <;> cases hc <;> simp [compareJson, rank] at h1 h2 ⊢
  | bool x => intro b c hb hc h1 h2; cases hb <;> cases hc <;> simp [compareJson, rank] at h1 h2 ⊢ <;> grind
  | int x hk =>
    intro b c hb hc h1 h2
    cases hb <;> cases hc <;> simp [compareJson, rank, intCmp_lt, hk] at *
    exact lt_trans h1 h2
  | float f hk _ _ =>
    intro b c hb hc h1 h2
    cases hb with
    | float g _ _ _ =>
      cases hc with
      | float g' _ _ _ => simp only [compareJson] at h1 h2 ⊢; exact keyCmp_trans h1 h2
      | int _ hk' => rw [hk] at hk'; cases hk'
      | _ => simp [compareJson, rank] at h1 h2 ⊢
    | int _ hk' => rw [hk] at hk'; cases hk'
    | _ =>
      cases hc with
      | int _ hk' => rw [hk] at hk'; cases hk'
      | _ => simp [compareJson, rank] at h1 h2 ⊢
  | str x =>
    intro b c hb hc h1 h2
    cases hb <;> cases hc <;> simp only [compareJson, rank, reduceCtorEq, stringCmp_lt] at h1 h2 ⊢ <;> first | exact lt_trans h1 h2 | simp at h1 h2 ⊢
  | arr l hl ih =>
    intro b c hb hc h1 h2
    cases hb with
    | arr m hm =>
      cases hc with
      | arr n hn =>
        simp only [compareJson] at h1 h2 ⊢
        clear * - ih hm hn h1 h2 hl
        induction l generalizing m n with
        | nil => cases m <;> cases n <;> simp [compareList] at h1 h2 ⊢
        | cons x l ihl =>
          cases m with
          | nil => simp [compareList] at h1
          | cons y m =>
            cases n with
            | nil => simp [compareList] at h2
            | cons z n =>
              simp only [compareList, Ordering.then_eq_lt] at h1 h2 ⊢
              have hx := hl x (by simp)
              have hy := hm y (by simp)
              have hz := hn z (by simp)
              rcases h1 with h1 | ⟨h1, h1'⟩ <;> rcases h2 with h2 | ⟨h2, h2'⟩
              · exact .inl (ih x (by simp) hy hz h1 h2)
              · rw [(cmp_eq hy hz).mp h2] at h1; exact .inl h1
              · rw [← (cmp_eq hx hy).mp h1] at h2; exact .inl h2
              · rw [← (cmp_eq hx hy).mp h1] at h2
                exact .inr ⟨h2, ihl (fun j hj => hl j (by simp [hj])) (fun j hj => ih j (by simp [hj])) m (fun j hj => hm j (by simp [hj])) h1' n (fun j hj => hn j (by simp [hj])) h2'⟩
      | _ => simp [compareJson, rank] at h1 h2 ⊢
    | _ => cases hc <;> simp [compareJson, rank] at h1 h2 ⊢

theorem ordered_tame {l : List Json} (h : ∀ j ∈ l, Tame k j) : ordered l = true := by
  simp only [ordered, List.all_eq_true]
  intro a ha b hb c hc
  have := h a ha
  have := h b hb
  have := h c hc
  simp only [Bool.and_eq_true, Bool.or_eq_true, Bool.not_eq_true', beq_iff_eq, Bool.and_eq_false_iff, beq_eq_false_iff_ne]
  constructor
  · by_cases h1 : compareJson a b = .lt
    · by_cases h2 : compareJson b c = .lt
      · exact .inr (cmp_trans ‹_› ‹_› ‹_› h1 h2)
      · exact .inl (.inr h2)
    · exact .inl (.inl h1)
  · by_cases h1 : compareJson a b = .eq
    · by_cases h2 : compareJson b c = .eq
      · rw [cmp_eq ‹_› ‹_›] at h1 h2
        subst h1 h2
        exact .inr ((cmp_eq ‹_› ‹_›).mpr rfl)
      · exact .inl (.inr h2)
    · exact .inl (.inl h1)

/-! ## Inserting -/

/-- Each value is before those after it. -/
def Ascending (l : List Json) : Prop := l.Pairwise fun a b => compareJson a b = .lt

theorem mem_insert {x : Json} (hx : Tame k x) : ∀ {l : List Json}, (∀ j ∈ l, Tame k j) → ∀ y, y ∈ insertJson x l ↔ y = x ∨ y ∈ l := by
  intro l
  induction l with
  | nil => intro _ y; simp [insertJson]
  | cons z l ih =>
    intro hl y
    have hz := hl z (by simp)
    simp only [insertJson]
    cases hc : compareJson x z with
    | lt => simp
    | gt => simp only [List.mem_cons, ih (fun j hj => hl j (by simp [hj])) y]; grind
    | eq => rw [cmp_eq hx hz] at hc; subst hc; simp

theorem insert_ascending {x : Json} (hx : Tame k x) : ∀ {l : List Json}, (∀ j ∈ l, Tame k j) → Ascending l → Ascending (insertJson x l) := by
  intro l
  induction l with
  | nil => intro _ _; simp [insertJson, Ascending]
  | cons z l ih =>
    intro hl ha
    have hz := hl z (by simp)
    have hl' : ∀ j ∈ l, Tame k j := fun j hj => hl j (by simp [hj])
    have ha' := List.pairwise_cons.mp ha
    simp only [insertJson]
    cases hc : compareJson x z with
    | lt =>
      refine List.pairwise_cons.mpr ⟨fun y hy => ?_, ha⟩
      rcases List.mem_cons.mp hy with rfl | hy
      · exact hc
      · exact cmp_trans hx hz (hl' y hy) hc (ha'.1 y hy)
    | gt =>
      refine List.pairwise_cons.mpr ⟨fun y hy => ?_, ih hl' ha'.2⟩
      rcases (mem_insert hx hl' y).mp hy with rfl | hy
      · rw [cmp_swap hx hz] at *; rw [hc]; rfl
      · exact ha'.1 y hy
    | eq => exact ha

theorem build (js : List Json) (h : ∀ j ∈ js, Tame k j) : ∀ m : List Json, (∀ j ∈ m, Tame k j) → Ascending m →
    Ascending (js.foldl (fun m j => insertJson j m) m) ∧ ∀ y, y ∈ js.foldl (fun m j => insertJson j m) m ↔ y ∈ m ∨ y ∈ js := by
  induction js with
  | nil => intro m _ ha; exact ⟨ha, by simp⟩
  | cons x js ih =>
    intro m hm ha
    have hx := h x (by simp)
    have hmem := mem_insert hx hm
    obtain ⟨h1, h2⟩ := ih (fun j hj => h j (by simp [hj])) (insertJson x m) (fun j hj => by
      rcases (hmem j).mp hj with rfl | hj
      · exact hx
      · exact hm j hj) (insert_ascending hx hm ha)
    refine ⟨h1, fun y => ?_⟩
    show y ∈ js.foldl (fun m j => insertJson j m) (insertJson x m) ↔ _
    rw [h2, hmem]
    simp only [List.mem_cons]
    grind

/-- An ascending list is given by its elements. -/
theorem ascending_unique : ∀ {l m : List Json}, (∀ j ∈ l, Tame k j) → (∀ j ∈ m, Tame k j) → Ascending l → Ascending m → (∀ y, y ∈ l ↔ y ∈ m) → l = m := by
  intro l
  induction l with
  | nil =>
    intro m _ _ _ _ h
    cases m with
    | nil => rfl
    | cons y m => exact absurd ((h y).mpr (by simp)) (by simp)
  | cons x l ih =>
    intro m hl hm al am h
    cases m with
    | nil => exact absurd ((h x).mp (by simp)) (by simp)
    | cons y m =>
      have al' := List.pairwise_cons.mp al
      have am' := List.pairwise_cons.mp am
      have tx := hl x (by simp)
      have ty := hm y (by simp)
      have irr : ∀ {a : Json}, Tame k a → compareJson a a ≠ .lt := fun ha => by rw [(cmp_eq ha ha).mpr rfl]; simp
      have e : x = y := by
        by_contra hne
        have h1 : x ∈ m := by rcases List.mem_cons.mp ((h x).mp (by simp)) with e | e; exact absurd e hne; exact e
        have h2 : y ∈ l := by rcases List.mem_cons.mp ((h y).mpr (by simp)) with e | e; exact absurd e.symm hne; exact e
        exact irr tx (cmp_trans tx ty tx (al'.1 y h2) (am'.1 x h1))
      subst e
      rw [ih (fun j hj => hl j (by simp [hj])) (fun j hj => hm j (by simp [hj])) al'.2 am'.2 fun z => ?_]
      constructor
      · intro hz
        rcases List.mem_cons.mp ((h z).mp (by simp [hz])) with e | e
        · subst e; exact absurd (al'.1 z hz) (irr tx)
        · exact e
      · intro hz
        rcases List.mem_cons.mp ((h z).mpr (by simp [hz])) with e | e
        · subst e; exact absurd (am'.1 z hz) (irr tx)
        · exact e

/-! ## The list -/

theorem list_tame {all : Prop} {l : List Py} (h : ∀ v ∈ l, Exact all k v) :
    ∃ js, pyToJsonList l = .ok js ∧ (∀ j ∈ js, Tame k j) ∧ js.length = l.length ∧ ∀ (i : Nat) (v : Py), l[i]? = some v → ∃ j, js[i]? = some j ∧ pyToJson v = .ok j := by
  induction l with
  | nil => exact ⟨[], rfl, by simp, rfl, by simp⟩
  | cons v l ih =>
    obtain ⟨j, h1, h2⟩ := tame_of_exact v (h v (by simp))
    obtain ⟨js, h3, h4, h5, h6⟩ := ih fun x hx => h x (by simp [hx])
    refine ⟨j :: js, by simp only [pyToJsonList]; rw [h1, h3]; rfl, ?_, by simp [h5], ?_⟩
    · intro x hx
      rcases List.mem_cons.mp hx with rfl | hx
      · exact h2
      · exact h4 x hx
    · intro i w hw
      cases i with
      | zero => simp at hw; subst hw; exact ⟨j, rfl, h1⟩
      | succ i => simp at hw; simpa using h6 i w hw

theorem nodup_of_ascending {l : List Json} (h : ∀ j ∈ l, Tame k j) (ha : Ascending l) : l.Nodup := by
  induction l with
  | nil => exact List.nodup_nil
  | cons x l ih =>
    have ha' := List.pairwise_cons.mp ha
    refine List.nodup_cons.mpr ⟨fun hx => ?_, ih (fun j hj => h j (by simp [hj])) ha'.2⟩
    have := ha'.1 x hx
    rw [(cmp_eq (h x (by simp)) (h x (by simp))).mpr rfl] at this
    cases this

theorem set_facts {all : Prop} {l : List Py} (h : ∀ v ∈ l, Exact all k v) :
    ∃ js ks, pyToJsonList l = .ok js ∧ (∀ j ∈ js, Tame k j) ∧ js.length = l.length ∧ (∀ (i : Nat) (v : Py), l[i]? = some v → ∃ j, js[i]? = some j ∧ pyToJson v = .ok j) ∧
      pyToJson (.set l) = .ok (.arr ks) ∧ Ascending ks ∧ (∀ y, y ∈ ks ↔ y ∈ js) ∧ ∀ j ∈ ks, Tame k j := by
  obtain ⟨js, h1, h2, h3, h4⟩ := list_tame h
  obtain ⟨h5, h6⟩ := build js h2 [] (by simp) List.Pairwise.nil
  refine ⟨js, _, h1, h2, h3, h4, by simp only [pyToJson]; rw [h1]; simp only [Res.bind]; rw [if_pos (ordered_tame h2)], h5, fun y => ?_, fun j hj => h2 j ?_⟩
  · rw [h6]; simp
  · have := (h6 j).mp hj; simpa using this

theorem mem_iff {l : List Py} {js : List Json} (hlen : js.length = l.length) (h : ∀ (i : Nat) (v : Py), l[i]? = some v → ∃ j, js[i]? = some j ∧ pyToJson v = .ok j) (j : Json) :
    j ∈ js ↔ ∃ v ∈ l, pyToJson v = .ok j := by
  constructor
  · intro hj
    obtain ⟨i, hi, rfl⟩ := List.mem_iff_getElem.mp hj
    obtain ⟨j', h1, h2⟩ := h i l[i] (List.getElem?_eq_getElem (hlen ▸ hi))
    rw [List.getElem?_eq_getElem hi] at h1
    exact ⟨l[i], List.getElem_mem _, by rw [h2, Option.some.inj h1]⟩
  · rintro ⟨v, hv, hvj⟩
    obtain ⟨i, hi, rfl⟩ := List.mem_iff_getElem.mp hv
    obtain ⟨j', h1, h2⟩ := h i l[i] (List.getElem?_eq_getElem hi)
    rw [hvj] at h2
    cases h2
    exact List.mem_of_getElem? h1

/-- **C157, partial.** A set without integers or without floats and NaN becomes a list, in which what each element is converted to occurs once, and nothing else. Missing: sets with NaN, with floats that are equal
to a large integer converted to a float (for other sets with both see `mixed_kept`), and that each element is there (see below). -/
theorem set_to_list_partial (l : List Py) (h : ∀ v ∈ l, Exact True k v) :
    ∃ js, pyToJson (.set l) = .ok (.arr js) ∧ js.Nodup ∧ ∀ j, j ∈ js ↔ ∃ v ∈ l, pyToJson v = .ok j := by
  obtain ⟨js, ks, h1, h2, h3, h4, h5, h6, h7, h8⟩ := set_facts h
  exact ⟨ks, h5, nodup_of_ascending h8 h6, fun j => by rw [h7, mem_iff h3 h4]⟩

/-- The list does not depend on the order in which Python walks through the set. -/
theorem same_list (l l' : List Py) (h : ∀ v ∈ l, Exact True k v) (hp : ∀ v, v ∈ l ↔ v ∈ l') : pyToJson (.set l) = pyToJson (.set l') := by
  obtain ⟨js, ks, h1, h2, h3, h4, h5, h6, h7, h8⟩ := set_facts h
  obtain ⟨js', ks', h1', h2', h3', h4', h5', h6', h7', h8'⟩ := set_facts (fun v hv => h v ((hp v).mpr hv))
  rw [h5, h5', ascending_unique h8 h8' h6 h6' fun y => by rw [h7, h7', mem_iff h3 h4, mem_iff h3' h4']; simp only [hp]]

/-- The integers of the list ascend, and so do the strings. -/
theorem list_ascends (l : List Py) (h : ∀ v ∈ l, Exact True k v) (js : List Json) (hj : pyToJson (.set l) = .ok (.arr js)) (i k : Nat) (hik : i < k) :
    (∀ m n, js[i]? = some (.int m) → js[k]? = some (.int n) → m < n) ∧ (∀ s t, js[i]? = some (.str s) → js[k]? = some (.str t) → s < t) := by
  obtain ⟨_, ks, _, _, _, _, h5, h6, _, _⟩ := set_facts h
  rw [hj] at h5
  cases h5
  have key : ∀ a b, js[i]? = some a → js[k]? = some b → compareJson a b = .lt := by
    intro a b ha hb
    obtain ⟨hi, rfl⟩ := List.getElem?_eq_some_iff.mp ha
    obtain ⟨hk, rfl⟩ := List.getElem?_eq_some_iff.mp hb
    exact List.pairwise_iff_getElem.mp h6 i k hi hk hik
  constructor
  · intro m n hm hn
    have := key _ _ hm hn
    simp only [compareJson] at this
    exact intCmp_lt.mp this
  · intro m n hm hn
    have := key _ _ hm hn
    simp only [compareJson] at this
    exact stringCmp_lt.mp this

/-- So do the floats: negative ones before others, and in the order of their bits. -/
theorem floats_ascend (l : List Py) (h : ∀ v ∈ l, Exact True .floats v) (js : List Json) (hj : pyToJson (.set l) = .ok (.arr js)) (i n : Nat) (hik : i < n) (f g : UInt64)
    (hf : js[i]? = some (.float f)) (hg : js[n]? = some (.float g)) :
    (2 ^ 63 ≤ f.toNat ∧ g.toNat < 2 ^ 63) ∨ (f.toNat < g.toNat ∧ g.toNat < 2 ^ 63) ∨ (g.toNat < f.toNat ∧ 2 ^ 63 ≤ g.toNat) := by
  obtain ⟨_, ks, _, _, _, _, h5, h6, _, h8⟩ := set_facts h
  rw [hj] at h5
  cases h5
  have tf := h8 _ (List.mem_of_getElem? hf)
  have tg := h8 _ (List.mem_of_getElem? hg)
  have hlt : compareJson (.float f) (.float g) = .lt := by
    obtain ⟨hi, e1⟩ := List.getElem?_eq_some_iff.mp hf
    obtain ⟨hk, e2⟩ := List.getElem?_eq_some_iff.mp hg
    rw [← e1, ← e2]
    exact List.pairwise_iff_getElem.mp h6 i n hi hk hik
  cases tf with
  | float _ _ h1 h2 =>
    cases tg with
    | float _ _ h3 h4 =>
      unfold NaN at h1 h3
      simp only [compareJson, doubleKey] at hlt
      rw [if_neg h1, if_neg h3] at hlt
      simp only [keyCmp, intCmp_lt] at hlt
      have b1 := f.toNat_lt
      have b2 := g.toNat_lt
      by_cases c1 : f.toNat < 2 ^ 63 <;> by_cases c2 : g.toNat < 2 ^ 63 <;> simp only [c1, c2, if_true, if_false] at hlt <;> omega

/-- Different values without bytes and other objects are converted to different values. -/
theorem injective {v : Py} (hv : Exact False k v) : ∀ {w : Py}, Exact False k w → pyToJson v = pyToJson w → v = w := by
  have tup : ∀ {l : List Py} {j : Json}, (∀ v ∈ l, Exact False k v) → pyToJson (.tuple l) = .ok j → ∃ js, j = .arr js ∧ pyToJsonList l = .ok js := by
    intro l j hl h
    obtain ⟨js, h1, _⟩ := list_tame hl
    simp only [pyToJson] at h
    rw [h1] at h
    cases h
    exact ⟨js, rfl, h1⟩
  have num : ∀ {n : Int}, Signed64 n → pyToJson (.int n) = .ok (.int n) := by
    intro n hn
    simp only [pyToJson]
    rw [if_pos (show -(2 : Int) ^ 63 ≤ n ∧ n < 2 ^ 63 from hn)]
  induction hv with
  | none =>
    intro w hw he
    cases hw with
    | none => rfl
    | int n _ hn => rw [num hn] at he; simp [pyToJson] at he
    | tuple l hl =>
      obtain ⟨j, hj, _⟩ := tame_of_exact _ (Exact.tuple l hl)
      obtain ⟨js, rfl, _⟩ := tup hl hj
      rw [hj] at he; simp [pyToJson] at he
    | bytes _ hf _ => exact hf.elim
    | other hf => exact hf.elim
    | _ => simp [pyToJson] at he
  | bool b =>
    intro w hw he
    cases hw with
    | bool c => simp [pyToJson] at he; rw [he]
    | int n _ hn => rw [num hn] at he; simp [pyToJson] at he
    | tuple l hl =>
      obtain ⟨j, hj, _⟩ := tame_of_exact _ (Exact.tuple l hl)
      obtain ⟨js, rfl, _⟩ := tup hl hj
      rw [hj] at he; simp [pyToJson] at he
    | bytes _ hf _ => exact hf.elim
    | other hf => exact hf.elim
    | _ => simp [pyToJson] at he
  | int m _ hm =>
    intro w hw he
    rw [num hm] at he
    cases hw with
    | int n _ hn => rw [num hn] at he; simp at he; rw [he]
    | tuple l hl =>
      obtain ⟨j, hj, _⟩ := tame_of_exact _ (Exact.tuple l hl)
      obtain ⟨js, rfl, _⟩ := tup hl hj
      rw [hj] at he; simp at he
    | bytes _ hf _ => exact hf.elim
    | other hf => exact hf.elim
    | _ => simp [pyToJson] at he
  | float f _ _ _ =>
    intro w hw he
    cases hw with
    | float g _ _ _ => simp [pyToJson] at he; rw [he]
    | int n _ hn => rw [num hn] at he; simp [pyToJson] at he
    | tuple l hl =>
      obtain ⟨j, hj, _⟩ := tame_of_exact _ (Exact.tuple l hl)
      obtain ⟨js, rfl, _⟩ := tup hl hj
      rw [hj] at he; simp [pyToJson] at he
    | bytes _ hf _ => exact hf.elim
    | other hf => exact hf.elim
    | _ => simp [pyToJson] at he
  | str s =>
    intro w hw he
    cases hw with
    | str t => simp [pyToJson] at he; rw [he]
    | int n _ hn => rw [num hn] at he; simp [pyToJson] at he
    | tuple l hl =>
      obtain ⟨j, hj, _⟩ := tame_of_exact _ (Exact.tuple l hl)
      obtain ⟨js, rfl, _⟩ := tup hl hj
      rw [hj] at he; simp [pyToJson] at he
    | bytes _ hf _ => exact hf.elim
    | other hf => exact hf.elim
    | _ => simp [pyToJson] at he
  | tuple l hl ih =>
    intro w hw he
    obtain ⟨j, hj, _⟩ := tame_of_exact _ (Exact.tuple l hl)
    obtain ⟨js, rfl, hjs⟩ := tup hl hj
    rw [hj] at he
    cases hw with
    | int n _ hn => rw [num hn] at he; simp at he
    | tuple m hm =>
      obtain ⟨js', e, hjs'⟩ := tup hm he.symm
      cases e
      congr 1
      clear hj he
      clear * - ih hm hjs hjs' hl
      induction l generalizing m js with
      | nil =>
        cases hjs
        obtain ⟨ks, h1, _, h3, _⟩ := list_tame hm
        rw [h1] at hjs'
        cases hjs'
        cases m with
        | nil => rfl
        | cons => simp at h3
      | cons x l ihl =>
        obtain ⟨jx, hx, _⟩ := tame_of_exact x (hl x (by simp))
        obtain ⟨ksl, hl1, _⟩ := list_tame (fun v hv => hl v (List.mem_cons_of_mem x hv))
        simp only [pyToJsonList, hx, hl1, Res.bind] at hjs
        cases hjs
        cases m with
        | nil => simp [pyToJsonList] at hjs'
        | cons y m =>
          obtain ⟨jy, hy, _⟩ := tame_of_exact y (hm y (by simp))
          obtain ⟨ksm, hm1, _⟩ := list_tame (fun v hv => hm v (List.mem_cons_of_mem y hv))
          simp only [pyToJsonList, hy, hm1, Res.bind, Res.ok.injEq, List.cons.injEq] at hjs'
          obtain ⟨rfl, rfl⟩ := hjs'
          rw [ih x (by simp) (hm y (by simp)) (by rw [hx, hy]), ihl (fun v hv => hl v (by simp [hv])) (fun v hv w hw => ih v (by simp [hv]) hw) ksm hl1 m (fun v hv => hm v (by simp [hv])) hm1]
    | bytes _ hf _ => exact hf.elim
    | other hf => exact hf.elim
    | _ => simp [pyToJson] at he
  | bytes _ hf _ => exact hf.elim
  | other hf => exact hf.elim

/-- A set of None, booleans, strings, tuples of these, and integers or floats, keeps all elements. -/
theorem all_kept (l : List Py) (h : ∀ v ∈ l, Exact False k v) (hd : l.Nodup) : ∃ js, pyToJson (.set l) = .ok (.arr js) ∧ js.length = l.length := by
  obtain ⟨js, ks, h1, h2, h3, h4, h5, h6, h7, h8⟩ := set_facts h
  refine ⟨ks, h5, ?_⟩
  have hn : js.Nodup := by
    rw [List.nodup_iff_pairwise_ne, List.pairwise_iff_getElem]
    intro i k hi hk hik e
    obtain ⟨a, ha, ha'⟩ := h4 i l[i] (List.getElem?_eq_getElem (h3 ▸ hi))
    obtain ⟨b, hb, hb'⟩ := h4 k l[k] (List.getElem?_eq_getElem (h3 ▸ hk))
    rw [List.getElem?_eq_getElem hi] at ha
    rw [List.getElem?_eq_getElem hk] at hb
    have : a = b := by rw [← Option.some.inj ha, ← Option.some.inj hb, e]
    subst this
    have e' := injective (h _ (List.getElem_mem _)) (h _ (List.getElem_mem _)) (ha'.trans hb'.symm)
    exact absurd ((List.Nodup.getElem_inj_iff hd).mp e') (by omega)
  rw [← h3]
  exact (List.perm_ext_iff_of_nodup (nodup_of_ascending h8 h6) hn |>.mpr h7).length_eq

/-- A set of two elements that are converted to the same has fewer elements in the file. -/
theorem elements_lost (l : List Py) (h : ∀ v ∈ l, Exact True k v) (i k : Nat) (hik : i < k) (v w : Py) (hv : l[i]? = some v) (hw : l[k]? = some w) (he : pyToJson v = pyToJson w) :
    ∃ js, pyToJson (.set l) = .ok (.arr js) ∧ js.length < l.length := by
  obtain ⟨js, ks, h1, h2, h3, h4, h5, h6, h7, h8⟩ := set_facts h
  refine ⟨ks, h5, ?_⟩
  have hn := nodup_of_ascending h8 h6
  have hs : ks.Subperm js := List.subperm_of_subset hn fun y hy => (h7 y).mp hy
  rw [← h3]
  refine lt_of_le_of_ne hs.length_le fun e => ?_
  have hp := hs.perm_of_length_le (by omega)
  have hjn : js.Nodup := hp.nodup_iff.mp hn
  obtain ⟨a, ha, ha'⟩ := h4 i v hv
  obtain ⟨b, hb, hb'⟩ := h4 k w hw
  rw [ha', hb'] at he
  cases he
  obtain ⟨hi, rfl⟩ := List.getElem?_eq_some_iff.mp ha
  obtain ⟨hk, e2⟩ := List.getElem?_eq_some_iff.mp hb
  exact absurd ((List.Nodup.getElem_inj_iff hjn).mp e2) (by omega)

/-- So one of bytes and the tuple of their values is lost, and so is one of None and an object of another type, such as a frozenset. -/
theorem same_conversion (b : List UInt8) : pyToJson (.bytes b) = pyToJson (.tuple (b.map fun x => .int x.toNat)) ∧ pyToJson .none = pyToJson .other := by
  refine ⟨?_, rfl⟩
  have : pyToJsonList (b.map fun x => .int x.toNat) = .ok (b.map fun x => .int x.toNat) := by
    induction b with
    | nil => rfl
    | cons x b ih =>
      have h1 : pyToJson (.int x.toNat) = .ok (.int x.toNat) := by
        have hx : -(2 : Int) ^ 63 ≤ x.toNat ∧ (x.toNat : Int) < 2 ^ 63 := by have := x.toNat_lt; constructor <;> omega
        unfold pyToJson
        rw [if_pos hx]
      rw [List.map_cons, List.map_cons, pyToJsonList, h1, ih]
      rfl
  simp only [pyToJson, this, Res.bind]

/-! ## Floats -/

theorem key_nan {f : UInt64} (h : NaN f) : doubleKey f = none := by
  unfold doubleKey
  exact if_pos h

theorem int_ok {n : Int} (hn : Signed64 n) : pyToJson (.int n) = .ok (.int n) := by
  unfold pyToJson
  exact if_pos hn

theorem intCmp_self (n : Int) : intCmp n n = .eq := intCmp_eq.mpr rfl

/-- **C157 fails:** of NaN and an integer only the one that comes first is in the list, so that one is lost, and the list depends on the order in which Python walks through the set. -/
theorem nan_loses (f : UInt64) (hf : NaN f) (n : Int) (hn : Signed64 n) :
    pyToJson (.set [.float f, .int n]) = .ok (.arr [.float f]) ∧ pyToJson (.set [.int n, .float f]) = .ok (.arr [.int n]) := by
  have hk := key_nan hf
  have e : pyToJson (.float f) = .ok (.float f) := by unfold pyToJson; rfl
  constructor <;>
    simp [pyToJson.eq_def (.set _), pyToJsonList, int_ok hn, e, Res.bind, ordered, compareJson, hk, keyCmp, intCmp_self, insertJson]

/-- A set with NaN and two integers, whatever else is in it, is undefined behaviour: these have no order. -/
theorem nan_undefined (l : List Py) (js : List Json) (hl : pyToJsonList l = .ok js) (f : UInt64) (hf : NaN f) (m n : Int) (hne : m ≠ n) (h1 : .float f ∈ js) (h2 : .int m ∈ js) (h3 : .int n ∈ js) :
    pyToJson (.set l) = .ub := by
  have hk := key_nan hf
  have ho : ordered js = false := by
    rw [← Bool.not_eq_true]
    intro ho
    simp only [ordered, List.all_eq_true] at ho
    have := ho _ h2 _ h1 _ h3
    simp only [compareJson, hk, keyCmp] at this
    simp at this
    exact hne (intCmp_eq.mp this)
  simp only [pyToJson, hl, Res.bind, ho]
  rfl

/-- The bits of the float 2^e. -/
def powerBits (e : Nat) : UInt64 := UInt64.ofNat ((e + 1023) * 2 ^ 52)

/-- An integer is lost beside a float that is not equal to it, if that is what the integer is rounded to: 2^e + 1 beside the float 2^e, for e from 53 on. -/
theorem rounded_lost (e : Nat) (h : 53 ≤ e) (h' : e ≤ 62) :
    pyToJson (.set [.float (powerBits e), .int (2 ^ e + 1)]) = .ok (.arr [.float (powerBits e)]) := by
  have : e = 53 ∨ e = 54 ∨ e = 55 ∨ e = 56 ∨ e = 57 ∨ e = 58 ∨ e = 59 ∨ e = 60 ∨ e = 61 ∨ e = 62 := by omega
  rcases this with rfl | rfl | rfl | rfl | rfl | rfl | rfl | rfl | rfl | rfl <;> rfl

/-- `f` is the float with the value `m`: 52 digits of it, with as many zeros after them as there are, and its exponent. -/
def IsFloat (f : UInt64) (m : Nat) : Prop :=
  ∃ e frac, e ≤ 52 ∧ frac < 2 ^ 52 ∧ f.toNat = (e + 1023) * 2 ^ 52 + frac ∧ 2 ^ 52 + frac = m * 2 ^ (52 - e)

theorem doubleBits_eq {m : Nat} (h0 : 0 < m) (h : m < 2 ^ 53) : doubleBits m = (m.log2 + 1022) * 2 ^ 52 + m * 2 ^ (52 - m.log2) := by
  have : m.log2 ≤ 52 := by
    have := (Nat.log2_lt (by omega)).mpr h
    omega
  unfold doubleBits
  rw [if_neg (by omega)]
  simp only
  rw [if_pos this]

theorem doubleBits_range {m : Nat} (h0 : 0 < m) (h : m < 2 ^ 53) :
    (m.log2 + 1023) * 2 ^ 52 ≤ doubleBits m ∧ doubleBits m < (m.log2 + 1024) * 2 ^ 52 := by
  have hl : m.log2 ≤ 52 := by
    have := (Nat.log2_lt (by omega)).mpr h
    omega
  rw [doubleBits_eq h0 h]
  have h1 : 2 ^ m.log2 ≤ m := Nat.log2_self_le (by omega)
  have h2 : m < 2 ^ (m.log2 + 1) := Nat.lt_log2_self
  have p : (0 : Nat) < 2 ^ (52 - m.log2) := Nat.two_pow_pos _
  have h3 : 2 ^ 52 ≤ m * 2 ^ (52 - m.log2) := by
    calc 2 ^ 52 = 2 ^ m.log2 * 2 ^ (52 - m.log2) := by rw [← pow_add]; congr 1; omega
      _ ≤ _ := Nat.mul_le_mul_right _ h1
  have h4 : m * 2 ^ (52 - m.log2) < 2 ^ 53 := by
    calc m * 2 ^ (52 - m.log2) < 2 ^ (m.log2 + 1) * 2 ^ (52 - m.log2) := Nat.mul_lt_mul_of_pos_right h2 p
      _ = 2 ^ 53 := by rw [← pow_add]; congr 1; omega
  clear h h1 h2 p
  generalize m * 2 ^ (52 - m.log2) = q at h3 h4 ⊢
  generalize m.log2 = e
  constructor
  · rw [show e + 1023 = e + 1022 + 1 from rfl, Nat.add_mul, Nat.one_mul]; exact Nat.add_le_add_left h3 _
  · rw [show e + 1024 = e + 1022 + 2 from rfl, Nat.add_mul (e + 1022) 2]; exact Nat.add_lt_add_left (lt_of_lt_of_eq h4 (by decide : (2 : Nat) ^ 53 = 2 * 2 ^ 52)) _

theorem doubleBits_mono {m n : Nat} (h0 : 0 < m) (hmn : m < n) (h : n < 2 ^ 53) : doubleBits m < doubleBits n := by
  have hm := doubleBits_range h0 (by omega)
  have hn := doubleBits_range (by omega : 0 < n) h
  rcases Nat.lt_or_ge m.log2 n.log2 with hl | hl
  · omega
  · have he : m.log2 = n.log2 := by
      refine le_antisymm ?_ hl
      by_contra hc
      have h1 := doubleBits_range h0 (by omega : m < 2 ^ 53)
      have h2 : n < 2 ^ (n.log2 + 1) := Nat.lt_log2_self
      have h3 : 2 ^ m.log2 ≤ m := Nat.log2_self_le (by omega)
      have h4 : 2 ^ (n.log2 + 1) ≤ 2 ^ m.log2 := Nat.pow_le_pow_right (by omega) (by omega)
      omega
    rw [doubleBits_eq h0 (by omega), doubleBits_eq (by omega) h, he]
    exact Nat.add_lt_add_left (Nat.mul_lt_mul_of_pos_right hmn (Nat.two_pow_pos _)) _

theorem bits_of_float {f : UInt64} {m : Nat} (h : IsFloat f m) : 0 < m ∧ m < 2 ^ 53 ∧ doubleBits m = f.toNat := by
  obtain ⟨e, frac, he, hfr, hb, hm⟩ := h
  have h0 : 0 < m := by
    rcases Nat.eq_zero_or_pos m with h | h
    · subst h; omega
    · exact h
  have p : (0 : Nat) < 2 ^ (52 - e) := Nat.two_pow_pos _
  have e1 : 2 ^ e * 2 ^ (52 - e) = 2 ^ 52 := by rw [← pow_add]; congr 1; omega
  have e2 : 2 ^ (e + 1) * 2 ^ (52 - e) = 2 ^ 53 := by rw [← pow_add]; congr 1; omega
  have hlo : 2 ^ e ≤ m := by
    by_contra hc
    have := Nat.mul_lt_mul_of_pos_right (by omega : m < 2 ^ e) p
    omega
  have hhi : m < 2 ^ (e + 1) := by
    by_contra hc
    have := Nat.mul_le_mul_right (2 ^ (52 - e)) (by omega : 2 ^ (e + 1) ≤ m)
    omega
  have hlog : m.log2 = e := (Nat.log2_eq_iff (by omega)).mpr ⟨hlo, hhi⟩
  have hlt : m < 2 ^ 53 := lt_of_lt_of_le hhi (Nat.pow_le_pow_right (by omega) (by omega))
  refine ⟨h0, hlt, ?_⟩
  rw [doubleBits_eq h0 hlt, hlog, hb, ← hm]
  clear hm hlo hhi e1 e2 p hlt hlog
  omega

theorem key_of_float {f : UInt64} {m : Nat} (h : IsFloat f m) : doubleKey f = some (doubleBits m : Int) := by
  have hb := bits_of_float h
  have hr := doubleBits_range hb.1 hb.2.1
  have hl : m.log2 ≤ 52 := by
    have := (Nat.log2_lt (by omega)).mpr hb.2.1
    omega
  have h1 : (m.log2 + 1024) * 2 ^ 52 ≤ 1076 * 2 ^ 52 := Nat.mul_le_mul_right _ (by omega)
  have h2 : f.toNat < 1076 * 2 ^ 52 := by omega
  have h3 : f.toNat % 2 ^ 63 = f.toNat := Nat.mod_eq_of_lt (by omega)
  unfold doubleKey
  simp only [h3]
  rw [if_neg (by omega), if_pos (by omega), hb.2.2]

theorem two_values {v w : Py} {a b : Json} (hv : pyToJson v = .ok a) (hw : pyToJson w = .ok b) (ha : compareJson a a = .eq) (hb : compareJson b b = .eq) (h1 : compareJson a b = .lt)
    (h2 : compareJson b a = .gt) : pyToJson (.set [v, w]) = .ok (.arr [a, b]) ∧ pyToJson (.set [w, v]) = .ok (.arr [a, b]) := by
  constructor <;>
    simp [pyToJson.eq_def (.set _), pyToJsonList, hv, hw, Res.bind, ordered, ha, hb, h1, h2, insertJson]

/-- An integer below 2^53 and a float with another whole value are both kept, the smaller one first. -/
theorem mixed_kept (f : UInt64) (m n : Nat) (hf : IsFloat f m) (hn : n < 2 ^ 53) :
    (n < m → pyToJson (.set [.int n, .float f]) = .ok (.arr [.int n, .float f]) ∧ pyToJson (.set [.float f, .int n]) = .ok (.arr [.int n, .float f])) ∧
    (m < n → pyToJson (.set [.int n, .float f]) = .ok (.arr [.float f, .int n]) ∧ pyToJson (.set [.float f, .int n]) = .ok (.arr [.float f, .int n])) := by
  have hk := key_of_float hf
  have hb := bits_of_float hf
  have hi : pyToJson (.int n) = .ok (.int n) := int_ok ⟨by omega, by omega⟩
  have e : pyToJson (.float f) = .ok (.float f) := by unfold pyToJson; rfl
  have hik : intKey n = doubleBits n := by
    unfold intKey
    rw [if_neg (by omega), Int.natAbs_natCast]
  have a1 : compareJson (.int n) (.float f) = intCmp (doubleBits n) (doubleBits m) := by simp only [compareJson, hk, hik, keyCmp]
  have a2 : compareJson (.float f) (.int n) = intCmp (doubleBits m) (doubleBits n) := by simp only [compareJson, hk, hik, keyCmp]
  have s1 : compareJson (.int n) (.int n) = .eq := by simp only [compareJson, intCmp_self]
  have s2 : compareJson (.float f) (.float f) = .eq := by simp only [compareJson, hk, keyCmp, intCmp_self]
  constructor
  · intro h
    have hlt : doubleBits n < doubleBits m := by
      rcases Nat.eq_zero_or_pos n with h0 | h0
      · subst h0
        have := doubleBits_range hb.1 hb.2.1
        have h2 : doubleBits 0 = 0 := rfl
        omega
      · exact doubleBits_mono h0 h hb.2.1
    have c1 : intCmp (doubleBits n) (doubleBits m) = .lt := intCmp_lt.mpr (by omega)
    have c2 : intCmp (doubleBits m) (doubleBits n) = .gt := intCmp_gt.mpr (by omega)
    rw [← a1] at c1
    rw [← a2] at c2
    exact two_values hi e s1 s2 c1 c2
  · intro h
    have hlt : doubleBits m < doubleBits n := doubleBits_mono hb.1 h hn
    have c1 : intCmp (doubleBits n) (doubleBits m) = .gt := intCmp_gt.mpr (by omega)
    have c2 : intCmp (doubleBits m) (doubleBits n) = .lt := intCmp_lt.mpr (by omega)
    rw [← a1] at c1
    rw [← a2] at c2
    exact (two_values e hi s2 s1 c2 c1).symm

/-! ## Examples -/

/-- A set with a None, a boolean, integers, a string and a tuple. -/
example : pyToJson (.set [.str "b", .int 7, .tuple [.int 1, .none], .none, .int (-3), .str "a", .bool true])
    = .ok (.arr [.null, .bool true, .int (-3), .int 7, .arr [.int 1, .null], .str "a", .str "b"]) := by rfl

example : ∀ v ∈ [Py.int 7, .tuple [.int 1, .none], .str "a"], Exact False .ints v := by
  simp only [List.mem_cons, List.not_mem_nil, or_false]
  rintro v (rfl | rfl | rfl)
  · exact .int 7 rfl ⟨by decide, by decide⟩
  · exact .tuple _ (by
      simp only [List.mem_cons, List.not_mem_nil, or_false]
      rintro v (rfl | rfl)
      · exact .int 1 rfl ⟨by decide, by decide⟩
      · exact .none)
  · exact .str _

/-- The bytes 1, 2 and the tuple (1, 2). -/
example : pyToJson (.set [.bytes [1, 2], .tuple [.int 1, .int 2]]) = .ok (.arr [.arr [.int 1, .int 2]]) := by rfl

/-- The floats 1.5, -2.0 and infinity. -/
example : (∀ v ∈ [Py.float 0x3FF8000000000000, .float 0xC000000000000000, .float 0x7FF0000000000000], Exact False .floats v) ∧
    pyToJson (.set [.float 0x3FF8000000000000, .float 0xC000000000000000, .float 0x7FF0000000000000]) = .ok (.arr [.float 0xC000000000000000, .float 0x3FF8000000000000, .float 0x7FF0000000000000]) := by
  refine ⟨?_, by rfl⟩
  simp only [List.mem_cons, List.not_mem_nil, or_false]
  rintro v (rfl | rfl | rfl) <;> exact .float _ rfl (by unfold NaN; decide) (by decide)

/-- The usual NaN, and the float 3. -/
example : NaN 0x7FF8000000000000 := by unfold NaN; decide
example : IsFloat 0x4008000000000000 3 := ⟨1, 2 ^ 51, by decide, by decide, by decide, by decide⟩

end Scalopus.C157
