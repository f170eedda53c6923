import Verif.Model.NativeSource
import Verif.Spec.NativeSource
import Verif.Proofs.Assoc
import Mathlib.Tactic.Linarith

/-! # Conversion, sorting and back-filling of recorded events -/

namespace Scalopus.NativeSource

open Assoc Endpoints

/-- The part of an entry that does not depend on other events. -/
def Entry.shape (e : Entry) : Spec.Shown := ⟨e.ts, e.tid, e.pid, e.name, e.ph, e.s⟩

def toItem (r : Spec.Rec) : Item := .event r.pid r.tid r.event

/-! ### Sorting -/

theorem insertByTs_perm (e : Entry) (l : List Entry) : (insertByTs e l).Perm (e :: l) := by
  induction l with
  | nil => exact .refl _
  | cons x l ih =>
    rw [insertByTs]
    split
    · exact .refl _
    · exact (ih.cons x).trans (List.Perm.swap ..)

theorem insertByTs_sorted (e : Entry) (l : List Entry) (h : l.Pairwise fun a b => a.ts ≤ b.ts) :
    (insertByTs e l).Pairwise fun a b => a.ts ≤ b.ts := by
  induction l with
  | nil => simp [insertByTs]
  | cons x l ih =>
    rw [List.pairwise_cons] at h
    rw [insertByTs]
    split
    · rename_i hlt
      rw [List.pairwise_cons]
      refine ⟨?_, List.pairwise_cons.mpr h⟩
      intro y hy
      rcases List.mem_cons.mp hy with rfl | hy
      · exact hlt.le
      · exact le_trans hlt.le (h.1 y hy)
    · rename_i hlt
      rw [List.pairwise_cons]
      refine ⟨?_, ih h.2⟩
      intro y hy
      rcases List.mem_cons.mp ((insertByTs_perm e l).mem_iff.mp hy) with rfl | hy
      · exact not_lt.mp hlt
      · exact h.1 y hy

theorem insertByTs_filter (P : Entry → Bool) (e : Entry) (l : List Entry) (hs : l.Pairwise fun a b => a.ts ≤ b.ts)
    (hP : P e = true → ∀ x ∈ l, P x = true → x.ts ≤ e.ts) :
    (insertByTs e l).filter P = l.filter P ++ [e].filter P := by
  induction l with
  | nil => simp [insertByTs]
  | cons x l ih =>
    rw [List.pairwise_cons] at hs
    rw [insertByTs]
    split
    · rename_i hlt
      cases he : P e with
      | false => simp [List.filter_cons, he]
      | true =>
        have hnone : (x :: l).filter P = [] := by
          rw [List.filter_eq_nil_iff]
          intro y hy hp
          have h1 := hP he y hy hp
          have h2 : x.ts ≤ y.ts := by
            rcases List.mem_cons.mp hy with rfl | hy
            · exact le_refl _
            · exact hs.1 y hy
          linarith
        rw [List.filter_cons, if_pos he, hnone]
        simp [he]
    · rw [List.filter_cons, List.filter_cons, ih hs.2 (fun he y hy => hP he y (by simp [hy]))]
      split <;> simp

theorem sort_acc (P : Entry → Bool) (l acc : List Entry) (hs : acc.Pairwise fun a b => a.ts ≤ b.ts)
    (hP : (acc.filter P ++ l.filter P).Pairwise fun a b => a.ts ≤ b.ts) :
    (l.foldl (fun r e => insertByTs e r) acc).filter P = acc.filter P ++ l.filter P := by
  induction l generalizing acc with
  | nil => simp
  | cons e l ih =>
    simp only [List.foldl_cons]
    have hf := insertByTs_filter P e acc hs (by
      intro he x hx hp
      have := (List.pairwise_append.mp hP).2.2 x (by simp [hx, hp]) e (by simp [he])
      exact this)
    rw [ih _ (insertByTs_sorted e acc hs) (by
      rw [hf, List.append_assoc, ← List.filter_append]
      exact hP)]
    rw [hf, List.append_assoc, ← List.filter_append]
    rfl

theorem sort_sorted_acc (l acc : List Entry) (hs : acc.Pairwise fun a b => a.ts ≤ b.ts) :
    (l.foldl (fun r e => insertByTs e r) acc).Pairwise fun a b => a.ts ≤ b.ts := by
  induction l generalizing acc with
  | nil => exact hs
  | cons e l ih => exact ih _ (insertByTs_sorted e acc hs)

theorem stableSort_sorted (l : List Entry) : (stableSort l).Pairwise fun a b => a.ts ≤ b.ts := sort_sorted_acc l [] List.Pairwise.nil

theorem sort_perm_acc (l acc : List Entry) : (l.foldl (fun r e => insertByTs e r) acc).Perm (acc ++ l) := by
  induction l generalizing acc with
  | nil => simp
  | cons e l ih =>
    refine (ih _).trans ?_
    refine ((insertByTs_perm e acc).append_right l).trans ?_
    exact List.perm_middle.symm

theorem stableSort_perm (l : List Entry) : (stableSort l).Perm l := by
  have := sort_perm_acc l []
  rwa [List.nil_append] at this

/-- Entries that are in order already stay in their order. -/
theorem stableSort_filter (P : Entry → Bool) (l : List Entry) (h : (l.filter P).Pairwise fun a b => a.ts ≤ b.ts) :
    (stableSort l).filter P = l.filter P := by
  have := sort_acc P l [] List.Pairwise.nil (by simpa using h)
  simpa [stableSort] using this

/-! ### Conversion -/

theorem lookup_assign {κ ν : Type} [BEq κ] [LawfulBEq κ] [DecidableEq κ] (m : List (κ × ν)) (k k' : κ) (v : ν) :
    (assign m k v).lookup k' = if k' = k then some v else m.lookup k' := by
  unfold assign
  rw [lookup_cons']
  by_cases h : k' = k
  · simp [h]
  · rw [if_neg h, if_neg h, lookup_filter, if_neg h]

theorem get_assign (c : Counters) (k k' : Int × String) (v : Series) :
    Counters.get (assign c k v) k' = if k' = k then v else Counters.get c k' := by
  unfold Counters.get
  rw [lookup_assign]
  split <;> rfl

/-- What converting one known event yields. -/
theorem convert_known (names : TraceMap) (c : Counters) (r : Spec.Rec) (h : Spec.Known r.event) :
    ∃ e c', convert names c (toItem r) = .ok (e, c') ∧ e.shape = Spec.shown names r ∧
      ((r.event.type ≠ 6 ∧ e.args = none ∧ c' = c) ∨
        ∃ s z, Spec.seriesOf names r.pid (Spec.shownName names r) r = some (s, z) ∧ r.event.type = 6 ∧
          e.args = some (assign (c.get (r.pid, e.name)) s z) ∧ c' = assign c (r.pid, e.name) (assign (c.get (r.pid, e.name)) s z)) := by
  obtain ⟨h1, h2⟩ := h
  obtain ⟨pid, tid, ⟨time, id, type, data⟩⟩ := r
  simp only at h1 h2 ⊢
  have htype : type = 1 ∨ type = 2 ∨ type = 3 ∨ type = 4 ∨ type = 5 ∨ type = 6 := by
    unfold Spec.phase at h1
    split at h1 <;> simp_all
  rcases htype with rfl | rfl | rfl | rfl | rfl | rfl
  · exact ⟨_, _, rfl, rfl, .inl ⟨by decide, rfl, rfl⟩⟩
  · exact ⟨_, _, rfl, rfl, .inl ⟨by decide, rfl, rfl⟩⟩
  · exact ⟨_, _, rfl, rfl, .inl ⟨by decide, rfl, rfl⟩⟩
  · exact ⟨_, _, rfl, rfl, .inl ⟨by decide, rfl, rfl⟩⟩
  · exact ⟨_, _, rfl, rfl, .inl ⟨by decide, rfl, rfl⟩⟩
  · have h2 := h2 rfl
    cases data with
    | none => simp [Spec.counterValue] at h2
    | some d =>
      cases hd : Cbor.decodeCounter d with
      | error b => simp [Spec.counterValue, hd] at h2
      | ok z =>
        let cs := ScopeNames.splitCounterSeriesName (ScopeNames.getScopeName names pid id)
        let v := assign (c.get (pid, cs.1)) cs.2 z
        refine ⟨{ ts := Double.ts time, tid := tid, pid := pid, name := cs.1, ph := "C", args := some v }, assign c (pid, cs.1) v,
          ?_, rfl, .inr ⟨cs.2, z, ?_, rfl, rfl, rfl⟩⟩
        · simp only [convert, toItem, hd]
          rfl
        · simp only [Spec.seriesOf, Spec.counterValue, hd]
          rfl

/-- The entry belongs to this counter of this process. -/
def isC (pid : Int) (name : String) (e : Entry) : Bool := e.ph = "C" ∧ e.pid = pid ∧ e.name = name

/-- The entries `es` belong to the events `l` of one counter, after the events `p`: each has the last values so far. -/
def Match : List (String × Int) → List (String × Int) → List Entry → Prop
  | _, [], es => es = []
  | p, x :: l, es => ∃ e es', es = e :: es' ∧ (∀ s, (e.args.getD []).lookup s = (p ++ [x]).reverse.lookup s) ∧ Match (p ++ [x]) l es'

theorem lastOf_snoc (p : List (String × Int)) (s' : String) (z : Int) (s : String) :
    (p ++ [(s', z)]).reverse.lookup s = if s = s' then some z else p.reverse.lookup s := by
  rw [List.reverse_append]
  simp only [List.reverse_cons, List.reverse_nil, List.nil_append, List.cons_append]
  exact lookup_cons' ..

theorem convertAll_known (names : TraceMap) (recs : List Spec.Rec) (h : ∀ r ∈ recs, Spec.Known r.event) (c : Counters) :
    ∃ es c', (∀ rest, convertAll names c (recs.map toItem ++ rest) =
        (es ++ (convertAll names c' rest).1, (convertAll names c' rest).2)) ∧
      es.map Entry.shape = recs.map (Spec.shown names) ∧
      ∀ pid name p, (∀ s, (c.get (pid, name)).lookup s = p.reverse.lookup s) →
        Match p (recs.filterMap (Spec.seriesOf names pid name)) (es.filter (isC pid name)) := by
  induction recs generalizing c with
  | nil => exact ⟨[], c, fun rest => by simp, rfl, fun pid name p _ => by simp [Match]⟩
  | cons r recs ih =>
    obtain ⟨e, c1, h1, h2, h3⟩ := convert_known names c r (h r (by simp))
    obtain ⟨es, c', h4, h5, h6⟩ := ih (fun x hx => h x (by simp [hx])) c1
    refine ⟨e :: es, c', ?_, ?_, ?_⟩
    · intro rest
      simp only [List.map_cons, List.cons_append, convertAll, h1, h4 rest]
    · simp [h2, h5]
    · intro pid name p hp
      have hsh : e.ph = (Spec.shown names r).ph ∧ e.pid = r.pid ∧ e.name = Spec.shownName names r := by
        have e1 := congrArg Spec.Shown.ph h2
        have e2 := congrArg Spec.Shown.pid h2
        have e3 := congrArg Spec.Shown.name h2
        exact ⟨e1, e2, e3⟩
      rcases h3 with ⟨h7, h8, h9⟩ | ⟨s, z, h7, h8, h9, h10⟩
      · have hnC : isC pid name e = false := by
          have : e.ph ≠ "C" := by
            rw [hsh.1]
            simp only [Spec.shown, Spec.phase]
            split <;> simp_all
          simp [isC, this]
        have hnS : Spec.seriesOf names pid name r = none := by simp [Spec.seriesOf, h7]
        rw [List.filterMap_cons_none hnS, List.filter_cons_of_neg (by simp [hnC])]
        subst h9
        exact h6 pid name p hp
      · have hph : e.ph = "C" := by rw [hsh.1]; simp [Spec.shown, Spec.phase, h8]
        by_cases hk : (r.pid : Int) = pid ∧ Spec.shownName names r = name
        · obtain ⟨rfl, rfl⟩ := hk
          have hC : isC r.pid (Spec.shownName names r) e = true := by simp [isC, hph, hsh.2.1, hsh.2.2]
          rw [List.filterMap_cons_some h7, List.filter_cons_of_pos hC]
          have hargs : ∀ s', (assign (c.get (r.pid, e.name)) s z).lookup s' = (p ++ [(s, z)]).reverse.lookup s' := by
            intro s'
            rw [lastOf_snoc, lookup_assign]
            split
            · rfl
            · rw [hsh.2.2]; exact hp s'
          refine ⟨e, _, rfl, ?_, ?_⟩
          · intro s'
            rw [h9]
            exact hargs s'
          · apply h6
            intro s'
            rw [h10, get_assign, if_pos (by rw [hsh.2.2])]
            exact hargs s'
        · have hnC : isC pid name e = false := by
            have : ¬ (e.pid = pid ∧ e.name = name) := by rw [hsh.2.1, hsh.2.2]; exact hk
            simp only [isC, decide_eq_false_iff_not]
            exact fun hc => this hc.2
          have hnS : Spec.seriesOf names pid name r = none := by
            unfold Spec.seriesOf
            rw [if_neg (fun hc => hk hc.2)]
          rw [List.filterMap_cons_none hnS, List.filter_cons_of_neg (by simp [hnC])]
          apply h6
          intro s'
          rw [h10, get_assign, if_neg (by
            rw [hsh.2.2]
            intro hc
            simp only [Prod.mk.injEq] at hc
            exact hk ⟨hc.1.symm, hc.2.symm⟩)]
          exact hp s'

/-! ### Back-filling -/

theorem backfill_shape (l : List Entry) : (backfill l).1.map Entry.shape = l.map Entry.shape := by
  induction l with
  | nil => rfl
  | cons e l ih =>
    rw [backfill]
    split
    · simp only [List.map_cons, ih]
      rfl
    · simp only [List.map_cons, ih]

/-- The loop restricted to one counter. -/
def backfillKey : List Entry → List Entry × Series
  | [] => ([], [])
  | e :: es =>
    let r := backfillKey es
    let v := insertMissing (e.args.getD []) r.2
    ({ e with args := some v } :: r.1, v)

theorem backfill_key (pid : Int) (name : String) (l : List Entry) :
    (backfill l).1.filter (isC pid name) = (backfillKey (l.filter (isC pid name))).1 ∧
    Counters.get (backfill l).2 (pid, name) = (backfillKey (l.filter (isC pid name))).2 := by
  induction l with
  | nil => exact ⟨rfl, rfl⟩
  | cons e l ih =>
    rw [backfill]
    by_cases hph : e.ph = "C"
    · rw [if_pos hph]
      by_cases hk : e.pid = pid ∧ e.name = name
      · have hC : isC pid name e = true := by simp [isC, hph, hk]
        obtain ⟨rfl, rfl⟩ := hk
        have hC' : ∀ v, isC e.pid e.name { e with args := some v } = true := fun v => by simp [isC, hph]
        simp only [List.filter_cons_of_pos hC, List.filter_cons_of_pos (hC' _), backfillKey, ih.1, ih.2, get_assign, ↓reduceIte, and_self]
      · have hC : ¬ isC pid name e = true := by simp only [isC, decide_eq_true_eq]; exact fun hc => hk hc.2
        have hC' : ∀ v, ¬ isC pid name { e with args := some v } = true := fun v => by
          simp only [isC, decide_eq_true_eq]; exact fun hc => hk hc.2
        simp only [List.filter_cons_of_neg hC, List.filter_cons_of_neg (hC' _), ih.1, true_and]
        rw [get_assign, if_neg (by
          intro hc
          simp only [Prod.mk.injEq] at hc
          exact hk ⟨hc.1.symm, hc.2.symm⟩)]
        exact ih.2
    · rw [if_neg hph]
      have hC : ¬ isC pid name e = true := by simp [isC, hph]
      simp only [List.filter_cons_of_neg hC]
      exact ih

theorem lookup_insertMissing (v l : Series) (s : String) : (insertMissing v l).lookup s = (v.lookup s).or (l.lookup s) := by
  unfold insertMissing
  rw [List.lookup_append]
  cases hv : v.lookup s with
  | some z => rfl
  | none =>
    simp only [Option.none_or]
    induction l with
    | nil => rfl
    | cons x l ih =>
      obtain ⟨k, z⟩ := x
      rw [lookup_cons', List.filter_cons]
      by_cases hs : s = k
      · subst hs
        rw [if_pos (by rw [hv]; rfl), lookup_cons', if_pos rfl, if_pos rfl]
      · rw [if_neg hs]
        split
        · rw [lookup_cons', if_neg hs, ih]
        · exact ih

/-- The value that the entry of event `x`, after the events `p` and before the events `l`, has to carry. -/
def due (p : List (String × Int)) (l : List (String × Int)) (s : String) : Option Int := (p.reverse.lookup s).or (l.lookup s)

theorem backfillKey_match (es : List Entry) (p l : List (String × Int)) (h : Match p l es) :
    (backfillKey es).1.length = l.length ∧
    (∀ s, (backfillKey es).2.lookup s = match l with | [] => none | x :: l' => due (p ++ [x]) l' s) ∧
    ∀ (i : Nat) (e : Entry), (backfillKey es).1[i]? = some e → ∀ s, (e.args.getD []).lookup s = due (p ++ l.take (i + 1)) (l.drop (i + 1)) s := by
  induction l generalizing es p with
  | nil =>
    simp only [Match] at h
    subst h
    exact ⟨rfl, fun s => rfl, fun i e he => by simp [backfillKey] at he⟩
  | cons x l ih =>
    obtain ⟨e, es', rfl, h1, h2⟩ := h
    obtain ⟨i1, i2, i3⟩ := ih es' (p ++ [x]) h2
    have hv : ∀ s, (insertMissing (e.args.getD []) (backfillKey es').2).lookup s = due (p ++ [x]) l s := by
      intro s
      rw [lookup_insertMissing, h1, i2]
      unfold due
      cases hl : (p ++ [x]).reverse.lookup s with
      | some z => rfl
      | none =>
        simp only [Option.none_or]
        cases l with
        | nil => rfl
        | cons y l =>
          obtain ⟨s', z⟩ := y
          simp only
          rw [lastOf_snoc, lookup_cons', hl]
          by_cases hs : s = s'
          · rw [if_pos hs, if_pos hs]; rfl
          · rw [if_neg hs, if_neg hs]; rfl
    refine ⟨by simp [backfillKey, i1], hv, ?_⟩
    intro i e' he' s
    cases i with
    | zero =>
      simp only [backfillKey, List.getElem?_cons_zero, Option.some.injEq] at he'
      subst he'
      simpa using hv s
    | succ i =>
      simp only [backfillKey, List.getElem?_cons_succ] at he'
      have := i3 i e' he' s
      simpa [List.append_assoc] using this

theorem lookup_find (l : List (String × Int)) (s : String) : l.lookup s = (l.find? fun x => x.1 = s).map (·.2) := by
  induction l with
  | nil => rfl
  | cons x l ih =>
    obtain ⟨k, z⟩ := x
    rw [lookup_cons', List.find?_cons]
    by_cases h : s = k
    · subst h; simp
    · rw [if_neg h, ih]
      have : decide (k = s) = false := by simpa using fun e : k = s => h e.symm
      simp only [this]

theorem due_value (l : List (String × Int)) (i : Nat) (s : String) : due (l.take (i + 1)) (l.drop (i + 1)) s = Spec.value l i s := by
  simp only [due, Spec.value, lookup_find]

/-! ### Weak guarantees for all orders -/

theorem convertAll_own (names : TraceMap) (recs : List Spec.Rec) (h : ∀ r ∈ recs, Spec.Known r.event) (c : Counters) :
    ∀ r ∈ recs, ∃ e ∈ (convertAll names c (recs.map toItem)).1, e.shape = Spec.shown names r ∧
      ∀ s z, Spec.seriesOf names r.pid (Spec.shownName names r) r = some (s, z) → (e.args.getD []).lookup s = some z := by
  induction recs generalizing c with
  | nil => intro r hr; cases hr
  | cons x recs ih =>
    obtain ⟨e, c1, h1, h2, h3⟩ := convert_known names c x (h x (by simp))
    intro r hr
    simp only [List.map_cons, convertAll, h1]
    rcases List.mem_cons.mp hr with rfl | hr
    · refine ⟨e, by simp, h2, ?_⟩
      intro s z hs
      rcases h3 with ⟨h7, _, _⟩ | ⟨s', z', h7, h8, h9, h10⟩
      · simp [Spec.seriesOf, h7] at hs
      · rw [hs] at h7
        simp only [Option.some.injEq, Prod.mk.injEq] at h7
        rw [h9, Option.getD_some, lookup_assign, if_pos h7.1, h7.2]
    · obtain ⟨e', he', hh⟩ := ih (fun y hy => h y (by simp [hy])) c1 r hr
      exact ⟨e', by simp [he'], hh⟩

theorem backfill_keeps (l : List Entry) : ∀ e ∈ l, ∃ e' ∈ (backfill l).1, e'.shape = e.shape ∧
    ∀ s z, (e.args.getD []).lookup s = some z → (e'.args.getD []).lookup s = some z := by
  induction l with
  | nil => intro e he; cases he
  | cons x l ih =>
    intro e he
    rw [backfill]
    rcases List.mem_cons.mp he with rfl | he
    · split
      · refine ⟨_, List.mem_cons_self, rfl, ?_⟩
        intro s z hz
        simp only [Option.getD_some]
        rw [lookup_insertMissing, hz]
        rfl
      · exact ⟨e, by simp, rfl, fun s z hz => hz⟩
    · obtain ⟨e', he', hh⟩ := ih e he
      refine ⟨e', ?_, hh⟩
      split <;> simp [he']

theorem match_from (p l : List (String × Int)) (es : List Entry) (h : Match p l es) :
    ∀ e ∈ es, ∀ s z, (e.args.getD []).lookup s = some z → (s, z) ∈ p ++ l := by
  induction l generalizing p es with
  | nil => simp only [Match] at h; subst h; intro e he; cases he
  | cons x l ih =>
    obtain ⟨e, es', rfl, h1, h2⟩ := h
    intro e' he' s z hz
    rcases List.mem_cons.mp he' with rfl | he'
    · rw [h1] at hz
      have := lookup_mem hz
      simp only [List.mem_reverse, List.mem_append, List.mem_singleton] at this
      rcases this with h | h
      · simp [h]
      · simp [h]
    · have := ih (p ++ [x]) es' h2 e' he' s z hz
      simpa using this

theorem backfillKey_from (L : List (String × Int)) (es : List Entry)
    (h : ∀ e ∈ es, ∀ s z, (e.args.getD []).lookup s = some z → (s, z) ∈ L) :
    (∀ s z, (backfillKey es).2.lookup s = some z → (s, z) ∈ L) ∧
    ∀ e ∈ (backfillKey es).1, ∀ s z, (e.args.getD []).lookup s = some z → (s, z) ∈ L := by
  induction es with
  | nil => exact ⟨fun s z hz => by simp [backfillKey] at hz, fun e he => by simp [backfillKey] at he⟩
  | cons e es ih =>
    obtain ⟨i1, i2⟩ := ih (fun x hx => h x (by simp [hx]))
    have hv : ∀ s z, (insertMissing (e.args.getD []) (backfillKey es).2).lookup s = some z → (s, z) ∈ L := by
      intro s z hz
      rw [lookup_insertMissing] at hz
      cases he : (e.args.getD []).lookup s with
      | some z' =>
        rw [he] at hz
        simp only [Option.some_or, Option.some.injEq] at hz
        subst hz
        exact h e (by simp) s _ he
      | none =>
        rw [he] at hz
        exact i1 s z hz
    refine ⟨hv, ?_⟩
    intro e' he'
    simp only [backfillKey] at he'
    rcases List.mem_cons.mp he' with rfl | he'
    · exact hv
    · exact i2 e' he'

end Scalopus.NativeSource
