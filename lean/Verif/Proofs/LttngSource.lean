import Verif.Model.LttngSource
import Verif.Spec.LttngSource
import Verif.Proofs.NativeSource
import Verif.Props.C50_Ctf
import Verif.Props.C31_NativeSource

/-! # Conversion of LTTng events -/

namespace Scalopus.LttngSource

open Assoc Endpoints
open Ctf (Event)
open NativeSource (Entry Series assign insertMissing stableSort Match backfillKey lookup_assign lastOf_snoc)
open Spec

/-! ### The lines -/

theorem dec_length (n k : Nat) (h : n < 10 ^ (k + 1)) : (Ctf.Spec.dec n).length ≤ k + 1 := by
  unfold Ctf.Spec.dec
  rw [List.length_map]
  induction k generalizing n with
  | zero =>
    rw [zero_add, pow_one] at h
    unfold Ctf.Spec.decimal
    rw [if_pos h]
    simp
  | succ k ih =>
    unfold Ctf.Spec.decimal
    split
    · simp
    · have := ih (n / 10) (by rw [pow_succ] at h; omega)
      simp only [List.length_append, List.length_cons, List.length_nil]
      omega

theorem int_length (z : Int) (h1 : -2 ^ 63 ≤ z) (h2 : z < 2 ^ 64) : (Ctf.Spec.Value.int z).text.length ≤ 21 := by
  have h20 : (10 : ℕ) ^ (19 + 1) = 100000000000000000000 := by norm_num
  have := dec_length z.natAbs 19 (by rw [h20]; omega)
  simp only [Ctf.Spec.Value.text]
  split
  · simp only [List.length_cons]; omega
  · omega

theorem kind_name (k : Kind) : ' ' ∉ k.name ∧ k.name.length ≤ 50 := by
  match k with
  | .entry => exact (by decide : ' ' ∉ "scope_entry".toList ∧ "scope_entry".toList.length ≤ 50)
  | .exit => exact (by decide : ' ' ∉ "scope_exit".toList ∧ "scope_exit".toList.length ≤ 50)
  | .markGlobal => exact (by decide : ' ' ∉ "mark_event_global".toList ∧ "mark_event_global".toList.length ≤ 50)
  | .markProcess => exact (by decide : ' ' ∉ "mark_event_process".toList ∧ "mark_event_process".toList.length ≤ 50)
  | .markThread => exact (by decide : ' ' ∉ "mark_event_thread".toList ∧ "mark_event_thread".toList.length ≤ 50)
  | .count _ => exact (by decide : ' ' ∉ "count_event".toList ∧ "count_event".toList.length ≤ 50)

theorem kind_ph (k : Kind) : k.phase.1 ≠ "" := by
  cases k <;> simp only [Kind.phase] <;> decide

theorem field_int (k : Ctf.Text) (z : Int) (hk : k ≠ [] ∧ ' ' ∉ k ∧ ',' ∉ k ∧ '}' ∉ k) (h1 : -2 ^ 63 ≤ z) (h2 : z < 2 ^ 64) : (Ctf.Spec.Field.mk k (.int z)).Valid :=
  ⟨hk.1, hk.2.1, hk.2.2.1, hk.2.2.2, h1, h2⟩

theorem line_valid {m : Traced} (h : m.Valid) : m.line.Valid := by
  have h2 := h.cpu
  have h3 := h.pid
  have h4 := h.tid
  have h5 := h.id
  have l1 := int_length m.cpu (by omega) (by omega)
  have l2 := int_length m.pid (by omega) (by omega)
  have l3 := int_length m.tid (by omega) (by omega)
  have l4 := int_length m.id (by omega) (by omega)
  have h20 : (10 : ℕ) ^ (19 + 1) = 100000000000000000000 := by norm_num
  have l5 := dec_length m.secs 19 (by rw [h20]; have := h.secs; omega)
  refine ⟨h.secs, h.nanos, h.host.1, (show ' ' ∉ "scalopus_scope_id".toList ∧ ':' ∉ "scalopus_scope_id".toList by decide), (kind_name m.kind).1, ?_, ?_, ?_⟩
  · intro f hf
    simp only [Traced.line, List.cons_append, List.nil_append, List.mem_cons] at hf
    rcases hf with rfl | rfl | rfl | rfl | hf
    · exact field_int _ _ (by decide) (by omega) (by omega)
    · exact field_int _ _ (by decide) (by omega) (by omega)
    · exact field_int _ _ (by decide) (by omega) (by omega)
    · exact field_int _ _ (by decide) (by omega) (by omega)
    · cases hk : m.kind <;> rw [hk] at hf <;> simp only [List.not_mem_nil, List.mem_singleton] at hf
      subst hf
      have := h.value _ hk
      exact field_int _ _ (by decide) (by omega) (by omega)
  · refine ⟨by simp [Traced.line], by simp [Traced.line], ?_⟩
    unfold Traced.line
    cases m.kind <;> simp
  · have hl := h.host.2
    have hd : (Ctf.Spec.braces m.line.data).length ≤ 100 := by
      unfold Traced.line
      cases hk : m.kind with
      | count z =>
        have := int_length z (by have := h.value z hk; omega) (by have := h.value z hk; omega)
        simp [Ctf.Spec.braces, Ctf.Spec.body, Ctf.Spec.Field.text]
        omega
      | _ =>
        simp [Ctf.Spec.braces, Ctf.Spec.body, Ctf.Spec.Field.text]
        omega
    have hs : (Ctf.Spec.braces m.line.stream).length ≤ 100 := by
      simp [Traced.line, Ctf.Spec.braces, Ctf.Spec.body, Ctf.Spec.Field.text]
      omega
    have hc : (Ctf.Spec.braces m.line.context).length ≤ 200 := by
      simp [Traced.line, Ctf.Spec.braces, Ctf.Spec.body, Ctf.Spec.Field.text]
      omega
    have ht : m.line.timeText.length ≤ 50 := by
      have : m.line.timeText.length = (Ctf.Spec.dec m.secs).length + 10 := by
        simp [Ctf.Spec.Line.timeText, Traced.line, Ctf.padded_length]
      omega
    have hn : m.line.name.length ≤ 50 := (kind_name m.kind).2
    have hdm : m.line.domain.length ≤ 50 := show "scalopus_scope_id".toList.length ≤ 50 by decide
    have hh : m.line.host.length = m.host.length := rfl
    have hnl : (if m.line.newline then ['\n'] else []).length ≤ 1 := by split <;> simp
    unfold Ctf.Spec.Line.text
    simp only [List.length_append, List.length_cons, List.length_nil]
    omega

/-! ### Conversion -/

theorem get_assign (c : Counters) (k k' : String) (v : Series) : Counters.get (assign c k v) k' = if k' = k then v else Counters.get c k' := by
  unfold Counters.get
  rw [lookup_assign]
  split <;> rfl

theorem toInt_small {n : Nat} (h : n < 2 ^ 31) : toInt n = n := by
  unfold toInt
  rw [Nat.mod_eq_of_lt (by omega), if_pos h]

theorem toInt64_cast {z : Int} {n : Nat} (h : -2 ^ 63 ≤ z ∧ z < 2 ^ 63) (hn : (n : Int) = z % 2 ^ 64) : toInt64 n = z := by
  unfold toInt64
  have : n % 2 ^ 64 = n := Nat.mod_eq_of_lt (by omega)
  rw [this]
  split <;> omega

theorem micros_time (secs nanos : Nat) : micros (Double.nearest (secs + nanos / 10 ^ 9)) = Double.nearest (Double.nearest (secs + nanos / 10 ^ 9) * 10 ^ 6) := by
  have h : (0 : ℚ) ≤ Double.nearest (secs + nanos / 10 ^ 9) := Double.nearest_nonneg (by positivity)
  unfold micros
  rw [if_neg (not_lt.mpr h)]

/-- The event that the parser makes of a line. -/
theorem parsed_line {keyFirst : Bool} {l : Ctf.Spec.Line} {e : Event} (hv : l.Valid) (hp : Ctf.parse keyFirst l.text = .ok e) : C50.Faithful keyFirst l e := by
  obtain ⟨e', h1, h2⟩ := C50.lines_parsed_partial keyFirst l hv
  rw [h1] at hp
  cases hp
  exact h2

theorem convert_other (names : TraceMap) (c : Counters) {keyFirst : Bool} {l : Ctf.Spec.Line} {e : Event} (hd : l.domain ≠ "scalopus_scope_id".toList)
    (h : C50.Faithful keyFirst l e) : convert names c e = .ok (none, c) := by
  unfold convert
  rw [h.time]
  simp only
  rw [if_neg (by rw [h.domain]; exact hd)]

/-- What converting one event yields. -/
theorem convert_traced (names : TraceMap) (c : Counters) {keyFirst : Bool} {m : Traced} {e : Event} (hm : m.Valid) (h : C50.Faithful keyFirst m.line e) :
    ∃ x c', convert names c e = .ok (some x, c') ∧ x.shape = shown names m ∧
      ((∀ n, seriesOf names n m = none) ∧ x.ph ≠ "C" ∧ c' = c ∨
        ∃ s z, seriesOf names x.name m = some (s, z) ∧ x.ph = "C" ∧ x.args = some (assign (c.get x.name) s z) ∧ c' = assign c x.name (assign (c.get x.name) s z)) := by
  have hvpid : e.context.lookup "vpid".toList = some m.pid := (h.context _ _).mpr ⟨⟨"vpid".toList, .int m.pid⟩, by simp [Traced.line], rfl, by
    have := hm.pid; show (m.pid : Int) = (m.pid : Int) % 2 ^ 64; omega⟩
  have htid : e.context.lookup "pthread_id".toList = some m.tid := (h.context _ _).mpr ⟨⟨"pthread_id".toList, .int m.tid⟩, by simp [Traced.line], rfl, by
    have := hm.tid; show (m.tid : Int) = (m.tid : Int) % 2 ^ 64; omega⟩
  have hid : e.data.lookup "id".toList = some m.id := (h.data _ _).mpr ⟨⟨"id".toList, .int m.id⟩, by simp [Traced.line], rfl, by
    have := hm.id; show (m.id : Int) = (m.id : Int) % 2 ^ 64; omega⟩
  have hidm : m.id % 2 ^ 32 = m.id := Nat.mod_eq_of_lt hm.id
  have hn : ScopeNames.getScopeName names (toInt m.pid) m.id = scopeName names m := by rw [toInt_small hm.pid]; rfl
  have hname : e.name = m.kind.name := h.name
  unfold convert
  rw [h.time]
  simp only
  rw [if_pos (show e.domain = "scalopus_scope_id".toList from h.domain)]
  simp only [find, hvpid, htid, hid, Res.bind, Option.getD_some, hidm, hn, hname]
  have hts : micros (Double.nearest (m.line.secs + m.line.nanos / 10 ^ 9)) = m.ts := micros_time _ _
  rw [hts]
  cases hk : m.kind with
  | count z =>
    have hval : ∃ n, e.data.lookup "value".toList = some n ∧ (n : Int) = z % 2 ^ 64 := by
      refine ⟨(z % 2 ^ 64).toNat, (h.data _ _).mpr ⟨⟨"value".toList, .int z⟩, by simp [Traced.line, hk], rfl, ?_⟩, ?_⟩
      · show ((z % 2 ^ 64).toNat : Int) = z % 2 ^ 64; omega
      · omega
    obtain ⟨n, hn1, hn2⟩ := hval
    rw [if_pos (show (Kind.count z).name = "count_event".toList from rfl), hn1]
    simp only [toInt64_cast (hm.value z hk) hn2]
    refine ⟨_, _, rfl, ?_, .inr ⟨(ScopeNames.splitCounterSeriesName (scopeName names m)).2, z, ?_, rfl, rfl, rfl⟩⟩
    · simp only [Entry.shape, shown, shownName, hk]
      rfl
    · simp only [seriesOf, shownName, hk]
      rw [if_pos trivial]
  | entry =>
    rw [if_neg (by decide)]
    refine ⟨_, _, rfl, ?_, .inl ⟨fun n => by simp [seriesOf, hk], by simp only; decide +kernel, rfl⟩⟩
    simp only [Entry.shape, shown, shownName, hk]
    rfl
  | exit =>
    rw [if_neg (by decide)]
    refine ⟨_, _, rfl, ?_, .inl ⟨fun n => by simp [seriesOf, hk], by simp only; decide +kernel, rfl⟩⟩
    simp only [Entry.shape, shown, shownName, hk]
    rfl
  | markGlobal =>
    rw [if_neg (by decide)]
    refine ⟨_, _, rfl, ?_, .inl ⟨fun n => by simp [seriesOf, hk], by simp only; decide +kernel, rfl⟩⟩
    simp only [Entry.shape, shown, shownName, hk]
    rfl
  | markProcess =>
    rw [if_neg (by decide)]
    refine ⟨_, _, rfl, ?_, .inl ⟨fun n => by simp [seriesOf, hk], by simp only; decide +kernel, rfl⟩⟩
    simp only [Entry.shape, shown, shownName, hk]
    rfl
  | markThread =>
    rw [if_neg (by decide)]
    refine ⟨_, _, rfl, ?_, .inl ⟨fun n => by simp [seriesOf, hk], by simp only; decide +kernel, rfl⟩⟩
    simp only [Entry.shape, shown, shownName, hk]
    rfl

/-- The entry belongs to this counter. -/
def isC (name : String) (e : Entry) : Bool := e.ph = "C" ∧ e.name = name

theorem convertAll_inputs (names : TraceMap) {keyFirst : Bool} {inputs : List Input} {events : List Event} (hv : ∀ i ∈ inputs, i.Valid)
    (hp : List.Forall₂ (fun i e => Ctf.parse keyFirst i.text = .ok e) inputs events) (c : Counters) :
    ∃ es, convertAll names c events = .ok es ∧ es.map Entry.shape = (tracedOf inputs).map (shown names) ∧
      ∀ name p, (∀ s, (c.get name).lookup s = p.reverse.lookup s) → Match p ((tracedOf inputs).filterMap (seriesOf names name)) (es.filter (isC name)) := by
  induction hp generalizing c with
  | nil => exact ⟨[], rfl, rfl, fun name p _ => by simp [Match, tracedOf]⟩
  | @cons i e inputs events h1 _ ih =>
    have hvi := hv i (by simp)
    cases i with
    | other l =>
      have hpe := parsed_line hvi.1 h1
      obtain ⟨es, h4, h5, h6⟩ := ih (fun x hx => hv x (by simp [hx])) c
      refine ⟨es, ?_, h5, h6⟩
      simp only [convertAll]
      rw [convert_other names c hvi.2 hpe]
      simp only [Res.bind, h4]
      rfl
    | traced m =>
      have hpe := parsed_line (line_valid hvi) h1
      obtain ⟨x, c1, k1, k2, k3⟩ := convert_traced names c hvi hpe
      obtain ⟨es, h4, h5, h6⟩ := ih (fun x hx => hv x (by simp [hx])) c1
      have ht : tracedOf (.traced m :: inputs) = m :: tracedOf inputs := rfl
      refine ⟨x :: es, ?_, ?_, ?_⟩
      · simp only [convertAll, k1, Res.bind, h4]
        rfl
      · rw [ht, List.map_cons, List.map_cons, k2, h5]
      · intro name p hp
        rw [ht]
        rcases k3 with ⟨h7, h8, h9⟩ | ⟨s, z, h7, h8, h9, h10⟩
        · rw [List.filterMap_cons_none (h7 name), List.filter_cons_of_neg (by simp [isC, h8])]
          subst h9
          exact h6 name p hp
        · by_cases hk : x.name = name
          · subst hk
            rw [List.filterMap_cons_some h7, List.filter_cons_of_pos (by simp [isC, h8])]
            have hargs : ∀ s', (assign (c.get x.name) s z).lookup s' = (p ++ [(s, z)]).reverse.lookup s' := by
              intro s'
              rw [lastOf_snoc, lookup_assign]
              split
              · rfl
              · exact hp s'
            refine ⟨x, _, rfl, ?_, ?_⟩
            · intro s'
              rw [h9]
              exact hargs s'
            · apply h6
              intro s'
              rw [h10, get_assign, if_pos rfl]
              exact hargs s'
          · have hnS : seriesOf names name m = none := by
              unfold seriesOf at h7 ⊢
              cases hkind : m.kind <;> rw [hkind] at h7 <;> simp only [reduceCtorEq] at h7 ⊢
              rename_i z'
              by_cases hs : shownName names m = x.name
              · rw [if_neg (by rw [hs]; exact hk)]
              · rw [if_neg hs] at h7
                cases h7
            rw [List.filterMap_cons_none hnS, List.filter_cons_of_neg (by simp [isC, hk])]
            apply h6
            intro s'
            rw [h10, get_assign, if_neg (fun hc => hk hc.symm)]
            exact hp s'

/-! ### Back-filling -/

theorem backfill_ok (l : List Entry) (h : ∀ e ∈ l, e.ph ≠ "") :
    ∃ r, backfill l = .ok r ∧ r.1.map Entry.shape = l.map Entry.shape ∧
      ∀ name, r.1.filter (isC name) = (backfillKey (l.filter (isC name))).1 ∧ Counters.get r.2 name = (backfillKey (l.filter (isC name))).2 := by
  induction l with
  | nil => exact ⟨([], []), rfl, rfl, fun name => ⟨rfl, rfl⟩⟩
  | cons e l ih =>
    obtain ⟨r, h1, h2, h3⟩ := ih (fun x hx => h x (by simp [hx]))
    simp only [backfill, h1, Res.bind]
    rw [if_neg (h e (by simp))]
    by_cases hph : e.ph = "C"
    · rw [if_pos hph]
      refine ⟨_, rfl, ?_, ?_⟩
      · simp only [List.map_cons, h2]
        rfl
      · intro name
        by_cases hk : e.name = name
        · subst hk
          have hC : isC e.name e = true := by simp [isC, hph]
          have hC' : ∀ v, isC e.name { e with args := some v } = true := fun v => by simp [isC, hph]
          simp only [List.filter_cons_of_pos hC, List.filter_cons_of_pos (hC' _), backfillKey, (h3 e.name).1, (h3 e.name).2, get_assign, ↓reduceIte, and_self]
        · have hC : ¬ isC name e = true := by simp [isC, hk]
          have hC' : ∀ v, ¬ isC name { e with args := some v } = true := fun v => by simp [isC, hk]
          simp only [List.filter_cons_of_neg hC, List.filter_cons_of_neg (hC' _), (h3 name).1, true_and]
          rw [get_assign, if_neg (fun hc => hk hc.symm)]
          exact (h3 name).2
    · rw [if_neg hph]
      refine ⟨_, rfl, by simp only [List.map_cons, h2], ?_⟩
      intro name
      have hC : ¬ isC name e = true := by simp [isC, hph]
      simp only [List.filter_cons_of_neg hC]
      exact h3 name

/-- The result for what babeltrace prints. -/
theorem finish_inputs (names : TraceMap) {keyFirst : Bool} {inputs : List Input} {events : List Event} (hv : ∀ i ∈ inputs, i.Valid)
    (hp : List.Forall₂ (fun i e => Ctf.parse keyFirst i.text = .ok e) inputs events) :
    ∃ es res, es.map Entry.shape = (tracedOf inputs).map (shown names) ∧ finishInterval (.ok names) events = .ok res ∧
      res.map Entry.shape = (stableSort es).map Entry.shape ∧
      (∀ name, res.filter (isC name) = (backfillKey ((stableSort es).filter (isC name))).1) ∧
      ∀ name, Match [] ((tracedOf inputs).filterMap (seriesOf names name)) (es.filter (isC name)) := by
  obtain ⟨es, h1, h2, h3⟩ := convertAll_inputs names hv hp []
  have hph : ∀ e ∈ stableSort es, e.ph ≠ "" := by
    intro e he
    have he := (NativeSource.stableSort_perm es).mem_iff.mp he
    have := List.mem_map_of_mem (f := Entry.shape) he
    rw [h2] at this
    obtain ⟨m, _, hm⟩ := List.mem_map.mp this
    have hph : (shown names m).ph = e.ph := congrArg NativeSource.Spec.Shown.ph hm
    rw [← hph]
    exact kind_ph m.kind
  obtain ⟨r, b1, b2, b3⟩ := backfill_ok _ hph
  refine ⟨es, r.1, h2, ?_, b2, fun name => (b3 name).1, fun name => h3 name [] (fun s => rfl)⟩
  unfold finishInterval
  by_cases hn : events = []
  · subst hn
    rw [if_pos rfl]
    simp only [convertAll] at h1
    cases h1
    have : stableSort ([] : List Entry) = [] := rfl
    rw [this] at b1
    simp only [backfill] at b1
    cases b1
    rfl
  · rw [if_neg hn]
    simp only [Res.bind, h1, b1]

end Scalopus.LttngSource
