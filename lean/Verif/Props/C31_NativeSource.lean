import Mathlib.Data.List.Perm.Basic
import Verif.Proofs.NativeSource
import Verif.Props.C30_Cbor
import Verif.Props.C64_Timestamps

/-!
# C31, C32, C33: what a finished interval returns

All statements quantify over every list of batches of any processes, threads and events, as the sender encodes them.
-/

namespace Scalopus.NativeSource

open Endpoints Cbor

/-- The data that the senders of these processes produce. -/
def encoded (batches : List (Nat × Threads)) : List Bytes := batches.map fun b => encodeBatch b.1 b.2

/-- The values fit their types. -/
def Valid (batches : List (Nat × Threads)) : Prop := ∀ b ∈ batches, b.1 < 2 ^ 31 ∧ ThreadsValid b.2

theorem items_encoded (batches : List (Nat × Threads)) (h : Valid batches) :
    (encoded batches).flatMap items = (Spec.recorded batches).map toItem := by
  induction batches with
  | nil => rfl
  | cons b bs ih =>
    have hb := h b (by simp)
    have e : items (encodeBatch b.1 b.2) = (b.2.flatMap fun x => x.2.map fun e => (⟨b.1, x.1, e⟩ : Spec.Rec)).map toItem := by
      unfold items
      rw [C30.batch_round_trip b.1 hb.1 b.2 hb.2]
      simp only [List.map_flatMap, List.map_map]
      rfl
    have := ih (fun x hx => h x (by simp [hx]))
    simp only [encoded, List.map_cons, List.flatMap_cons, Spec.recorded, List.map_append] at this ⊢
    rw [this, e]

/-- The result when no event is bad. -/
theorem finish_known (names : TraceMap) (batches : List (Nat × Threads)) (h : Valid batches)
    (hk : ∀ r ∈ Spec.recorded batches, Spec.Known r.event) :
    ∃ es, (convertAll names [] ((Spec.recorded batches).map toItem)) = (es, none) ∧
      finishInterval (some (.ok names)) (encoded batches) = .ok (backfill (stableSort es)).1 ∧
      es.map Entry.shape = (Spec.recorded batches).map (Spec.shown names) ∧
      ∀ pid name, Match [] ((Spec.recorded batches).filterMap (Spec.seriesOf names pid name)) (es.filter (isC pid name)) := by
  obtain ⟨es, c', h1, h2, h3⟩ := convertAll_known names (Spec.recorded batches) hk []
  have h1 := h1 []
  rw [List.append_nil] at h1
  simp only [convertAll, List.append_nil] at h1
  refine ⟨es, h1, ?_, h2, fun pid name => h3 pid name [] (fun s => rfl)⟩
  unfold finishInterval
  simp only [Res.bind]
  rw [items_encoded batches h, h1]

/-- An entry shows this event; a counter entry has the value of the event for the series of the event. -/
def Shows (names : TraceMap) (e : Entry) (r : Spec.Rec) : Prop :=
  e.shape = Spec.shown names r ∧ ∀ s z, Spec.seriesOf names e.pid e.name r = some (s, z) → (e.args.getD []).lookup s = some z

theorem convertAll_shows (names : TraceMap) (recs : List Spec.Rec) (h : ∀ r ∈ recs, Spec.Known r.event) (c : Counters) :
    ∃ es, convertAll names c (recs.map toItem) = (es, none) ∧ List.Forall₂ (Shows names) es recs := by
  induction recs generalizing c with
  | nil => exact ⟨[], rfl, .nil⟩
  | cons r recs ih =>
    obtain ⟨e, c1, h1, h2, h3⟩ := convert_known names c r (h r (by simp))
    obtain ⟨es, h4, h5⟩ := ih (fun x hx => h x (by simp [hx])) c1
    refine ⟨e :: es, by simp only [List.map_cons, convertAll, h1, h4], .cons ⟨h2, ?_⟩ h5⟩
    intro s z hs
    have e2 : e.pid = r.pid := congrArg Spec.Shown.pid h2
    have e3 : e.name = Spec.shownName names r := congrArg Spec.Shown.name h2
    rcases h3 with ⟨g1, _⟩ | ⟨s', z', g1, _, g2, _⟩
    · simp [Spec.seriesOf, g1] at hs
    · rw [e2, e3, g1] at hs
      simp only [Option.some.injEq, Prod.mk.injEq] at hs
      rw [g2, Option.getD_some, lookup_assign, if_pos hs.1.symm, hs.2]

theorem backfill_shows (names : TraceMap) (es : List Entry) (recs : List Spec.Rec) (h : List.Forall₂ (Shows names) es recs) :
    List.Forall₂ (Shows names) (backfill es).1 recs := by
  induction h with
  | nil => exact .nil
  | @cons e r es recs h1 _ ih =>
    rw [backfill]
    split
    · refine .cons ⟨h1.1, ?_⟩ ih
      intro s z hs
      simp only [Option.getD_some, lookup_insertMissing, h1.2 s z hs, Option.some_or]
    · exact .cons h1 ih

theorem shape_ts (e : Entry) : e.shape.ts = e.ts := rfl

end Scalopus.NativeSource

namespace Scalopus.C31

open NativeSource Endpoints Cbor

/-- **C31.** The finished interval consists of one entry for each recorded event, with the right phase, process, thread, name and timestamp; entries are ordered
    by timestamp, and those with the same timestamp keep the order of recording. -/
theorem interval_exact (names : TraceMap) (batches : List (Nat × Threads)) (h : Valid batches)
    (hk : ∀ r ∈ Spec.recorded batches, Spec.Known r.event) :
    ∃ res, finishInterval (some (.ok names)) (encoded batches) = .ok res ∧
      (res.map Entry.shape).Perm ((Spec.recorded batches).map (Spec.shown names)) ∧
      res.Pairwise (fun a b => a.ts ≤ b.ts) ∧
      ∀ t, (res.map Entry.shape).filter (fun x => x.ts = t) = ((Spec.recorded batches).map (Spec.shown names)).filter fun x => x.ts = t := by
  obtain ⟨es, _, h1, h2, _⟩ := finish_known names batches h hk
  refine ⟨_, h1, ?_, ?_, ?_⟩
  · rw [backfill_shape, ← h2]
    exact (stableSort_perm es).map _
  · have hs := stableSort_sorted es
    have key : ((backfill (stableSort es)).1.map Entry.shape).Pairwise fun a b => a.ts ≤ b.ts := by
      rw [backfill_shape, List.pairwise_map]
      exact hs
    rw [List.pairwise_map] at key
    exact key
  · intro t
    rw [backfill_shape, ← h2, List.filter_map, List.filter_map]
    congr 1
    apply stableSort_filter
    apply List.pairwise_of_forall_mem_list
    intro a ha b hb
    have ha := (List.mem_filter.mp ha).2
    have hb := (List.mem_filter.mp hb).2
    simp only [Function.comp_apply, decide_eq_true_eq, shape_ts] at ha hb
    rw [of_decide_eq_true ha, of_decide_eq_true hb]

/-- **C31, times.** If one event was recorded at an earlier time than another, by more than one part in 2^50, all its entries come before those of the other. In any case the
    entries are not ordered against the recorded times. -/
theorem interval_time_order (names : TraceMap) (batches : List (Nat × Threads)) (h : Valid batches)
    (hk : ∀ r ∈ Spec.recorded batches, Spec.Known r.event) (res : List Entry)
    (hr : finishInterval (some (.ok names)) (encoded batches) = .ok res) (i j : Nat) (a b : Entry) (hij : i < j)
    (ha : res[i]? = some a) (hb : res[j]? = some b) :
    ∃ r ∈ Spec.recorded batches, ∃ r' ∈ Spec.recorded batches, a.shape = Spec.shown names r ∧ b.shape = Spec.shown names r' ∧
      ¬ ((r'.event.time : ℚ) + r.event.time / 2 ^ 50 < r.event.time) := by
  obtain ⟨res', h1, h2, h3, _⟩ := interval_exact names batches h hk
  rw [hr] at h1
  simp only [Res.ok.injEq] at h1
  subst h1
  have ma := h2.mem_iff.mp (List.mem_map_of_mem (f := Entry.shape) (List.mem_of_getElem? ha))
  have mb := h2.mem_iff.mp (List.mem_map_of_mem (f := Entry.shape) (List.mem_of_getElem? hb))
  obtain ⟨r, hr1, hr2⟩ := List.mem_map.mp ma
  obtain ⟨r', hr1', hr2'⟩ := List.mem_map.mp mb
  refine ⟨r, hr1, r', hr1', hr2.symm, hr2'.symm, ?_⟩
  intro hlt
  have hle : a.ts ≤ b.ts := by
    have hi := (List.getElem?_eq_some_iff.mp ha)
    have hj := (List.getElem?_eq_some_iff.mp hb)
    have := List.pairwise_iff_getElem.mp h3 i j hi.1 hj.1 hij
    rw [hi.2, hj.2] at this
    exact this
  have e1 : a.ts = Double.ts r.event.time := congrArg Spec.Shown.ts hr2.symm
  have e2 : b.ts = Double.ts r'.event.time := congrArg Spec.Shown.ts hr2'.symm
  have := C64.timestamps_distinct_partial _ _ hlt
  rw [e1, e2] at hle
  exact absurd this (not_lt.mpr hle)

/-- The provider has to be alive: a source that outlives it runs into undefined behaviour. -/
theorem provider_gone (data : List Bytes) : finishInterval none data = .ub := rfl

/-- A failing query for names escapes from `finishInterval`. -/
theorem query_failure_escapes (w : String) (data : List Bytes) : finishInterval (some (.throws w)) data = .throws w := rfl

end Scalopus.C31

namespace Scalopus.C32

open NativeSource Endpoints Cbor

/-- **C32, own values.** There is one entry for each recorded event, and the entry of a counter event has the value that this event set for its series. -/
theorem own_value_kept (names : TraceMap) (batches : List (Nat × Threads)) (h : Valid batches)
    (hk : ∀ r ∈ Spec.recorded batches, Spec.Known r.event) :
    ∃ res order, finishInterval (some (.ok names)) (encoded batches) = .ok res ∧ order.Perm (Spec.recorded batches) ∧
      List.Forall₂ (fun e r => e.shape = Spec.shown names r ∧
        ∀ s z, Spec.seriesOf names e.pid e.name r = some (s, z) → (e.args.getD []).lookup s = some z) res order := by
  obtain ⟨es, h1, h2, _, _⟩ := finish_known names batches h hk
  obtain ⟨es', h3, h4⟩ := convertAll_shows names (Spec.recorded batches) hk []
  rw [h1] at h3
  simp only [Prod.mk.injEq, and_true] at h3
  subst h3
  obtain ⟨order, h5, h6⟩ := List.perm_comp_forall₂ (stableSort_perm es) h4
  exact ⟨_, order, h2, h6, backfill_shows names _ _ h5⟩

/-- **C32, isolation.** In every recording, the values that a counter entry carries were recorded by the same process for the same counter and series. -/
theorem values_of_same_counter (names : TraceMap) (batches : List (Nat × Threads)) (h : Valid batches)
    (hk : ∀ r ∈ Spec.recorded batches, Spec.Known r.event) (res : List Entry)
    (hr : finishInterval (some (.ok names)) (encoded batches) = .ok res) (e : Entry) (he : e ∈ res) (hc : e.ph = "C") (s : String) (z : Int)
    (hz : (e.args.getD []).lookup s = some z) :
    (s, z) ∈ (Spec.recorded batches).filterMap (Spec.seriesOf names e.pid e.name) := by
  obtain ⟨es, _, h1, _, h3⟩ := finish_known names batches h hk
  rw [hr] at h1
  simp only [Res.ok.injEq] at h1
  subst h1
  have hm := match_from _ _ _ (h3 e.pid e.name)
  have hm' : ∀ x ∈ (stableSort es).filter (isC e.pid e.name), ∀ s z, (x.args.getD []).lookup s = some z →
      (s, z) ∈ (Spec.recorded batches).filterMap (Spec.seriesOf names e.pid e.name) := by
    intro x hx s z hz
    have hx' : x ∈ es.filter (isC e.pid e.name) := by
      rw [List.mem_filter] at hx ⊢
      exact ⟨(stableSort_perm es).mem_iff.mp hx.1, hx.2⟩
    simpa using hm x hx' s z hz
  have := (backfillKey_from _ _ hm').2
  rw [← (backfill_key e.pid e.name (stableSort es)).1] at this
  exact this e (List.mem_filter.mpr ⟨he, by simp [isC, hc]⟩) s z hz

/-- **C32, own value.** In every recording, each counter event has an entry that carries the event's own value for its own series. -/
theorem own_value_shown (names : TraceMap) (batches : List (Nat × Threads)) (h : Valid batches)
    (hk : ∀ r ∈ Spec.recorded batches, Spec.Known r.event) (res : List Entry)
    (hr : finishInterval (some (.ok names)) (encoded batches) = .ok res) (r : Spec.Rec) (hm : r ∈ Spec.recorded batches) (s : String) (z : Int)
    (hs : Spec.seriesOf names r.pid (Spec.shownName names r) r = some (s, z)) :
    ∃ e ∈ res, e.shape = Spec.shown names r ∧ (e.args.getD []).lookup s = some z := by
  obtain ⟨es, h0, h1, _, _⟩ := finish_known names batches h hk
  rw [hr] at h1
  simp only [Res.ok.injEq] at h1
  subst h1
  obtain ⟨e, he, h2, h3⟩ := convertAll_own names _ hk [] r hm
  rw [h0] at he
  obtain ⟨e', he', h4, h5⟩ := backfill_keeps (stableSort es) e ((stableSort_perm es).mem_iff.mpr he)
  exact ⟨e', he', h4.trans h2, h5 s z (h3 s z hs)⟩

/-- What C32 demands: the entries of each counter of each process, in the order of their timestamps, carry the last value set so far of each series, or else the first one
    set later. `ordered` are the events of this counter in the order of time. -/
def CountersExact (names : TraceMap) (res : List Entry) (pid : Int) (name : String) (ordered : List (String × Int)) : Prop :=
  (res.filter (isC pid name)).length = ordered.length ∧
  ∀ (i : Nat) (e : Entry), (res.filter (isC pid name))[i]? = some e → ∀ s, (e.args.getD []).lookup s = Spec.value ordered i s

/-- **C32, partial.** For a counter whose events were recorded in the order of their time (those of one thread are), each entry carries a value for every series: the last one
    set so far, or else the first one set later. Missing: counters that several threads of a process set. -/
theorem counters_exact_partial (names : TraceMap) (batches : List (Nat × Threads)) (h : Valid batches)
    (hk : ∀ r ∈ Spec.recorded batches, Spec.Known r.event) (pid : Int) (name : String)
    (ho : ((Spec.recorded batches).filter fun r => (Spec.seriesOf names pid name r).isSome).Pairwise fun a b => a.event.time ≤ b.event.time) :
    ∃ res, finishInterval (some (.ok names)) (encoded batches) = .ok res ∧
      CountersExact names res pid name ((Spec.recorded batches).filterMap (Spec.seriesOf names pid name)) := by
  obtain ⟨es, _, h1, h2, h3⟩ := finish_known names batches h hk
  refine ⟨_, h1, ?_⟩
  have hpred : ∀ r ∈ Spec.recorded batches, (Spec.seriesOf names pid name r).isSome =
      decide ((Spec.shown names r).ph = "C" ∧ (Spec.shown names r).pid = pid ∧ (Spec.shown names r).name = name) := by
    intro r hr
    obtain ⟨k1, k2⟩ := hk r hr
    unfold Spec.seriesOf
    by_cases h6 : r.event.type = 6
    · have := k2 h6
      by_cases hp : (r.pid : Int) = pid ∧ Spec.shownName names r = name
      · rw [if_pos ⟨h6, hp⟩, Option.isSome_map, this]
        have : (Spec.shown names r).ph = "C" := by simp [Spec.shown, Spec.phase, h6]
        exact (decide_eq_true ⟨this, hp⟩).symm
      · rw [if_neg (fun c => hp c.2)]
        exact (decide_eq_false (fun c => hp c.2)).symm
    · rw [if_neg (fun c => h6 c.1)]
      have : (Spec.shown names r).ph ≠ "C" := by
        simp only [Spec.shown, Spec.phase]
        split <;> simp_all
      exact (decide_eq_false (fun c => this c.1)).symm
  have hsorted : (es.filter (isC pid name)).Pairwise fun a b => a.ts ≤ b.ts := by
    have e1 : (es.filter (isC pid name)).map Entry.shape =
        ((Spec.recorded batches).filter fun r => (Spec.seriesOf names pid name r).isSome).map (Spec.shown names) := by
      have : es.filter (isC pid name) = es.filter ((fun x : Spec.Shown => decide (x.ph = "C" ∧ x.pid = pid ∧ x.name = name)) ∘ Entry.shape) := rfl
      rw [this, ← List.filter_map, h2, List.filter_map]
      congr 1
      apply List.filter_congr
      intro r hr
      rw [hpred r hr]
      rfl
    have e2 : ((es.filter (isC pid name)).map Entry.shape).Pairwise fun a b => a.ts ≤ b.ts := by
      rw [e1, List.pairwise_map]
      exact ho.imp (fun hab => C64.timestamps_monotone _ _ hab)
    rw [List.pairwise_map] at e2
    exact e2
  have hf := stableSort_filter (isC pid name) es hsorted
  obtain ⟨b1, b2, b3⟩ := backfillKey_match _ _ _ (h3 pid name)
  unfold CountersExact
  rw [(backfill_key pid name (stableSort es)).1, hf]
  refine ⟨b1, ?_⟩
  intro i e he s
  rw [b3 i e he s, ← due_value]
  rfl

end Scalopus.C32

namespace Scalopus.NativeSource.Examples

open NativeSource Endpoints Cbor

/-- Two named counters series of process 7. -/
def names : TraceMap := [(7, [(1, "c/a"), (2, "c/b"), (3, "scope")])]

/-- Thread 1 sets series `a` at 2 ms, thread 2 series `b` at 1 ms; thread 2 also enters and leaves a scope. -/
def batches : List (Nat × Threads) :=
  [(7, [(1, [⟨2000000, 1, 6, some (encodeCounter 1)⟩]), (2, [⟨500000, 3, 1, none⟩, ⟨1000000, 2, 6, some (encodeCounter 5)⟩])]),
   (7, [(2, [⟨3000000, 3, 2, none⟩])])]

instance (e : Event) : Decidable e.Valid :=
  decidable_of_iff (e.time < 2 ^ 64 ∧ e.id < 2 ^ 32 ∧ e.type < 2 ^ 8 ∧ (e.data.all fun d => d.length < 2 ^ 64) = true) (by
    unfold Event.Valid
    cases e.data <;> simp)

theorem batches_valid : Valid batches := by
  intro b hb
  simp only [batches, List.mem_cons, List.not_mem_nil, or_false] at hb
  rcases hb with rfl | rfl <;> refine ⟨by decide, ?_⟩ <;> constructor <;> decide

theorem batches_known : ∀ r ∈ Spec.recorded batches, Spec.Known r.event := by
  unfold Spec.Known
  decide +kernel

/-- What is returned for these batches, computed. -/
theorem batches_result : finishInterval (some (.ok names)) (encoded batches) = .ok
    [{ ts := Double.ts 500000, tid := 2, pid := 7, name := "scope", ph := "B" },
     { ts := Double.ts 1000000, tid := 2, pid := 7, name := "c", ph := "C", args := some [("b", 5), ("a", 1)] },
     { ts := Double.ts 2000000, tid := 1, pid := 7, name := "c", ph := "C", args := some [("a", 1)] },
     { ts := Double.ts 3000000, tid := 2, pid := 7, name := "scope", ph := "E" }] := by
  decide +kernel

end Scalopus.NativeSource.Examples

namespace Scalopus.C31

open NativeSource.Examples

example := interval_exact names batches batches_valid batches_known

end Scalopus.C31

namespace Scalopus.C32

open NativeSource NativeSource.Examples Endpoints Cbor

example := own_value_kept names batches batches_valid batches_known

/-- **C32** in full: for every recording, the entries of each counter of each process are as demanded for its events in the order of time. -/
def AllCountersExact : Prop :=
  ∀ (names : TraceMap) (batches : List (Nat × Threads)), Valid batches → (∀ r ∈ Spec.recorded batches, Spec.Known r.event) →
  ∀ (ordered : List Spec.Rec), ordered.Perm (Spec.recorded batches) → ordered.Pairwise (fun a b => a.event.time ≤ b.event.time) →
  ∀ (pid : Int) (name : String), ∃ res, finishInterval (some (.ok names)) (encoded batches) = .ok res ∧
    CountersExact names res pid name (ordered.filterMap (Spec.seriesOf names pid name))

/-- The events of the example in the order of time. -/
def ordered : List Spec.Rec :=
  [⟨7, 2, ⟨500000, 3, 1, none⟩⟩, ⟨7, 2, ⟨1000000, 2, 6, some (encodeCounter 5)⟩⟩, ⟨7, 1, ⟨2000000, 1, 6, some (encodeCounter 1)⟩⟩,
   ⟨7, 2, ⟨3000000, 3, 2, none⟩⟩]

/-- **C32 fails** when two threads set series of the same counter: the entry of thread 1 lacks the series that thread 2 set before it. -/
theorem not_all_counters_exact : ¬ AllCountersExact := by
  intro h
  obtain ⟨res, h1, h2, h3⟩ := h names batches batches_valid batches_known ordered (by decide +kernel) (by decide +kernel) 7 "c"
  rw [batches_result] at h1
  simp only [Res.ok.injEq] at h1
  subst h1
  have := h3 1 { ts := Double.ts 2000000, tid := 1, pid := 7, name := "c", ph := "C", args := some [("a", 1)] } (by decide +kernel) "b"
  exact absurd this (by decide +kernel)

/-- The condition of `counters_exact_partial` is met by counters of one thread, here with two series. -/
example : ∃ res, finishInterval (some (.ok names)) (encoded [(7, [(1, [⟨1000, 1, 6, some (encodeCounter 1)⟩, ⟨2000, 2, 6, some (encodeCounter 5)⟩])])]) = .ok res ∧
    CountersExact names res 7 "c" [("a", 1), ("b", 5)] := by
  have := counters_exact_partial names [(7, [(1, [⟨1000, 1, 6, some (encodeCounter 1)⟩, ⟨2000, 2, 6, some (encodeCounter 5)⟩])])]
    (by
      intro b hb
      simp only [List.mem_cons, List.not_mem_nil, or_false] at hb
      subst hb
      refine ⟨by decide, ?_⟩
      constructor <;> decide)
    (by unfold Spec.Known; decide +kernel) 7 "c" (by decide +kernel)
  exact this

end Scalopus.C32

namespace Scalopus.C33

open NativeSource NativeSource.Examples Endpoints Cbor

/-- **C33** in full: a batch that cannot be decoded, at any place, loses nothing of the other batches. -/
def BadBatchHarmless : Prop :=
  ∀ (names : TraceMap) (before after : List (Nat × Threads)) (bad : Bytes), Valid before → Valid after →
  (∀ r ∈ Spec.recorded before ++ Spec.recorded after, Spec.Known r.event) → (∃ e, decodeBatch bad = .error e) →
  ∃ res, finishInterval (some (.ok names)) (encoded before ++ bad :: encoded after) = .ok res ∧
    ∀ r ∈ Spec.recorded before ++ Spec.recorded after, Spec.shown names r ∈ res.map Entry.shape

/-- **C33 fails**: an empty batch that arrives first hides everything. -/
theorem bad_batch_hides_others : ¬ BadBatchHarmless := by
  intro h
  obtain ⟨res, h1, h2⟩ := h names [] batches [] (fun b hb => by cases hb) batches_valid batches_known ⟨_, rfl⟩
  have e : finishInterval (some (.ok names)) (encoded [] ++ [] :: encoded batches) = .ok [] := by decide +kernel
  rw [e] at h1
  simp only [Res.ok.injEq] at h1
  subst h1
  have := h2 ⟨7, 2, ⟨500000, 3, 1, none⟩⟩ (by decide +kernel)
  cases this

/-- Likewise an event of an unknown kind, which a newer library may send. -/
theorem unknown_kind_hides_others :
    finishInterval (some (.ok names)) (encoded ((8, [(1, [⟨1, 1, 9, none⟩])]) :: batches)) = .ok [] := by decide +kernel

/-- **C33, partial.** The batches that arrived before the bad one are returned as if the bad one and everything after it had not arrived. Missing: what arrived later. -/
theorem earlier_batches_kept_partial (names : TraceMap) (before : List (Nat × Threads)) (hv : Valid before)
    (hk : ∀ r ∈ Spec.recorded before, Spec.Known r.event) (bad : Bytes) (hb : ∃ e, decodeBatch bad = .error e) (after : List Bytes) :
    finishInterval (some (.ok names)) (encoded before ++ bad :: after) = finishInterval (some (.ok names)) (encoded before) := by
  obtain ⟨e, he⟩ := hb
  obtain ⟨es, c', h1, _, _⟩ := convertAll_known names (Spec.recorded before) hk []
  have hi : (encoded before ++ bad :: after).flatMap items = (Spec.recorded before).map toItem ++ .bad :: after.flatMap items := by
    rw [List.flatMap_append, items_encoded before hv, List.flatMap_cons]
    have : items bad = [.bad] := by unfold items; rw [he]
    rw [this]
    rfl
  have h2 := h1 (.bad :: after.flatMap items)
  have h3 := h1 []
  unfold finishInterval
  simp only [Res.bind]
  rw [hi, h2, items_encoded before hv]
  rw [List.append_nil] at h3
  rw [h3]
  simp only [convertAll, convert, List.append_nil]

example := earlier_batches_kept_partial names batches batches_valid batches_known [] ⟨_, rfl⟩ [[1]]

/-- A counter event without a value, which another process may send, makes the consumer use a null pointer: undefined behaviour. -/
theorem counter_without_value_undefined (names : TraceMap) (before : List (Nat × Threads)) (hv : Valid before)
    (hk : ∀ r ∈ Spec.recorded before, Spec.Known r.event) (pid tid time id : Nat) (hp : pid < 2 ^ 31)
    (ht : tid < 2 ^ 64) (hm : time < 2 ^ 64) (hi : id < 2 ^ 32) (after : List Bytes) :
    finishInterval (some (.ok names)) (encoded before ++ encodeBatch pid [(tid, [⟨time, id, 6, none⟩])] :: after) = .ub := by
  obtain ⟨es, c', h1, _, _⟩ := convertAll_known names (Spec.recorded before) hk []
  have hval : ThreadsValid [(tid, [⟨time, id, 6, none⟩])] := by
    constructor
    · simp
    · simpa using ht
    · simp
    · simp
    · simp only [List.mem_singleton, forall_eq, Event.Valid]
      exact ⟨hm, hi, by decide, fun d hd => by cases hd⟩
  have e : (encoded before ++ encodeBatch pid [(tid, [⟨time, id, 6, none⟩])] :: after).flatMap items =
      (Spec.recorded before).map toItem ++ .event pid tid ⟨time, id, 6, none⟩ :: after.flatMap items := by
    rw [List.flatMap_append, items_encoded before hv, List.flatMap_cons]
    have : items (encodeBatch pid [(tid, [⟨time, id, 6, none⟩])]) = [.event pid tid ⟨time, id, 6, none⟩] := by
      unfold items
      rw [C30.batch_round_trip pid hp _ hval]
      rfl
    rw [this]
    rfl
  unfold finishInterval
  simp only [Res.bind]
  rw [e, h1]
  simp [convertAll, convert]

end Scalopus.C33
