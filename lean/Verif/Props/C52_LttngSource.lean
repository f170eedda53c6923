import Verif.Proofs.LttngSource

/-!
# C52, C68: what a finished LTTng interval returns

All statements quantify over everything that babeltrace prints: any events of this library, by any processes and threads, mixed with events of other tracepoints.
-/

namespace Scalopus.LttngSource

open Endpoints Spec
open Ctf (Event)
open NativeSource (Entry)

/-- The events are what the parser makes of the lines. -/
def Parsed (keyFirst : Bool) (inputs : List Input) (events : List Event) : Prop := List.Forall₂ (fun i e => Ctf.parse keyFirst i.text = .ok e) inputs events

/-- The events that the parser makes of these lines exist. -/
theorem parsed_exists (keyFirst : Bool) (inputs : List Input) (hv : ∀ i ∈ inputs, i.Valid) : ∃ events, Parsed keyFirst inputs events := by
  induction inputs with
  | nil => exact ⟨[], .nil⟩
  | cons i inputs ih =>
    obtain ⟨es, hes⟩ := ih (fun x hx => hv x (by simp [hx]))
    have hi := hv i (by simp)
    cases i with
    | traced m =>
      obtain ⟨e, h1, _⟩ := C50.lines_parsed_partial keyFirst m.line (line_valid hi)
      exact ⟨e :: es, .cons h1 hes⟩
    | other l =>
      obtain ⟨e, h1, _⟩ := C50.lines_parsed_partial keyFirst l hi.1
      exact ⟨e :: es, .cons h1 hes⟩

end Scalopus.LttngSource

namespace Scalopus.C68

open LttngSource LttngSource.Spec Endpoints
open Ctf (Event)
open NativeSource (Entry stableSort)

/-- **C68.** The finished interval consists of one entry for each event of this library that babeltrace printed, with the right phase, process, thread, name and timestamp; entries
    are ordered by timestamp, and those with the same timestamp keep the order in which they were printed. -/
theorem interval_exact (names : TraceMap) (keyFirst : Bool) (inputs : List Input) (events : List Event) (hv : ∀ i ∈ inputs, i.Valid) (hp : Parsed keyFirst inputs events) :
    ∃ res, finishInterval (.ok names) events = .ok res ∧
      (res.map Entry.shape).Perm ((tracedOf inputs).map (shown names)) ∧
      res.Pairwise (fun a b => a.ts ≤ b.ts) ∧
      ∀ t, (res.map Entry.shape).filter (fun x => x.ts = t) = ((tracedOf inputs).map (shown names)).filter fun x => x.ts = t := by
  obtain ⟨es, res, h1, h2, h3, _, _⟩ := finish_inputs names hv hp
  refine ⟨res, h2, ?_, ?_, ?_⟩
  · rw [h3, ← h1]
    exact (NativeSource.stableSort_perm es).map _
  · have key : (res.map Entry.shape).Pairwise fun a b => a.ts ≤ b.ts := by
      rw [h3, List.pairwise_map]
      exact NativeSource.stableSort_sorted es
    rw [List.pairwise_map] at key
    exact key
  · intro t
    rw [h3, ← h1, List.filter_map, List.filter_map]
    congr 1
    apply NativeSource.stableSort_filter
    apply List.pairwise_of_forall_mem_list
    intro a ha b hb
    have ha := (List.mem_filter.mp ha).2
    have hb := (List.mem_filter.mp hb).2
    simp only [Function.comp_apply, decide_eq_true_eq, NativeSource.shape_ts] at ha hb
    rw [of_decide_eq_true ha, of_decide_eq_true hb]

/-- **C68, times.** The timestamps do not contradict the order of the printed times. -/
theorem timestamps_monotone (m m' : Traced) (h : m.secs * 10 ^ 9 + m.nanos ≤ m'.secs * 10 ^ 9 + m'.nanos) : m.ts ≤ m'.ts := by
  have hq : (m.secs : ℚ) + m.nanos / 10 ^ 9 ≤ m'.secs + m'.nanos / 10 ^ 9 := by
    have : (m.secs : ℚ) * 10 ^ 9 + m.nanos ≤ m'.secs * 10 ^ 9 + m'.nanos := by exact_mod_cast h
    have e : ∀ a b : ℚ, a + b / 10 ^ 9 = (a * 10 ^ 9 + b) / 10 ^ 9 := by intro a b; field_simp
    rw [e, e]
    exact div_le_div_of_nonneg_right this (by norm_num)
  have h1 := Double.nearest_mono (x := (m.secs : ℚ) + m.nanos / 10 ^ 9) (by positivity) hq
  have h0 := Double.nearest_nonneg (x := (m.secs : ℚ) + m.nanos / 10 ^ 9) (by positivity)
  exact Double.nearest_mono (by positivity) (mul_le_mul_of_nonneg_right h1 (by norm_num))

/-- **C68, counters.** For a counter whose events were printed in the order of their time (babeltrace does so), each entry carries a value for every series: the last one set so
    far, or else the first one set later. (Processes are not told apart, see C52.) -/
theorem counters_exact (names : TraceMap) (keyFirst : Bool) (inputs : List Input) (events : List Event) (hv : ∀ i ∈ inputs, i.Valid) (hp : Parsed keyFirst inputs events)
    (name : String) (ho : (tracedOf inputs).Pairwise fun a b => a.secs * 10 ^ 9 + a.nanos ≤ b.secs * 10 ^ 9 + b.nanos) :
    ∃ res, finishInterval (.ok names) events = .ok res ∧
      (res.filter (isC name)).length = ((tracedOf inputs).filterMap (seriesOf names name)).length ∧
      ∀ (i : Nat) (e : Entry), (res.filter (isC name))[i]? = some e → ∀ s,
        (e.args.getD []).lookup s = NativeSource.Spec.value ((tracedOf inputs).filterMap (seriesOf names name)) i s := by
  obtain ⟨es, res, h1, h2, h3, h4, h5⟩ := finish_inputs names hv hp
  refine ⟨res, h2, ?_⟩
  have hs : es.Pairwise fun a b => a.ts ≤ b.ts := by
    have : (es.map Entry.shape).Pairwise fun a b => a.ts ≤ b.ts := by
      rw [h1, List.pairwise_map]
      exact ho.imp (fun h => timestamps_monotone _ _ h)
    rw [List.pairwise_map] at this
    exact this
  have hf := NativeSource.stableSort_filter (isC name) es (List.Pairwise.sublist List.filter_sublist hs)
  obtain ⟨b1, b2, b3⟩ := NativeSource.backfillKey_match _ _ _ (h5 name)
  rw [h4, hf]
  refine ⟨b1, ?_⟩
  intro i e he s
  rw [b3 i e he s, ← NativeSource.due_value]
  rfl

/-- The event is not complete: no thread or process id, an unknown kind, or a counter without value. -/
def Incomplete (e : Event) : Prop :=
  e.domain = "scalopus_scope_id".toList ∧
  (e.context.lookup "vpid".toList = none ∨ e.context.lookup "pthread_id".toList = none ∨ (phase e.name).1 = "" ∨
    e.name = "count_event".toList ∧ e.data.lookup "value".toList = none)

theorem convert_ok {names : TraceMap} {c c' : Counters} {e : Event} {x : Option Entry} (h : convert names c e = .ok (x, c')) (hi : Incomplete e) :
    ∃ y, x = some y ∧ y.ph = "" := by
  obtain ⟨hd, hi⟩ := hi
  unfold convert at h
  cases ht : e.time with
  | none => rw [ht] at h; cases h
  | some t =>
    rw [ht] at h
    simp only at h
    rw [if_pos hd] at h
    cases t with
    | none => cases h
    | some t =>
      simp only [find] at h
      cases htid : e.context.lookup "pthread_id".toList with
      | none => rw [htid] at h; cases h
      | some tid =>
        rw [htid] at h
        simp only [Res.bind] at h
        cases hpid : e.context.lookup "vpid".toList with
        | none => rw [hpid] at h; cases h
        | some pid =>
          rw [hpid] at h
          simp only at h
          rcases hi with hi | hi | hi | ⟨hi, hv⟩
          · rw [hi] at hpid; cases hpid
          · rw [hi] at htid; cases htid
          · by_cases hn : e.name = "count_event".toList
            · rw [hn] at hi
              exact absurd hi (by decide)
            · rw [if_neg hn] at h
              simp only [Res.ok.injEq, Prod.mk.injEq] at h
              exact ⟨_, h.1.symm, hi⟩
          · rw [if_pos hi, hv] at h
            cases h

theorem convertAll_ok {names : TraceMap} {c : Counters} {events : List Event} {l : List Entry} (h : convertAll names c events = .ok l) {e : Event} (he : e ∈ events)
    (hi : Incomplete e) : ∃ y ∈ l, y.ph = "" := by
  induction events generalizing c l with
  | nil => cases he
  | cons e' events ih =>
    simp only [convertAll] at h
    cases hc : convert names c e' with
    | ok x =>
      obtain ⟨x, c'⟩ := x
      rw [hc] at h
      simp only [Res.bind] at h
      cases hr : convertAll names c' events with
      | ok r =>
        rw [hr] at h
        simp only [Res.ok.injEq] at h
        subst h
        rcases List.mem_cons.mp he with rfl | he
        · obtain ⟨y, rfl, hy⟩ := convert_ok hc hi
          exact ⟨y, by simp, hy⟩
        · obtain ⟨y, hy, hp⟩ := ih hr he
          exact ⟨y, by simp [hy], hp⟩
      | throws w => rw [hr] at h; cases h
      | ub => rw [hr] at h; cases h
      | terminate => rw [hr] at h; cases h
    | throws w => rw [hc] at h; cases h
    | ub => rw [hc] at h; cases h
    | terminate => rw [hc] at h; cases h

theorem backfill_fails {l : List Entry} (h : ∃ y ∈ l, y.ph = "") (r) : backfill l ≠ .ok r := by
  induction l generalizing r with
  | nil => obtain ⟨y, hy, _⟩ := h; cases hy
  | cons e l ih =>
    intro hr
    simp only [backfill] at hr
    obtain ⟨y, hy, hp⟩ := h
    cases hb : backfill l with
    | ok r' =>
      rw [hb] at hr
      simp only [Res.bind] at hr
      rcases List.mem_cons.mp hy with rfl | hy
      · rw [if_pos hp] at hr
        cases hr
      · exact ih ⟨y, hy, hp⟩ r' hb
    | throws w => rw [hb] at hr; cases hr
    | ub => rw [hb] at hr; cases hr
    | terminate => rw [hb] at hr; cases hr

/-- One event that is not complete, for example of a process traced without the context `vpid`, or of a tracepoint that a newer library defines, makes `finishInterval` fail for the
    whole interval, whatever else was recorded. -/
theorem incomplete_event_loses_all (updated : Res TraceMap) (events : List Event) (e : Event) (he : e ∈ events) (hi : Incomplete e) (res : List Entry) :
    finishInterval updated events ≠ .ok res := by
  intro h
  unfold finishInterval at h
  rw [if_neg (List.ne_nil_of_mem he)] at h
  cases updated with
  | ok names =>
    simp only [Res.bind] at h
    cases hc : convertAll names [] events with
    | ok l =>
      rw [hc] at h
      simp only at h
      obtain ⟨y, hy, hp⟩ := convertAll_ok hc he hi
      cases hb : backfill (stableSort l) with
      | ok r => exact backfill_fails ⟨y, (NativeSource.stableSort_perm l).mem_iff.mpr hy, hp⟩ r hb
      | throws w => rw [hb] at h; cases h
      | ub => rw [hb] at h; cases h
      | terminate => rw [hb] at h; cases h
    | throws w => rw [hc] at h; cases h
    | ub => rw [hc] at h; cases h
    | terminate => rw [hc] at h; cases h
  | throws w => cases h
  | ub => cases h
  | terminate => cases h

/-- The line of an event recorded without contexts, as LTTng does by default. -/
theorem default_contexts_incomplete (keyFirst : Bool) :
    ∃ e, Ctf.parse keyFirst "[1.000000000] h scalopus_scope_id:scope_entry: { cpu_id = 2 }, { }, { id = 5 }".toList = .ok e ∧ Incomplete e := by
  have h : (match Ctf.parse keyFirst "[1.000000000] h scalopus_scope_id:scope_entry: { cpu_id = 2 }, { }, { id = 5 }".toList with
    | .ok e => decide (e.domain = "scalopus_scope_id".toList) && (e.context.lookup "vpid".toList).isNone | _ => false) = true := by cases keyFirst <;> decide +kernel
  cases hp : Ctf.parse keyFirst "[1.000000000] h scalopus_scope_id:scope_entry: { cpu_id = 2 }, { }, { id = 5 }".toList with
  | ok e =>
    rw [hp] at h
    simp only [Bool.and_eq_true, decide_eq_true_eq] at h
    exact ⟨e, rfl, h.1, .inl (Option.isNone_iff_eq_none.mp h.2)⟩
  | throws x => rw [hp] at h; cases h
  | ub => rw [hp] at h; cases h
  | terminate => rw [hp] at h; cases h

/-- A line without a time, such as a warning of babeltrace, is also kept as an event; its time, which is not initialised, is read. -/
theorem line_without_time_undefined (keyFirst : Bool) (line : Ctf.Text) (h : '[' ∉ line) (hl : line ≠ []) (names : TraceMap) (c : Counters) (rest : List Event) :
    ∃ e, Ctf.parse keyFirst line = .ok e ∧ convertAll names c (e :: rest) = .ub := by
  have hf : ∀ (s : Ctf.Text) (i : Nat), '[' ∉ s → Ctf.findIn ['['] s i = Ctf.npos := by
    intro s
    induction s with
    | nil => intro i _; rfl
    | cons x s ih =>
      intro i hx
      simp only [List.mem_cons, not_or] at hx
      simp only [Ctf.findIn]
      have : ['['].isPrefixOf (x :: s) = false := by simp [List.isPrefixOf, hx.1]
      rw [this]
      simp only [Bool.false_eq_true, if_false]
      exact ih _ hx.2
  refine ⟨{ line := line }, ?_, rfl⟩
  unfold Ctf.parse
  simp only
  rw [if_neg hl, if_pos (.inl (by unfold Ctf.find; exact hf _ _ (by simpa using h)))]

end Scalopus.C68

namespace Scalopus.C52

open LttngSource LttngSource.Spec Endpoints
open Ctf (Event)
open NativeSource (Entry stableSort)

/-- The values that a counter entry carries were traced for that counter and series. -/
theorem values_of_same_counter (names : TraceMap) (keyFirst : Bool) (inputs : List Input) (events : List Event) (hv : ∀ i ∈ inputs, i.Valid) (hp : Parsed keyFirst inputs events)
    (res : List Entry) (hr : finishInterval (.ok names) events = .ok res) (e : Entry) (he : e ∈ res) (hc : e.ph = "C") (s : String) (z : Int)
    (hz : (e.args.getD []).lookup s = some z) : ∃ m ∈ tracedOf inputs, seriesOf names e.name m = some (s, z) := by
  obtain ⟨es, res', h1, h2, h3, h4, h5⟩ := finish_inputs names hv hp
  rw [hr] at h2
  simp only [Res.ok.injEq] at h2
  subst h2
  have hm := NativeSource.match_from _ _ _ (h5 e.name)
  have hm' : ∀ x ∈ (stableSort es).filter (isC e.name), ∀ s z, (x.args.getD []).lookup s = some z →
      (s, z) ∈ (tracedOf inputs).filterMap (seriesOf names e.name) := by
    intro x hx s z hz
    have hx' : x ∈ es.filter (isC e.name) := by
      rw [List.mem_filter] at hx ⊢
      exact ⟨(NativeSource.stableSort_perm es).mem_iff.mp hx.1, hx.2⟩
    simpa using hm x hx' s z hz
  have := (NativeSource.backfillKey_from _ _ hm').2
  rw [← h4 e.name] at this
  exact List.mem_filterMap.mp (this e (List.mem_filter.mpr ⟨he, by simp [isC, hc]⟩) s z hz)

/-- **C52** in full: the values that a counter entry carries were traced by the same process. -/
def KeptApart : Prop :=
  ∀ (names : TraceMap) (keyFirst : Bool) (inputs : List Input) (events : List Event), (∀ i ∈ inputs, i.Valid) → Parsed keyFirst inputs events →
  ∀ res, finishInterval (.ok names) events = .ok res → ∀ e ∈ res, e.ph = "C" → ∀ s z, (e.args.getD []).lookup s = some z →
    ∃ m ∈ tracedOf inputs, (m.pid : Int) = e.pid ∧ seriesOf names e.name m = some (s, z)

/-- **C52, partial.** It holds if no two processes use a counter of the same name. Missing: processes that do, for example two instances of a program. -/
theorem kept_apart_partial (names : TraceMap) (keyFirst : Bool) (inputs : List Input) (events : List Event) (hv : ∀ i ∈ inputs, i.Valid) (hp : Parsed keyFirst inputs events)
    (hd : ∀ m ∈ tracedOf inputs, ∀ m' ∈ tracedOf inputs, ∀ name, (seriesOf names name m).isSome → (seriesOf names name m').isSome → m.pid = m'.pid)
    (res : List Entry) (hr : finishInterval (.ok names) events = .ok res) (e : Entry) (he : e ∈ res) (hc : e.ph = "C") (s : String) (z : Int)
    (hz : (e.args.getD []).lookup s = some z) : ∃ m ∈ tracedOf inputs, (m.pid : Int) = e.pid ∧ seriesOf names e.name m = some (s, z) := by
  obtain ⟨m, hm, hs⟩ := values_of_same_counter names keyFirst inputs events hv hp res hr e he hc s z hz
  refine ⟨m, hm, ?_, hs⟩
  obtain ⟨res', h1, h2, _⟩ := C68.interval_exact names keyFirst inputs events hv hp
  rw [hr] at h1
  cases h1
  obtain ⟨m', hm', hs'⟩ := List.mem_map.mp (h2.mem_iff.mp (List.mem_map_of_mem (f := Entry.shape) he))
  have e1 : (m'.pid : Int) = e.pid := congrArg NativeSource.Spec.Shown.pid hs'
  have e2 : shownName names m' = e.name := congrArg NativeSource.Spec.Shown.name hs'
  have e3 : m'.kind.phase.1 = e.ph := congrArg NativeSource.Spec.Shown.ph hs'
  have hs2 : (seriesOf names e.name m').isSome := by
    unfold seriesOf
    rw [hc] at e3
    cases hk : m'.kind <;> rw [hk] at e3 <;> simp only [Kind.phase] at e3
    case count z' =>
      simp only
      rw [if_pos e2]
      rfl
    all_goals exact absurd e3 (by decide)
  rw [hd m hm m' hm' e.name (by rw [hs]; rfl) hs2, e1]

/-- Two processes, 7 and 8, of the same program. -/
def names : TraceMap := [(7, [(1, "c/a"), (2, "c/b")]), (8, [(1, "c/a"), (2, "c/b")])]

def inputs : List Input :=
  [.traced { secs := 1, nanos := 0, host := "h".toList, cpu := 0, pid := 7, tid := 1, id := 1, kind := .count 5 },
   .traced { secs := 2, nanos := 0, host := "h".toList, cpu := 0, pid := 8, tid := 2, id := 2, kind := .count 6 }]

theorem traced_eq : tracedOf inputs =
    [{ secs := 1, nanos := 0, host := "h".toList, cpu := 0, pid := 7, tid := 1, id := 1, kind := .count 5 },
     { secs := 2, nanos := 0, host := "h".toList, cpu := 0, pid := 8, tid := 2, id := 2, kind := .count 6 }] := rfl

theorem inputs_valid : ∀ i ∈ inputs, i.Valid := by
  intro i hi
  simp only [inputs, List.mem_cons, List.not_mem_nil, or_false] at hi
  rcases hi with rfl | rfl
  · exact ⟨by decide, by decide, by decide, by decide, by decide, by decide, by decide, fun z hz => by cases hz; decide⟩
  · exact ⟨by decide, by decide, by decide, by decide, by decide, by decide, by decide, fun z hz => by cases hz; decide⟩

/-- **C52 fails**: the counter entry of process 8 carries the value that process 7 set. -/
theorem not_kept_apart : ¬ KeptApart := by
  intro h
  obtain ⟨events, hp⟩ := parsed_exists false inputs inputs_valid
  obtain ⟨res, h1, h2, h3⟩ := C68.counters_exact names false inputs events inputs_valid hp "c" (by decide +kernel)
  have hl : ((tracedOf inputs).filterMap (seriesOf names "c")) = [("a", 5), ("b", 6)] := by decide +kernel
  rw [hl] at h2 h3
  obtain ⟨e, he⟩ : ∃ e, (res.filter (isC "c"))[1]? = some e := ⟨_, List.getElem?_eq_getElem (by rw [h2]; decide)⟩
  have hmem := List.mem_filter.mp (List.mem_of_getElem? he)
  have hc := hmem.2
  simp only [isC, decide_eq_true_eq] at hc
  have hv := h3 1 e he
  have h4 := h names false inputs events inputs_valid hp res h1 e hmem.1 hc.1
  rw [hc.2] at h4
  obtain ⟨m, hm, hpid, hs⟩ := h4 "a" 5 (by rw [hv]; decide +kernel)
  obtain ⟨m', hm', hpid', hs'⟩ := h4 "b" 6 (by rw [hv]; decide +kernel)
  rw [← hpid'] at hpid
  have hcast : m.pid = m'.pid := by exact_mod_cast hpid
  rw [traced_eq] at hm hm'
  simp only [List.mem_cons, List.not_mem_nil, or_false] at hm hm'
  rcases hm with rfl | rfl <;> rcases hm' with rfl | rfl
  · exact absurd hs' (by decide +kernel)
  · exact absurd hcast (by decide)
  · exact absurd hs (by decide +kernel)
  · exact absurd hs (by decide +kernel)

/-- A series that occurs anywhere has a value everywhere. -/
theorem value_isSome {l : List (String × Int)} {s : String} {z : Int} (h : (s, z) ∈ l) (i : Nat) : ∃ v, NativeSource.Spec.value l i s = some v := by
  unfold NativeSource.Spec.value
  rw [← List.take_append_drop (i + 1) l, List.mem_append] at h
  cases h1 : (l.take (i + 1)).reverse.find? fun x => x.1 = s with
  | some x => exact ⟨x.2, rfl⟩
  | none =>
    cases h2 : (l.drop (i + 1)).find? fun x => x.1 = s with
    | some x => exact ⟨x.2, rfl⟩
    | none =>
      rw [List.find?_eq_none] at h1 h2
      rcases h with h | h
      · exact absurd (by simp) (h1 (s, z) (List.mem_reverse.2 h))
      · exact absurd (by simp) (h2 (s, z) h)

/-- **C52 fails, always:** if a series of a counter is traced by some process, then every entry of that counter carries a value for it, also those of processes that never trace this series; and theirs is
    the value that another process traced. For all recordings whose lines are in the order of their times. -/
theorem mixed_always (names : TraceMap) (keyFirst : Bool) (inputs : List Input) (events : List Event) (hv : ∀ i ∈ inputs, i.Valid) (hp : Parsed keyFirst inputs events)
    (ho : (tracedOf inputs).Pairwise fun a b => a.secs * 10 ^ 9 + a.nanos ≤ b.secs * 10 ^ 9 + b.nanos)
    (res : List Entry) (hr : finishInterval (.ok names) events = .ok res) (e : Entry) (he : e ∈ res) (hc : e.ph = "C")
    (m : Traced) (hm : m ∈ tracedOf inputs) (s : String) (z : Int) (hs : seriesOf names e.name m = some (s, z))
    (hn : ∀ m' ∈ tracedOf inputs, (m'.pid : Int) = e.pid → ∀ z', seriesOf names e.name m' ≠ some (s, z')) :
    ∃ v, (e.args.getD []).lookup s = some v ∧ ∃ m' ∈ tracedOf inputs, (m'.pid : Int) ≠ e.pid ∧ seriesOf names e.name m' = some (s, v) := by
  obtain ⟨res', h1, h2, h3⟩ := C68.counters_exact names keyFirst inputs events hv hp e.name ho
  rw [hr] at h1
  cases h1
  have hf : e ∈ res.filter (isC e.name) := List.mem_filter.mpr ⟨he, by simp [isC, hc]⟩
  obtain ⟨i, hi⟩ := List.getElem?_of_mem hf
  obtain ⟨v, hval⟩ := value_isSome (List.mem_filterMap.mpr ⟨m, hm, hs⟩ : (s, z) ∈ (tracedOf inputs).filterMap (seriesOf names e.name)) i
  have hl := (h3 i e hi s).trans hval
  obtain ⟨m', hm', hs'⟩ := values_of_same_counter names keyFirst inputs events hv hp res hr e he hc s v hl
  exact ⟨v, hl, m', hm', fun hpid => hn m' hm' hpid v hs', hs'⟩

/-- Process 8 never traces the series `a` of the counter, which process 7 traces. -/
example : (tracedOf inputs).Pairwise (fun a b => a.secs * 10 ^ 9 + a.nanos ≤ b.secs * 10 ^ 9 + b.nanos) ∧
    (tracedOf inputs).map (fun m => (m.pid, seriesOf names "c" m)) = [(7, some ("a", 5)), (8, some ("b", 6))] := by decide +kernel

/-- The condition of `kept_apart_partial` is met when the processes use different counters. -/
example : ∀ m ∈ tracedOf inputs, ∀ m' ∈ tracedOf inputs, ∀ name,
    (seriesOf [(7, [(1, "c/a")]), (8, [(2, "d/a")])] name m).isSome → (seriesOf [(7, [(1, "c/a")]), (8, [(2, "d/a")])] name m').isSome → m.pid = m'.pid := by
  intro m hm m' hm' name h h'
  have e7 : shownName [(7, [(1, "c/a")]), (8, [(2, "d/a")])] { secs := 1, nanos := 0, host := "h".toList, cpu := 0, pid := 7, tid := 1, id := 1, kind := .count 5 } = "c" := by decide +kernel
  have e8 : shownName [(7, [(1, "c/a")]), (8, [(2, "d/a")])] { secs := 2, nanos := 0, host := "h".toList, cpu := 0, pid := 8, tid := 2, id := 2, kind := .count 6 } = "d" := by decide +kernel
  rw [traced_eq] at hm hm'
  simp only [List.mem_cons, List.not_mem_nil, or_false] at hm hm'
  rcases hm with rfl | rfl <;> rcases hm' with rfl | rfl
  · rfl
  · simp only [seriesOf, e7, e8] at h h'
    by_cases hn : "c" = name
    · subst hn; simp at h'
    · simp [hn] at h
  · simp only [seriesOf, e7, e8] at h h'
    by_cases hn : "c" = name
    · subst hn; simp at h
    · simp [hn] at h'
  · rfl

example (keyFirst : Bool) := C68.interval_exact names keyFirst inputs

end Scalopus.C52
