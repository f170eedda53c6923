import Verif.Model.ScopeNames
import Verif.Proofs.Json

/-!
# C35, C36: names of tracepoints and counters
-/

namespace Scalopus.ScopeNames

open Endpoints (TraceMap)
open Assoc

theorem lookup_emplace {ν : Type} (m : List (Int × ν)) (k k' : Int) (v : ν) :
    (Json.emplace m k v).lookup k' = (m.lookup k').or (if k' = k then some v else none) := by
  unfold Json.emplace
  split
  · rename_i w hw
    by_cases h : k' = k
    · subst h; rw [hw]; rfl
    · simp [h]
  · rename_i hw
    rw [lookup_snoc]
    by_cases h : k' = k
    · subst h; rw [hw]; simp
    · rw [if_neg h]; cases m.lookup k' <;> rfl

theorem lookup_insertAll (m l : TraceMap) (k : Int) : (insertAll m l).lookup k = (m.lookup k).or (l.lookup k) := by
  unfold insertAll
  induction l generalizing m with
  | nil => simp
  | cons x l ih =>
    obtain ⟨k', v⟩ := x
    simp only [List.foldl_cons]
    rw [ih, lookup_emplace, lookup_cons', Option.or_assoc]
    congr 1
    by_cases h : k = k' <;> simp [h]

/-- The answers of the transports that were asked and answered. -/
def answers (l : List (Option (Res TraceMap))) : List TraceMap :=
  l.filterMap fun | some (.ok m) => some m | _ => none

/-- Whether some query fails with an exception. -/
def fails (l : List (Option (Res TraceMap))) : Bool := l.any fun | some (.ok _) => false | none => false | _ => true

theorem collect_ok (m : TraceMap) (l : List (Option (Res TraceMap))) (h : fails l = false) :
    ∃ m', collect m l = .ok m' ∧ ∀ k, m'.lookup k = (m.lookup k).or ((answers l).findSome? (fun x => x.lookup k)) := by
  induction l generalizing m with
  | nil => exact ⟨m, rfl, fun k => by simp [answers]⟩
  | cons x l ih =>
    cases x with
    | none => exact ih m (by simpa [fails] using h)
    | some q =>
      cases q with
      | ok a =>
        obtain ⟨m', h1, h2⟩ := ih (insertAll m a) (by simpa [fails] using h)
        refine ⟨m', h1, fun k => ?_⟩
        rw [h2, lookup_insertAll, Option.or_assoc]
        congr 1
        simp only [answers, List.filterMap_cons, List.findSome?_cons]
        cases a.lookup k <;> rfl
      | throws w => simp [fails] at h
      | ub => simp [fails] at h
      | terminate => simp [fails] at h

/-- The value of a string of hexadecimal digits. -/
def hexValue (l : List Char) : Nat := l.foldl (fun n c => n * 16 + (if c.toNat < 58 then c.toNat - 48 else c.toNat - 87)) 0

theorem hexValue_digits (n : Nat) : hexValue (hexDigits n) = n := by
  have hd : ∀ d < 16, (if (hexDigit d).toNat < 58 then (hexDigit d).toNat - 48 else (hexDigit d).toNat - 87) = d := by decide
  induction n using Nat.strongRecOn with
  | _ n ih =>
    rw [hexDigits]
    split
    · rename_i h
      simp only [hexValue, List.foldl_cons, List.foldl_nil, Nat.zero_mul, Nat.zero_add]
      exact hd n h
    · rename_i h
      have := ih (n / 16) (by omega)
      simp only [hexValue] at this ⊢
      rw [List.foldl_append, this]
      simp only [List.foldl_cons, List.foldl_nil]
      rw [hd _ (by omega)]
      omega

theorem hexDigits_lower (n : Nat) : ∀ c ∈ hexDigits n, c ∈ "0123456789abcdef".toList := by
  have hd : ∀ d < 16, hexDigit d ∈ "0123456789abcdef".toList := by decide
  induction n using Nat.strongRecOn with
  | _ n ih =>
    intro c hc
    rw [hexDigits] at hc
    split at hc
    · rename_i h
      simp only [List.mem_singleton] at hc
      subst hc
      exact hd n h
    · rename_i h
      simp only [List.mem_append, List.mem_singleton] at hc
      rcases hc with hc | rfl
      · exact ih (n / 16) (by omega) c hc
      · exact hd _ (by omega)

theorem hexDigits_lead (n : Nat) (h : n ≠ 0) : (hexDigits n).head? ≠ some '0' := by
  induction n using Nat.strongRecOn with
  | _ n ih =>
    rw [hexDigits]
    split
    · rename_i hlt
      have : ∀ d < 16, d ≠ 0 → ([hexDigit d] : List Char).head? ≠ some '0' := by decide
      exact this n hlt h
    · rename_i hge
      have h1 := ih (n / 16) (by omega) (by omega)
      have hne : hexDigits (n / 16) ≠ [] := by rw [hexDigits]; split <;> simp
      cases hx : hexDigits (n / 16) with
      | nil => exact absurd hx hne
      | cons c r => rw [hx] at h1; simpa using h1

end Scalopus.ScopeNames

namespace Scalopus.C35

open ScopeNames Endpoints

/-- The text for an unknown id: the prefix and the id in hexadecimal, in lower case and without leading zeros. -/
def UnknownText (id : Nat) (s : String) : Prop :=
  ∃ digits, s.toList = "Unknown 0x".toList ++ digits ∧ hexValue digits = id ∧ (∀ c ∈ digits, c ∈ "0123456789abcdef".toList) ∧
    (id ≠ 0 → digits.head? ≠ some '0') ∧ (id = 0 → digits = ['0'])

/-- **C35.** The name of an id is the name that the given process has for it, and the text for an unknown id if it has none, whatever other processes have
    registered. -/
theorem name_of_own_process (m : TraceMap) (pid : Int) (id : Nat) :
    (∀ names n, m.lookup pid = some names → names.lookup id = some n → getScopeName m pid id = n) ∧
    ((∀ names, m.lookup pid = some names → names.lookup id = none) → UnknownText id (getScopeName m pid id)) := by
  constructor
  · intro names n h1 h2
    simp only [getScopeName, h1, h2]
  · intro h
    have e : getScopeName m pid id = String.ofList ("Unknown 0x".toList ++ hexDigits id) := by
      unfold getScopeName
      cases hm : m.lookup pid with
      | none => rfl
      | some names => simp only [h names hm]
    refine ⟨hexDigits id, by rw [e, String.toList_ofList], hexValue_digits id, hexDigits_lower id, hexDigits_lead id, ?_⟩
    rintro rfl
    rw [hexDigits]
    decide

/-- **C35, different unknown ids are shown differently.** -/
theorem unknown_ids_differ (i j : Nat) (s : String) (hi : UnknownText i s) (hj : UnknownText j s) : i = j := by
  obtain ⟨d, h1, h2, _⟩ := hi
  obtain ⟨d', h1', h2', _⟩ := hj
  rw [h1] at h1'
  rw [← h2, ← h2', List.append_cancel_left h1']

/-- **C35, refreshing.** If no query fails, the new mapping has for each process the names which the first transport that knows this process answered;
    processes of which no transport knows are not in it. -/
theorem refresh_merges (old : TraceMap) (l : List (Option (Res TraceMap))) (h : fails l = false) :
    ∃ m, updateMapping old (some l) = .ok m ∧ ∀ pid, m.lookup pid = (answers l).findSome? (fun x => x.lookup pid) := by
  obtain ⟨m, h1, h2⟩ := collect_ok [] l h
  exact ⟨m, h1, fun pid => by rw [h2]; rfl⟩

/-- **C35, end to end.** If each connected process answers in time with the names that it registered, every id is shown with the name that its own process
    registered for it. -/
theorem refreshed_names_exact (old : TraceMap) (procs : List (Int × List (Nat × String))) (hk : (procs.map (·.1)).Nodup)
    (hp : ∀ p ∈ procs, -2 ^ 31 ≤ p.1 ∧ p.1 < 2 ^ 31) (hn : ∀ p ∈ procs, (p.2.map (·.1)).Nodup) (hb : ∀ p ∈ procs, ∀ x ∈ p.2, x.1 < 2 ^ 32) :
    ∃ m, updateMapping old (some (procs.map fun p => some ((mappingHandle p.1 p.2 mappingRequest).bind fun r => mapping true
        (match r with | some j => .data (some j) | none => .late)))) = .ok m ∧
      ∀ p ∈ procs, ∀ id n, (id, n) ∈ p.2 → getScopeName m p.1 id = n := by
  have hq : ∀ p ∈ procs, (mappingHandle p.1 p.2 mappingRequest).bind (fun r => mapping true
        (match r with | some j => .data (some j) | none => .late)) = .ok [(p.1, p.2)] := by
    intro p hpm
    obtain ⟨reply, e1, e2⟩ := by
      have ht : Json.toMap Json.asUInt32 Json.asStr (Json.ofMap (fun k : Nat => .int k) .str p.2) = .ok p.2 :=
        Json.map_round_trip _ _ _ _ _ (fun x hx => by
          simp only [Json.asUInt32, Res.ok.injEq]
          have := hb p hpm x hx
          omega) (fun _ _ => rfl) (hn p hpm)
      exact (⟨_, rfl, ht⟩ : ∃ r : Json, r = Json.ofMap (fun k : Nat => .int k) .str p.2 ∧ Json.toMap Json.asUInt32 Json.asStr r = .ok p.2)
    subst e1
    simp only [mappingHandle, mappingRequest, ↓reduceIte, Res.bind, mapping, Answer.decode, Bool.true_eq_false, Json.index, List.lookup,
      beq_self_eq_true, Option.getD, Res.bind_ok]
    apply Json.map_round_trip
    · intro x hx
      simp only [List.mem_singleton] at hx
      subst hx
      have := hp p hpm
      simp only [Json.asInt32, Res.ok.injEq]
      omega
    · intro x hx; simp only [List.mem_singleton] at hx; subst hx; exact e2
    · simp
  have hl : (procs.map fun p => some ((mappingHandle p.1 p.2 mappingRequest).bind fun r => mapping true
        (match r with | some j => .data (some j) | none => .late))) = procs.map fun p => some (.ok [(p.1, p.2)]) := by
    apply List.map_congr_left
    intro p hpm
    rw [hq p hpm]
  rw [hl]
  obtain ⟨m, h1, h2⟩ := refresh_merges old (procs.map fun p => some (.ok [(p.1, p.2)])) (by simp [fails])
  refine ⟨m, h1, ?_⟩
  intro p hpm id n hid
  have hlook : m.lookup p.1 = some p.2 := by
    rw [h2]
    have : answers (procs.map fun p => some (.ok [(p.1, p.2)])) = procs.map fun p => [(p.1, p.2)] := by
      simp [answers, List.filterMap_map]
      rw [← List.filterMap_eq_map]
      rfl
    rw [this, List.findSome?_map]
    clear this h1 h2 hl hq hn hb hp
    induction procs with
    | nil => cases hpm
    | cons q procs ih =>
      simp only [List.findSome?_cons, Function.comp_apply, List.lookup]
      simp only [List.map_cons, List.nodup_cons] at hk
      rcases List.mem_cons.mp hpm with rfl | hpm
      · simp
      · have hne : p.1 ≠ q.1 := fun e => hk.1 (by rw [← e]; exact List.mem_map_of_mem hpm)
        have : (p.1 == q.1) = false := by simpa using hne
        rw [this]
        exact ih hk.2 hpm
  exact (name_of_own_process m p.1 id).1 p.2 n hlook (Assoc.mem_lookup (hn p hpm) hid)

/-- A query that fails with an exception ends the refresh, and the mapping stays. -/
theorem failing_query_escapes (old : TraceMap) (w : String) (r : List (Option (Res TraceMap))) :
    updateMapping old (some (some (.throws w) :: r)) = .throws w := rfl

/-- A process that answers too late is shown without names, also if they were known before. -/
theorem late_process_loses_names : ∃ (old : TraceMap), getScopeName old 7 1 = "f" ∧
    ∃ m, updateMapping old (some [some (mapping true .late)]) = .ok m ∧ getScopeName m 7 1 = "Unknown 0x1" :=
  ⟨[(7, [(1, "f")])], rfl, [], rfl, by decide +kernel⟩

/-- In general: whatever was known, if in a refresh every process answers too late or not at all, no name is known any more: every id of every process is shown as unknown. -/
theorem all_late_forgets (old : TraceMap) (l : List (Option (Res TraceMap))) (h : ∀ x ∈ l, x = none ∨ x = some (mapping true .late)) :
    ∃ m, updateMapping old (some l) = .ok m ∧ ∀ pid id, getScopeName m pid id = getScopeName [] pid id := by
  have hl : mapping true .late = .ok [] := rfl
  rw [hl] at h
  obtain ⟨m, e, hm⟩ := refresh_merges old l (by
    simp only [fails, List.any_eq_false]
    intro x hx
    rcases h x hx with rfl | rfl <;> simp)
  refine ⟨m, e, fun pid id => ?_⟩
  have : m.lookup pid = none := by
    rw [hm, List.findSome?_eq_none_iff]
    intro x hx
    simp only [answers, List.mem_filterMap] at hx
    obtain ⟨y, hy, e⟩ := hx
    rcases h y hy with rfl | rfl
    · cases e
    · simp only [Option.some.injEq] at e; subst e; rfl
  simp [getScopeName, this]

/-- And one process that is late loses its names, whatever was known, unless another process answers for it. -/
theorem late_forgets (old : TraceMap) (l : List (Option (Res TraceMap))) (hf : fails l = false) (pid : Int) (h : ∀ m, some (.ok m) ∈ l → m.lookup pid = none) :
    ∃ m, updateMapping old (some l) = .ok m ∧ ∀ id, getScopeName m pid id = getScopeName [] pid id := by
  obtain ⟨m, e, hm⟩ := refresh_merges old l hf
  refine ⟨m, e, fun id => ?_⟩
  have : m.lookup pid = none := by
    rw [hm, List.findSome?_eq_none_iff]
    intro x hx
    simp only [answers, List.mem_filterMap] at hx
    obtain ⟨y, hy, e⟩ := hx
    cases y with
    | none => cases e
    | some r => cases r with
      | ok m' => simp only [Option.some.injEq] at e; subst e; exact h _ hy
      | throws _ => cases e
      | ub => cases e
      | terminate => cases e
  simp [getScopeName, this]

example : fails [some (mapping true .late), some (.ok [(8, [(1, "g")])]), none] = false ∧ (∀ m, some (.ok m) ∈ [some (mapping true .late), some (.ok [(8, [(1, "g")])]), none] → m.lookup 7 = none) := by
  refine ⟨rfl, fun m hm => ?_⟩
  simp only [List.mem_cons, Option.some.injEq, List.not_mem_nil, or_false, reduceCtorEq] at hm
  have hl : mapping true .late = .ok [] := rfl
  rw [hl] at hm
  rcases hm with hm | hm <;> simp only [Res.ok.injEq] at hm <;> subst hm <;> rfl

/-- Without the manager nothing changes. -/
theorem no_manager (old : TraceMap) : updateMapping old none = .ok old := rfl

example : getScopeName [(7, [(1, "f")]), (8, [(1, "g")])] 8 1 = "g" ∧ getScopeName [(7, [(1, "f")])] 8 255 = "Unknown 0xff" := by decide +kernel

end Scalopus.C35

namespace Scalopus.C36

open ScopeNames

theorem span_slash (a b : List Char) (h : '/' ∉ a) :
    (a ++ '/' :: b).takeWhile (· ≠ '/') = a ∧ ((a ++ '/' :: b).dropWhile (· ≠ '/')).drop 1 = b := by
  induction a with
  | nil => simp
  | cons c a ih =>
    simp only [List.mem_cons, not_or] at h
    obtain ⟨h1, h2⟩ := ih h.2
    have : c ≠ '/' := fun e => h.1 e.symm
    constructor
    · simp only [List.cons_append, List.takeWhile_cons, ne_eq, this, not_false_eq_true, decide_true, ↓reduceIte]
      rw [h1]
    · simp only [List.cons_append, List.dropWhile_cons, ne_eq, this, not_false_eq_true, decide_true, ↓reduceIte]
      exact h2

/-- **C36, series.** A counter traced with a name without `/` and any series is shown as this name and this series. -/
theorem series_exact (name series : String) (h : '/' ∉ name.toList) : splitCounterSeriesName (seriesName name series) = (name, series) := by
  obtain ⟨h1, h2⟩ := span_slash name.toList series.toList h
  have e : (seriesName name series).toList = name.toList ++ '/' :: series.toList := by simp [seriesName]
  unfold splitCounterSeriesName
  rw [if_pos (by rw [e]; simp), e, h1, h2, String.ofList_toList, String.ofList_toList]

/-- The full property C36 for counters without a series. -/
def CountShown : Prop := ∀ name : String, '/' ∉ name.toList → splitCounterSeriesName (countName name) = (name, "count")

/-- **C36 is violated** for every counter without a series: the series is shown with an empty name. -/
theorem count_series_empty (name : String) (h : '/' ∉ name.toList) : splitCounterSeriesName (countName name) = (name, "") := series_exact name "" h

theorem count_not_shown : ¬ CountShown := by
  intro h
  have := h "c" (by decide)
  rw [count_series_empty "c" (by decide)] at this
  exact absurd (congrArg Prod.snd this) (by decide)

/-- **C36, partial.** A counter whose registered name has no `/` (from Python, or registered by hand) is shown with the series `count`. -/
theorem plain_name_count_partial (name : String) (h : '/' ∉ name.toList) : splitCounterSeriesName name = (name, "count") := by
  unfold splitCounterSeriesName
  rw [if_neg (by simpa using h)]

example : splitCounterSeriesName (seriesName "memory" "rss/heap") = ("memory", "rss/heap") := series_exact _ _ (by decide)

end Scalopus.C36
