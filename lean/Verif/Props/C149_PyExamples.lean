import Verif.Model.PyExamples

/-!
# C149: the example programs in Python

`once` and `counted` say what one round of a program should record. The functions of the examples that trace sections call each other in a chain, so their rounds are nested sections.
-/

namespace Scalopus.C149

open PyExamples PyMarks

/-! ## Specification -/

/-- Sections nested in each other, the outermost first, around events. -/
def nest (names : List String) (inner : List Ev) : List Ev := names.map .enter ++ inner ++ names.reverse.map .leave

/-- A round of the examples that trace sections. -/
def once : List Ev := nest ["my_relevant_scope", "a", "b", "c", "fooBarBuz"] [] ++ nest ["My Section", "a", "b", "c", "fooBarBuz"] []

/-- What the example of the readme should record in a round, with its marks. -/
def readmeOnce : List Ev :=
  ["my_relevant_scope", "My Section"].flatMap fun s =>
    nest [s, "a"] ([.mark "between_a_and_b" .process] ++ nest ["my trace name"] (nest ["c", "fooBarBuz"] [] ++ [.mark "between c and d" .global]))

/-- A round of the example with counters. -/
def counted (fast slow : Nat → Int) (i : Nat) : List Ev :=
  [.count "sinusoids/fast" (fast i), .count "sinusoids/slow" (slow i), .count "ramp" ((i : Int) + 1 - 100 * ((i + 1) / 100))]

/-- An example program runs until it is stopped and records the same in every round. -/
def Runs (body : Nat → Stmt) (round : Nat → List Ev) : Prop := ∀ n, loop tracing body n = (false, { on := true, events := (List.range n).flatMap round })

/-! ## Theorems -/

theorem loop_runs {has : String → Bool} {body : Nat → Stmt} {round : Nat → List Ev}
    (h : ∀ n (l : List Ev), exec has (body n) { on := true, events := l } = (false, { on := true, events := l ++ round n })) (n : Nat) :
    loop has body n = (false, { on := true, events := (List.range n).flatMap round }) := by
  induction n with
  | zero => rfl
  | succ n ih =>
    rw [loop, ih]
    simp only
    rw [h n, List.range_succ, List.flatMap_append]
    simp

/-- **C149, sections.** The examples that embed a server, that have a source written in Python and that use lttng record their sections, nested, in every round, for as long as they run. -/
theorem sections_run : Runs (fun _ => sections) (fun _ => once) := by
  apply loop_runs
  intro n l
  simp [sections, fnA, fnB, fnC, fooBarBuz, exec, emit, once, nest]

theorem tracing_section : tracing "trace_section" = true := by decide
theorem tracing_count : tracing "trace_count" = true := by decide
theorem tracing_mark : tracing "trace_mark" = false := by decide

/-- **C149, counters.** The example with counters records its three values in every round. -/
theorem counters_run (fast slow : Nat → Int) : Runs (counters fast slow) (counted fast slow) := by
  apply loop_runs
  intro n l
  simp only [counters, exec, tracing_count, emit, counted, ↓reduceIte, List.append_assoc, List.cons_append, List.nil_append]
  simp only [Prod.mk.injEq, true_and, St.mk.injEq, List.append_cancel_left_eq, List.cons.injEq, Ev.count.injEq, and_true]
  omega

/-- What the readme says of its example. -/
def ReadmeRuns : Prop := Runs (fun _ => readme) (fun _ => readmeOnce)

/-- **C149, readme.** The example of the readme ends with an exception in its first round, before it has called `b`: it has recorded two sections. -/
theorem readme_ends (n : Nat) : loop tracing (fun _ => readme) (n + 1) = (true, { on := true, events := nest ["my_relevant_scope", "a"] [] }) := by
  have first : exec tracing readme {} = (true, { on := true, events := nest ["my_relevant_scope", "a"] [] }) := by
    simp [readme, readmeA, exec, tracing_mark, emit, nest]
  induction n with
  | zero =>
    rw [loop]
    exact first
  | succ n ih => rw [loop, ih]

theorem not_ReadmeRuns : ¬ ReadmeRuns := by
  intro h
  have h1 := h 1
  rw [readme_ends 0] at h1
  simp at h1

/-- With a helper for marks in the module it would do what the readme says. -/
theorem readme_fixed_partial (has : String → Bool) (h : has "trace_mark" = true) (n : Nat) :
    loop has (fun _ => readme) n = (false, { on := true, events := (List.range n).flatMap fun _ => readmeOnce }) := by
  apply loop_runs
  intro n l
  simp [readme, readmeA, readmeB, readmeD, fnC, fooBarBuz, exec, emit, h, readmeOnce, nest]

/-- However a statement ends, tracing is switched as before, and what was recorded before is kept. -/
theorem exec_keeps (has : String → Bool) (b : Stmt) (s : St) : (exec has b s).2.on = s.on ∧ s.events <+: (exec has b s).2.events := by
  have em : ∀ (s : St) (e : Ev), (emit s e).on = s.on ∧ s.events <+: (emit s e).events := by
    intro s e
    unfold emit
    split <;> simp
  induction b generalizing s with
  | nothing => simp [exec]
  | seq a b iha ihb =>
    have h1 := iha s
    rw [exec]
    split
    · rename_i s1 he
      rw [he] at h1
      exact h1
    · rename_i s1 he
      rw [he] at h1
      have h2 := ihb s1
      exact ⟨h2.1.trans h1.1, h1.2.trans h2.2⟩
  | traced n b ih =>
    simp only [exec]
    have h1 := em s (.enter n)
    have h2 := ih (emit s (.enter n))
    have h3 := em (exec has b (emit s (.enter n))).2 (.leave n)
    exact ⟨h3.1.trans (h2.1.trans h1.1), h1.2.trans (h2.2.trans h3.2)⟩
  | suppressed b ih =>
    have h2 := ih { s with on := false }
    exact ⟨rfl, h2.2⟩
  | mark h n l =>
    simp only [exec]
    split
    · exact em s _
    · simp
  | count h n v =>
    simp only [exec]
    split
    · exact em s _
    · simp

/-! ## The source -/

/-- The number of seconds that have begun. -/
def begun (start stop : Nat) : Nat := (stop - start + second - 1) / second

/-- What the source should give: one section for each second that has begun. -/
def expected (start n : Nat) : List SrcEv := (List.range n).flatMap fun i => [⟨true, start + i * second, i * second⟩, ⟨false, start + (i + 1) * second, i * second⟩]

theorem source_from (start stop : Nat) (m i : Nat) (hm : m = stop - (start + i * second)) :
    source start stop (start + i * second) =
      (List.range ((m + second - 1) / second)).flatMap fun j => [⟨true, start + (i + j) * second, (i + j) * second⟩, ⟨false, start + (i + j + 1) * second, (i + j) * second⟩] := by
  have hs : 0 < second := by decide
  induction m using Nat.strongRecOn generalizing i with
  | ind m ih =>
    rw [source]
    by_cases h : start + i * second < stop
    · rw [dif_pos h]
      have e1 : start + i * second + second = start + (i + 1) * second := by rw [Nat.add_mul]; omega
      rw [e1, ih (m - second) (by omega) (i + 1) (by rw [← e1]; omega)]
      have e2 : (m + second - 1) / second = (m - second + second - 1) / second + 1 := by
        by_cases hms : second ≤ m
        · rw [Nat.sub_add_cancel hms, show m + second - 1 = m - 1 + second by omega, Nat.add_div_right _ hs]
        · rw [show m - second = 0 by omega, Nat.div_eq_of_lt (show 0 + second - 1 < second by omega), show m + second - 1 = m - 1 + second by omega, Nat.add_div_right _ hs,
            Nat.div_eq_of_lt (by omega)]
      rw [e2, List.range_succ_eq_map, List.flatMap_cons, List.flatMap_map]
      simp only [Nat.add_zero, List.cons_append, List.nil_append, Nat.add_sub_cancel_left, List.cons.injEq, true_and]
      have ef : (fun j : Nat => [(⟨true, start + (i + 1 + j) * second, (i + 1 + j) * second⟩ : SrcEv), ⟨false, start + (i + 1 + j + 1) * second, (i + 1 + j) * second⟩]) =
          fun j => [⟨true, start + (i + j.succ) * second, (i + j.succ) * second⟩, ⟨false, start + (i + j.succ + 1) * second, (i + j.succ) * second⟩] := by
        funext j
        rw [show i + 1 + j = i + j.succ by omega]
      rw [ef]
    · rw [dif_neg h, show m = 0 by omega, Nat.div_eq_of_lt (show 0 + second - 1 < second by omega)]
      rfl

/-- **C149, source.** The source of the example gives one section of a second for each second of the interval that has begun, one after the other from the start of the interval. -/
theorem source_exact (start stop : Nat) : source start stop start = expected start (begun start stop) := by
  have := source_from start stop (stop - start) 0 (by simp)
  simp only [Nat.zero_mul, Nat.add_zero, Nat.zero_add] at this
  exact this

/-- Every moment of the interval is in a section. -/
theorem source_covers (start stop x : Nat) (h1 : start ≤ x) (h2 : x < stop) :
    ∃ i, i < begun start stop ∧ start + i * second ≤ x ∧ x < start + (i + 1) * second := by
  have hs : 0 < second := by decide
  have hm := Nat.div_add_mod (x - start) second
  have hl := Nat.mod_lt (x - start) hs
  have hc : second * ((x - start) / second) = (x - start) / second * second := Nat.mul_comm _ _
  refine ⟨(x - start) / second, ?_, by omega, by rw [Nat.add_mul]; omega⟩
  rw [begun, Nat.lt_iff_add_one_le, Nat.le_div_iff_mul_le hs, Nat.add_mul]
  omega

/-- What one might expect: no event is later than the end of the interval. -/
def Within : Prop := ∀ start stop, ∀ e ∈ source start stop start, e.ts ≤ stop

/-- The last section ends after the interval, unless this has a whole number of seconds; by less than a second. -/
theorem source_past_end (start stop : Nat) (h : start < stop) : ∃ e ∈ source start stop start, e.begin = false ∧ stop ≤ e.ts ∧ e.ts < stop + second ∧ ((stop - start) % second ≠ 0 → stop < e.ts) := by
  have hs : 0 < second := by decide
  rw [source_exact]
  have hb : 0 < begun start stop := Nat.div_pos (by omega) hs
  have h1 := Nat.div_add_mod (stop - start + second - 1) second
  have h2 := Nat.mod_lt (stop - start + second - 1) hs
  rw [show (stop - start + second - 1) / second = begun start stop from rfl, Nat.mul_comm] at h1
  refine ⟨⟨false, start + (begun start stop - 1 + 1) * second, (begun start stop - 1) * second⟩, ?_, rfl, ?_, ?_, ?_⟩
  · simp only [expected, List.mem_flatMap, List.mem_range]
    exact ⟨begun start stop - 1, by omega, by simp⟩
  all_goals simp only [Nat.sub_add_cancel hb]
  · omega
  · omega
  · intro hr
    rcases Nat.lt_or_ge stop (start + begun start stop * second) with hlt | hge
    · exact hlt
    · exfalso
      apply hr
      have : stop - start = begun start stop * second := by omega
      rw [this]
      exact Nat.mul_mod_left _ _

theorem not_Within : ¬ Within := by
  intro h
  obtain ⟨e, h1, _, _, _, h2⟩ := source_past_end 0 1 (by decide)
  have := h 0 1 e h1
  have := h2 (by decide)
  omega

/-! ## Examples -/

example : source 10 (10 + 2 * second + 1) 10 = expected 10 3 := by
  rw [source_exact]
  rfl

example : ((loop tracing (fun _ => sections) 3).2.events).length = 60 := by
  rw [sections_run 3]
  rfl

example : (loop tracing (counters (fun _ => 7) (fun _ => 9)) 100).2.events.getLast? = some (.count "ramp" 0) := by
  rw [counters_run]
  decide +kernel

end Scalopus.C149
