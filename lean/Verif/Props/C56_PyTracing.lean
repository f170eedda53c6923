import Verif.Proofs.PyTracing

/-!
# C55, C56, C74, C75: the Python decorators and trace contexts
-/

namespace Scalopus.C56

open PyTracing PyTracing.Spec

/-- **C56** in full: whatever happened before and whatever other threads do, a call of a suppressed function leaves the tracing state of its thread as it was. -/
def Restored : Prop := ∀ pre l s s' t f, run {} pre = some s → run s l = some s' → OneCall t f l → (s'.thr t).on = (s.thr t).on

/-- **C56, partial.** It holds in every execution in which no function is called while it is already being called, be it by itself or by another thread.
    Missing: recursive functions and functions that several threads call. -/
theorem restored_partial (pre l : List Act) (s s' : State) (t f : Nat) (hx : Exclusive {} (pre ++ l)) (h1 : run {} pre = some s) (h2 : run s l = some s') (hc : OneCall t f l) :
    (s'.thr t).on = (s.thr t).on := by
  have hxl := exclusive_append hx h1
  have hi := inv_run inv_init (l := pre) h1 (by
    clear hxl h1 h2 hc
    generalize ({} : State) = s0 at hx
    induction pre generalizing s0 with
    | nil => trivial
    | cons a pre ih => exact ⟨hx.1, fun m hm => ih m (hx.2 m hm)⟩)
  obtain ⟨body, hb, hl⟩ := hc
  simp only [List.append_assoc, List.cons_append, List.nil_append] at hl
  obtain ⟨la, l1, m0, m1, rfl, q0, e0, s1, r1, f1⟩ := run_next h2 hl
  obtain ⟨lb, l2, m2, m3, rfl, q2, e2, s3, r3, f3⟩ := run_next r1 f1
  obtain ⟨lc, l3, rfl, f4, f5⟩ := List.filter_eq_append_iff.mp f3
  obtain ⟨m4, r4, r5⟩ := run_append_some r3
  obtain ⟨ld, l6, m6, m7, rfl, q6, e6, s7, r7, f7⟩ := run_next r5 f5
  obtain ⟨le, l8, m8, m9, rfl, q8, e8, s9, r9, f9⟩ := run_next r7 f7
  have hm1 : (m1.thr t).stack = .suppressed f (s.thr t).on :: (s.thr t).stack ∧ (m1.thr t).pc = .storing f (s.thr t).on := by
    simp only [step, State.setThr] at s1
    split at s1
    · simp only [Option.some.injEq] at s1
      subst s1
      simp [e0]
    · cases s1
  have hm3 : (m3.thr t).stack = (m1.thr t).stack ∧ (m3.thr t).pc = .idle := by
    simp only [step, State.setThr, e2, hm1.2] at s3
    simp only [Option.some.injEq] at s3
    subst s3
    simp
  have hm4 := calls_stack hb r4 f4 hm3.2
  have hm7 : (m7.thr t).stack = .suppressed f (s.thr t).on :: (s.thr t).stack ∧ ∃ v, (m7.thr t).pc = .restoring v := by
    simp only [step, State.setThr, e6, hm4.1, hm3.1, hm4.2, hm1.1] at s7
    simp only [Option.some.injEq] at s7
    subst s7
    simp [hm4.1, hm3.1, hm1.1]
  obtain ⟨h7, v, h7v⟩ := hm7
  have hi8 : Inv m8 := by
    have hrun : run s (la ++ .enter t f :: (lb ++ .store t :: (lc ++ (ld ++ .load t :: le)))) = some m8 := by
      rw [run_append, q0]
      simp only [Option.bind_some, run, s1]
      rw [run_append, q2]
      simp only [Option.bind_some, run, s3]
      rw [run_append, r4]
      simp only [Option.bind_some]
      rw [run_append, q6]
      simp only [Option.bind_some, run, s7]
      exact q8
    refine inv_run hi hrun ?_
    have : ∀ (s0 : State) (l l' : List Act), Exclusive s0 (l ++ l') → Exclusive s0 l := by
      intro s0 l l' hx
      induction l generalizing s0 with
      | nil => trivial
      | cons a l ih => exact ⟨hx.1, fun m hm => ih m (hx.2 m hm)⟩
    refine this s _ (.restore t :: l8) ?_
    simpa using hxl
  have hv : v = (s.thr t).on := by
    obtain ⟨g, r, hg⟩ := hi8.restoring t v (by rw [e8]; exact h7v)
    rw [e8, h7] at hg
    simp only [List.cons.injEq, Frame.suppressed.injEq] at hg
    exact hg.1.2.symm
  have h9 : (m9.thr t).on = v := by
    simp only [step, State.setThr, e8, h7v] at s9
    simp only [Option.some.injEq] at s9
    subst s9
    simp
  rw [run_others r9 f9, h9, hv]

/-- What one thread on its own sees, for every tree of calls: if `f` is not called again inside, the state is restored. -/
theorem alone_restored (s : State) (t f : Nat) (kids : List Tree) (hpc : (s.thr t).pc = .idle) (hf : ¬ callsL f kids) :
    ∃ s', run s ((Tree.call f kids).acts t) = some s' ∧ (s'.thr t).on = (s.thr t).on ∧ (s'.thr t).stack = (s.thr t).stack := by
  obtain ⟨s', h1, h2, h3, h4, h5⟩ := run_call (s := s) (t := t) (f := f) (body := actsL t kids) (Q := fun old => old f = (s.thr t).on) hpc (by
    intro s0 e0 o0
    obtain ⟨s1, r1, p1, k1, _, q1⟩ := forest_off t kids (s := s0) (by rw [e0]; exact hpc) (by rw [e0])
    exact ⟨s1, r1, p1, by rw [k1, e0], by rw [(q1 f).2 hf, o0 f, if_pos rfl]⟩)
  exact ⟨s', by simpa only [Tree.acts] using h1, by rw [h4, h5], h3⟩

/-- **C56 fails:** if `f` is called again inside, directly or not, tracing is off afterwards, whatever it was before. -/
theorem recursion_disables (s : State) (t f : Nat) (kids : List Tree) (hpc : (s.thr t).pc = .idle) (hf : callsL f kids) :
    ∃ s', run s ((Tree.call f kids).acts t) = some s' ∧ (s'.thr t).on = false ∧ (s'.thr t).stack = (s.thr t).stack := by
  obtain ⟨s', h1, h2, h3, h4, h5⟩ := run_call (s := s) (t := t) (f := f) (body := actsL t kids) (Q := fun old => old f = false) hpc (by
    intro s0 e0 o0
    obtain ⟨s1, r1, p1, k1, _, q1⟩ := forest_off t kids (s := s0) (by rw [e0]; exact hpc) (by rw [e0])
    exact ⟨s1, r1, p1, by rw [k1, e0], (q1 f).1 hf⟩)
  exact ⟨s', by simpa only [Tree.acts] using h1, by rw [h4, h5], h3⟩

/-- The steps of a call tree are complete calls, as `OneCall` requires. -/
theorem calls_append {t : Nat} {l l' : List Act} (h : Calls t l) (h' : Calls t l') : Calls t (l ++ l') := by
  induction h with
  | nil => exact h'
  | suppressed f body rest hb _ _ ih =>
    have := Calls.suppressed f body (rest ++ l') hb ih
    simpa using this
  | traced id body rest hb _ _ ih =>
    have := Calls.traced id body (rest ++ l') hb ih
    simpa using this
  | set b rest _ ih => exact .set b _ ih

mutual
theorem tree_calls (t : Nat) : ∀ k : Tree, Calls t (k.acts t)
  | .call f kids => by
    have := Calls.suppressed f (actsL t kids) [] (forest_calls t kids) .nil
    simpa only [Tree.acts, List.append_nil] using this

theorem forest_calls (t : Nat) : ∀ l : List Tree, Calls t (actsL t l)
  | [] => .nil
  | k :: l => calls_append (tree_calls t k) (forest_calls t l)
end

mutual
theorem tree_thread (t : Nat) : ∀ k : Tree, ∀ a ∈ k.acts t, a.thread = t
  | .call f kids, a, ha => by
    simp only [Tree.acts, List.mem_append, List.mem_cons, List.not_mem_nil, or_false] at ha
    rcases ha with ((rfl | rfl) | ha) | (rfl | rfl)
    · rfl
    · rfl
    · exact forest_thread t kids a ha
    · rfl
    · rfl

theorem forest_thread (t : Nat) : ∀ l : List Tree, ∀ a ∈ actsL t l, a.thread = t
  | [], a, ha => by simp only [actsL, List.not_mem_nil] at ha
  | k :: l, a, ha => by
    simp only [actsL, List.mem_append] at ha
    rcases ha with ha | ha
    · exact tree_thread t k a ha
    · exact forest_thread t l a ha
end

theorem oneCall_tree (t f : Nat) (kids : List Tree) : OneCall t f ((Tree.call f kids).acts t) := by
  refine ⟨actsL t kids, forest_calls t kids, ?_⟩
  rw [List.filter_eq_self.mpr fun a ha => decide_eq_true (tree_thread t _ a ha)]
  simp only [Tree.acts]

theorem not_restored : ¬ Restored := by
  intro h
  obtain ⟨s', h1, h2, -⟩ := recursion_disables {} 0 0 [.call 0 []] rfl (by simp [callsL, Tree.Calls])
  have := h [] _ {} s' 0 0 rfl h1 (oneCall_tree 0 0 _)
  rw [h2] at this
  cases this

/-- Recursion is not needed: thread 0 calls `f`; thread 1 calls the suppressed `g`, which calls `f`. Afterwards tracing is off in thread 0, which called `f` once. -/
theorem two_threads_disable : ∃ l s', run {} l = some s' ∧ OneCall 0 0 l ∧ OneCall 1 1 l ∧ (s'.thr 0).stack = [] ∧ (s'.thr 0).on = false ∧ (s'.thr 1).on = true := by
  refine ⟨[.enter 0 0, .store 0, .enter 1 1, .store 1, .enter 1 0, .store 1, .load 1, .restore 1, .load 1, .restore 1, .load 0, .restore 0], _, rfl, ⟨[], .nil, rfl⟩, ⟨_, .suppressed 0 [] [] .nil .nil, rfl⟩, rfl, rfl, rfl⟩

/-- And the other way: a thread for which tracing was switched off is switched on. -/
theorem two_threads_enable : ∃ l s', run {} (.set 1 false :: l) = some s' ∧ OneCall 1 0 l ∧ (s'.thr 1).on = true := by
  refine ⟨[.enter 1 0, .store 1, .enter 0 0, .store 0, .load 1, .restore 1, .load 0, .restore 0], _, rfl, ⟨[], .nil, rfl⟩, rfl⟩

/-- **C56 fails, every time:** whatever happened before, if two threads that are in no step of a decorator call the same suppressed function so that the second enters before the first leaves, then the first leaves
    with the tracing state that the second had. -/
theorem overlapping_calls_swap (s : State) (t u f : Nat) (htu : t ≠ u) (ht : (s.thr t).pc = .idle) (hu : (s.thr u).pc = .idle) :
    ∃ s', run s [.enter t f, .store t, .enter u f, .store u, .load t, .restore t, .load u, .restore u] = some s' ∧ (s'.thr t).on = (s.thr u).on ∧ (s'.thr u).on = (s.thr u).on ∧
      OneCall t f [.enter t f, .store t, .enter u f, .store u, .load t, .restore t, .load u, .restore u] ∧ (s'.thr t).stack = (s.thr t).stack := by
  have hut : ¬ u = t := fun h => htu h.symm
  refine ⟨?s, ?e, ?a, ?b, ⟨[], .nil, by simp [Act.thread, hut]⟩, ?c⟩
  case e => simp only [run, step, State.setThr, ht, hu, if_true, Option.bind_some, if_neg htu, if_neg hut]; rfl
  all_goals simp [htu, hut]

/-- An execution that meets the conditions of `restored_partial`, with nested calls and two threads. -/
example : ∃ s', run {} [.enter 0 0, .store 0, .enter 1 1, .enter 0 2, .store 1, .store 0, .load 0, .restore 0, .load 0, .restore 0] = some s' ∧
    OneCall 0 0 [.enter 0 0, .store 0, .enter 1 1, .enter 0 2, .store 1, .store 0, .load 0, .restore 0, .load 0, .restore 0] :=
  ⟨_, rfl, [.enter 0 2, .store 0, .load 0, .restore 0], .suppressed 2 [] [] .nil .nil, rfl⟩

end Scalopus.C56

namespace Scalopus.C75

open PyTracing PyTracing.Spec

/-- **C75** in full: when a thread has no decorated call in progress, each of its recorded entries has its exit, properly nested. -/
def Balanced : Prop := ∀ l s t, run {} l = some s → (∀ t b, .set t b ∉ l) → (s.thr t).stack = [] → Nested (s.thr t).events

/-- **C75, partial.** It holds in every execution in which no suppressed function is called while it is already being called. -/
theorem balanced_partial (l : List Act) (s : State) (t : Nat) (h : run {} l = some s) (hs : ∀ t b, .set t b ∉ l) (hx : Exclusive {} l) (ht : (s.thr t).stack = []) :
    Nested (s.thr t).events := by
  have := (evInv_run inv_init evInv_init h hx hs).opened t
  rw [ht] at this
  generalize (s.thr t).events = e at this
  cases this with
  | nil _ h => exact h

/-- In particular without suppressed functions: `traced` alone is balanced in all executions, recursive or not and with any exceptions. -/
theorem traced_balanced (l : List Act) (s : State) (t : Nat) (h : run {} l = some s) (hs : ∀ t b, .set t b ∉ l) (hf : ∀ t f, .enter t f ∉ l) (ht : (s.thr t).stack = []) :
    Nested (s.thr t).events := by
  refine balanced_partial l s t h hs ?_ ht
  have : ∀ s0 : State, Exclusive s0 l := by
    intro s0
    clear h hs
    induction l generalizing s0 with
    | nil => trivial
    | cons a l ih => exact ⟨fun t f ha => absurd (by simp [ha]) (hf t f), fun m _ => ih (fun t f hc => hf t f (by simp [hc])) m⟩
  exact this _

theorem not_nested_entry (id : Nat) : ¬ Nested [.entry id] := by
  intro h
  generalize hl : [Event.entry id] = l at h
  cases h with
  | nil => cases hl
  | scope _ a b _ _ =>
    have := congrArg List.length hl
    simp at this

/-- **C75 fails:** a recursive suppressed function inside a traced one makes the exit disappear. -/
theorem not_balanced : ¬ Balanced := by
  intro h
  refine not_nested_entry 7 (h [.trace 0 7, .enter 0 0, .store 0, .enter 0 0, .store 0, .load 0, .restore 0, .load 0, .restore 0, .untrace 0] _ 0 rfl ?_ rfl)
  intro t b hc
  simp at hc

/-- An execution that meets the conditions, and records something. -/
example : ∃ s, run {} [.trace 0 7, .enter 0 0, .store 0, .trace 0 8, .untrace 0, .load 0, .restore 0, .trace 0 9, .untrace 0, .untrace 0] = some s ∧ (s.thr 0).stack = [] ∧
    (s.thr 0).events = [.entry 7, .entry 9, .exit 9, .exit 7] := ⟨_, rfl, rfl, rfl⟩

end Scalopus.C75

namespace Scalopus.PyTracing

theorem nameRun_cons_some {s s' : Names} {a : NameAct} {l : List NameAct} (h : nameRun s (a :: l) = some s') : ∃ m, nameStep s a = some m ∧ nameRun m l = some s' := by
  simp only [nameRun] at h
  cases hm : nameStep s a with
  | none => rw [hm] at h; cases h
  | some m => rw [hm] at h; exact ⟨m, rfl, h⟩

structure CountInv (s : Names) : Prop where
  counter : s.counter = s.returned.length % 2 ^ 64
  values : s.returned.map Prod.snd = (List.range s.returned.length).map (· % 2 ^ 64)

theorem countInv_more {s : Names} (h : CountInv s) (t : Nat) {s' : Names} (hc : s'.counter = next s.counter) (hr : s'.returned = s.returned ++ [(t, s.counter)]) : CountInv s' := by
  obtain ⟨h1, h2⟩ := h
  refine ⟨?_, ?_⟩
  · rw [hc, hr, h1]
    simp [next]
  · rw [hr]
    simp only [List.map_append, List.map_cons, List.map_nil, List.length_append, List.length_singleton, List.range_succ]
    rw [h2, h1]

theorem countInv_step {s s' : Names} {a : NameAct} (hi : CountInv s) (h : nameStep s a = some s') : CountInv s' := by
  cases a with
  | unique t =>
    simp only [nameStep] at h
    split at h
    · simp only [Option.some.injEq] at h; subst h; exact countInv_more hi t rfl rfl
    · cases h
  | make t n =>
    simp only [nameStep] at h
    split at h
    · simp only [Option.some.injEq] at h; subst h; exact countInv_more hi t rfl rfl
    · cases h
  | makeWith t n id =>
    simp only [nameStep] at h
    split at h
    · simp only [Option.some.injEq] at h; subst h; exact ⟨hi.1, hi.2⟩
    · cases h
  | name t =>
    simp only [nameStep] at h
    split at h
    · split at h
      · simp only [Option.some.injEq] at h; subst h; exact ⟨hi.1, hi.2⟩
      · simp only [Option.some.injEq] at h; subst h; exact ⟨hi.1, hi.2⟩
    · cases h

theorem countInv_run {s s' : Names} {l : List NameAct} (hi : CountInv s) (h : nameRun s l = some s') : CountInv s' := by
  induction l generalizing s with
  | nil => simp only [nameRun, Option.some.injEq] at h; subst h; exact hi
  | cons a l ih =>
    obtain ⟨m, h1, h2⟩ := nameRun_cons_some h
    exact ih (countInv_step hi h1) h2

theorem nodup_mod {n : Nat} (h : n ≤ 2 ^ 64) : ((List.range n).map (· % 2 ^ 64)).Nodup := by
  rw [List.nodup_map_iff_inj_on List.nodup_range]
  intro x hx y hy hxy
  rw [List.mem_range] at hx hy
  rw [Nat.mod_eq_of_lt (by omega), Nat.mod_eq_of_lt (by omega)] at hxy
  exact hxy

end Scalopus.PyTracing

namespace Scalopus.C55

open PyTracing

/-- **C55.** The results of `uniqueTraceId`, in the order of the calls, in any execution with any number of threads: 0, 1, 2, ... modulo 2^64. -/
theorem returns_sequence (l : List NameAct) (s : Names) (h : nameRun {} l = some s) (i : Nat) (hi : i < s.returned.length) : (s.returned[i]).2 = i % 2 ^ 64 := by
  have := (countInv_run ⟨rfl, rfl⟩ h).values
  have h2 : (s.returned.map Prod.snd)[i]? = ((List.range s.returned.length).map (· % 2 ^ 64))[i]? := by rw [this]
  simpa [hi] using h2

/-- **C55.** Within 2^64 calls no number is returned twice, whichever threads call. -/
theorem unique_ids (l : List NameAct) (s : Names) (h : nameRun {} l = some s) (hn : s.returned.length ≤ 2 ^ 64) : (s.returned.map Prod.snd).Nodup := by
  rw [(countInv_run ⟨rfl, rfl⟩ h).values]
  exact nodup_mod hn

example : ∃ s, nameRun {} [.unique 0, .make 1 "a", .unique 0, .name 1] = some s ∧ s.returned = [(0, 0), (1, 1), (0, 2)] := ⟨_, rfl, rfl⟩

end Scalopus.C55

namespace Scalopus.PyTracing

/-- Holds if all ids come from the counter. -/
structure NameInv (s : Names) : Prop where
  tableR : ∀ x ∈ s.table, x.1 ∈ s.returned.map Prod.snd
  pendR : ∀ t id n, s.thr t = .named id n → id ∈ s.returned.map Prod.snd
  pendNew : ∀ t id n, s.thr t = .named id n → ∀ x ∈ s.table, x.1 ≠ id
  pendApart : ∀ t t' id id' n n', t ≠ t' → s.thr t = .named id n → s.thr t' = .named id' n' → id ≠ id'
  ctx : ∀ c ∈ s.contexts, s.table.lookup c.id = some c.name

theorem nameInv_step {s s' : Names} {a : NameAct} (hc : CountInv s) (hi : NameInv s) (h : nameStep s a = some s') (ha : ∀ t n id, a ≠ .makeWith t n id)
    (hn : s'.returned.length ≤ 2 ^ 64) : NameInv s' := by
  obtain ⟨i1, i2, i3, i4, i5⟩ := hi
  have fresh : ∀ {u : Nat}, s'.returned = s.returned ++ [(u, s.counter)] → s.counter ∉ s.returned.map Prod.snd := by
    intro u hr hm
    rw [hr] at hn
    simp only [List.length_append, List.length_singleton] at hn
    rw [hc.counter, hc.values] at hm
    obtain ⟨x, hx, he⟩ := List.mem_map.mp hm
    rw [List.mem_range] at hx
    rw [Nat.mod_eq_of_lt (by omega), Nat.mod_eq_of_lt (by omega)] at he
    omega
  cases a with
  | unique t =>
    simp only [nameStep] at h
    split at h
    · simp only [Option.some.injEq] at h
      subst h
      exact ⟨fun x hx => by simp only [List.map_append, List.mem_append]; exact .inl (i1 x hx), fun t id n ht => by simp only [List.map_append, List.mem_append]; exact .inl (i2 t id n ht), i3, i4, i5⟩
    · cases h
  | make t n =>
    simp only [nameStep] at h
    split at h
    · simp only [Option.some.injEq] at h
      subst h
      have hf := fresh (u := t) rfl
      refine ⟨fun x hx => by simp only [List.map_append, List.mem_append]; exact .inl (i1 x hx), ?_, ?_, ?_, i5⟩
      · intro u id m hu
        simp only [Names.setThr] at hu
        simp only [List.map_append, List.mem_append]
        by_cases hut : u = t
        · rw [if_pos hut] at hu; cases hu; exact .inr (by simp)
        · rw [if_neg hut] at hu; exact .inl (i2 u id m hu)
      · intro u id m hu x hx
        simp only [Names.setThr] at hu hx
        by_cases hut : u = t
        · rw [if_pos hut] at hu; cases hu
          intro hx1
          exact hf (by rw [← hx1]; exact i1 x hx)
        · rw [if_neg hut] at hu; exact i3 u id m hu x hx
      · intro u u' id id' m m' huu hu hu'
        simp only [Names.setThr] at hu hu'
        by_cases hut : u = t
        · rw [if_pos hut] at hu; cases hu
          rw [if_neg (fun hc => huu (hut.trans hc.symm))] at hu'
          rintro rfl
          exact hf (i2 u' _ m' hu')
        · rw [if_neg hut] at hu
          by_cases hut' : u' = t
          · rw [if_pos hut'] at hu'; cases hu'
            rintro rfl
            exact hf (i2 u _ m hu)
          · rw [if_neg hut'] at hu'; exact i4 u u' id id' m m' huu hu hu'
    · cases h
  | makeWith t n id => exact absurd rfl (ha t n id)
  | name t =>
    simp only [nameStep] at h
    split at h
    case h_2 => cases h
    case h_1 id n ht =>
      split at h
      · simp only [Option.some.injEq] at h
        subst h
        refine ⟨?_, ?_, ?_, ?_, ?_⟩
        · intro x hx
          rcases List.mem_cons.mp hx with rfl | hx
          · exact i2 t id n ht
          · exact i1 x hx
        · intro u id' m hu
          simp only [Names.setThr] at hu
          by_cases hut : u = t
          · rw [if_pos hut] at hu; cases hu
          · rw [if_neg hut] at hu; exact i2 u id' m hu
        · intro u id' m hu x hx
          simp only [Names.setThr] at hu
          by_cases hut : u = t
          · rw [if_pos hut] at hu; cases hu
          · rw [if_neg hut] at hu
            rcases List.mem_cons.mp hx with rfl | hx
            · exact i4 t u id id' n m (Ne.symm hut) ht hu
            · exact i3 u id' m hu x hx
        · intro u u' id1 id2 m m' huu hu hu'
          simp only [Names.setThr] at hu hu'
          by_cases hut : u = t
          · rw [if_pos hut] at hu; cases hu
          · rw [if_neg hut] at hu
            by_cases hut' : u' = t
            · rw [if_pos hut'] at hu'; cases hu'
            · rw [if_neg hut'] at hu'; exact i4 u u' id1 id2 m m' huu hu hu'
        · intro c hcx
          rcases List.mem_cons.mp hcx with rfl | hcx
          · simp
          · have hl := i5 c hcx
            have hne : c.id ≠ id := by
              have : ∃ y, (c.id, y) ∈ s.table := by
                clear i1 i2 i3 i4 i5
                generalize s.table = tb at hl
                induction tb with
                | nil => cases hl
                | cons x tb ih =>
                  obtain ⟨k, y⟩ := x
                  by_cases hk : c.id = k
                  · exact ⟨y, by simp [hk]⟩
                  · rw [List.lookup_cons, show (c.id == k) = false by simpa using hk] at hl
                    obtain ⟨y', hy'⟩ := ih hl
                    exact ⟨y', by simp [hy']⟩
              obtain ⟨y, hy⟩ := this
              exact i3 t id n ht _ hy
            simp only [List.lookup_cons, show (c.id == id) = false by simpa using hne]
            exact hl
      · simp only [Option.some.injEq] at h
        subst h
        refine ⟨i1, ?_, ?_, ?_, i5⟩
        · intro u id' m hu
          simp only [Names.setThr] at hu
          by_cases hut : u = t
          · rw [if_pos hut] at hu; cases hu
          · rw [if_neg hut] at hu; exact i2 u id' m hu
        · intro u id' m hu
          simp only [Names.setThr] at hu
          by_cases hut : u = t
          · rw [if_pos hut] at hu; cases hu
          · rw [if_neg hut] at hu; exact i3 u id' m hu
        · intro u u' id1 id2 m m' huu hu hu'
          simp only [Names.setThr] at hu hu'
          by_cases hut : u = t
          · rw [if_pos hut] at hu; cases hu
          · rw [if_neg hut] at hu
            by_cases hut' : u' = t
            · rw [if_pos hut'] at hu'; cases hu'
            · rw [if_neg hut'] at hu'; exact i4 u u' id1 id2 m m' huu hu hu'

theorem returned_grows {s s' : Names} {a : NameAct} (h : nameStep s a = some s') : s.returned.length ≤ s'.returned.length := by
  cases a <;> simp only [nameStep] at h <;> split at h <;> (try split at h) <;>
    first
    | (cases h; done)
    | (simp only [Option.some.injEq] at h; subst h; simp [Names.setThr])

theorem returned_grows_run {s s' : Names} {l : List NameAct} (h : nameRun s l = some s') : s.returned.length ≤ s'.returned.length := by
  induction l generalizing s with
  | nil => simp only [nameRun, Option.some.injEq] at h; rw [h]; exact Nat.le_refl _
  | cons a l ih =>
    obtain ⟨m, h1, h2⟩ := nameRun_cons_some h
    exact Nat.le_trans (returned_grows h1) (ih h2)

theorem nameInv_run {s s' : Names} {l : List NameAct} (hc : CountInv s) (hi : NameInv s) (h : nameRun s l = some s') (ha : ∀ t n id, .makeWith t n id ∉ l)
    (hn : s'.returned.length ≤ 2 ^ 64) : NameInv s' := by
  induction l generalizing s with
  | nil => simp only [nameRun, Option.some.injEq] at h; subst h; exact hi
  | cons a l ih =>
    obtain ⟨m, h1, h2⟩ := nameRun_cons_some h
    exact ih (countInv_step hc h1) (nameInv_step hc hi h1 (fun t n id he => ha t n id (by simp [he])) (Nat.le_trans (returned_grows_run h2) hn)) h2
      (fun t n id he => ha t n id (by simp [he]))

end Scalopus.PyTracing

namespace Scalopus.C74

open PyTracing

/-- **C74** in full: the name that the tracker has for the id of a context is the name of that context. -/
def OwnName : Prop := ∀ l s, nameRun {} l = some s → s.returned.length ≤ 2 ^ 64 → ∀ c ∈ s.contexts, s.table.lookup c.id = some c.name

/-- **C74, partial.** It holds if no context is made with an explicit id, for all interleavings of threads that make contexts. -/
theorem own_name_partial (l : List NameAct) (s : Names) (h : nameRun {} l = some s) (hn : s.returned.length ≤ 2 ^ 64) (ha : ∀ t n id, .makeWith t n id ∉ l) :
    ∀ c ∈ s.contexts, s.table.lookup c.id = some c.name := by
  refine (nameInv_run ⟨rfl, rfl⟩ ⟨?_, ?_, ?_, ?_, ?_⟩ h ha hn).ctx <;> simp

/-- **C74 fails:** an explicit id can be the one that another context got from the counter, before or afterwards. -/
theorem not_own_name : ¬ OwnName := by
  intro h
  have := h [.make 0 "a", .name 0, .makeWith 0 "b" 0, .name 0] _ rfl (by decide) ⟨0, "a"⟩ (by decide)
  revert this
  decide

theorem explicit_first_loses : ∃ s, nameRun {} [.makeWith 0 "b" 0, .name 0, .make 0 "a", .name 0] = some s ∧ ⟨0, "b"⟩ ∈ s.contexts ∧ s.table.lookup 0 = some "a" :=
  ⟨_, rfl, by decide, by decide⟩

theorem step_table {s s' : Names} {a : NameAct} (h : nameStep s a = some s') (hi : s.table = s.contexts.map fun c => (c.id, c.name)) : s'.table = s'.contexts.map fun c => (c.id, c.name) := by
  cases a with
  | unique t => simp only [nameStep] at h; split at h <;> simp only [Option.some.injEq, reduceCtorEq] at h; subst h; exact hi
  | make t n => simp only [nameStep] at h; split at h <;> simp only [Option.some.injEq, reduceCtorEq] at h; subst h; exact hi
  | makeWith t n id => simp only [nameStep] at h; split at h <;> simp only [Option.some.injEq, reduceCtorEq] at h; subst h; exact hi
  | name t =>
    simp only [nameStep] at h
    split at h
    · split at h <;> simp only [Option.some.injEq] at h <;> subst h
      · simp [hi]
      · exact hi
    · simp at h

theorem run_table (l : List NameAct) (s s' : Names) (h : nameRun s l = some s') (hi : s.table = s.contexts.map fun c => (c.id, c.name)) : s'.table = s'.contexts.map fun c => (c.id, c.name) := by
  induction l generalizing s with
  | nil => simp only [nameRun, Option.some.injEq] at h; subst h; exact hi
  | cons a l ih =>
    obtain ⟨m, h1, h2⟩ := nameRun_cons_some h
    exact ih m h2 (step_table h1 hi)

theorem lookup_some {l : List Context} {c : Context} (hc : c ∈ l) : ∃ d ∈ l, d.id = c.id ∧ (l.map fun c => (c.id, c.name)).lookup c.id = some d.name := by
  induction l with
  | nil => simp at hc
  | cons a l ih =>
    by_cases ha : c.id = a.id
    · exact ⟨a, List.mem_cons_self, ha.symm, by simp [List.lookup, ha]⟩
    · rcases List.mem_cons.mp hc with rfl | hc
      · exact absurd rfl ha
      · obtain ⟨d, hd, h1, h2⟩ := ih hc
        refine ⟨d, List.mem_cons_of_mem _ hd, h1, ?_⟩
        rw [List.map_cons, List.lookup_cons, beq_eq_false_iff_ne.mpr ha]
        exact h2

/-- **C74, exactly.** Every context that exists has its own name in the tracker if and only if contexts with equal ids have equal names, whatever threads made them, with which ids. -/
theorem own_name_iff (l : List NameAct) (s : Names) (h : nameRun {} l = some s) :
    (∀ c ∈ s.contexts, s.table.lookup c.id = some c.name) ↔ ∀ c ∈ s.contexts, ∀ d ∈ s.contexts, c.id = d.id → c.name = d.name := by
  have ht := run_table l {} s h rfl
  constructor
  · intro ho c hc d hd e
    have h1 := ho c hc
    rw [e, ho d hd, Option.some.injEq] at h1
    exact h1.symm
  · intro hu c hc
    obtain ⟨d, hd, e, h2⟩ := lookup_some hc
    rw [ht, h2, hu d hd c hc e]

theorem made (s : Names) (t id : Nat) (n : String) (ht : s.thr t = .named id n) (hid : id < 2 ^ 32) :
    nameStep s (.name t) = some { s.setThr t .idle with table := (id, n) :: s.table, contexts := ⟨id, n⟩ :: s.contexts } := by
  simp only [nameStep]
  rw [ht]
  simp only
  rw [if_pos hid]

/-- **C74 fails, every time.** Whatever contexts there are: one that is made with the explicit id of another takes that one's place in the tracker. -/
theorem explicit_takes_over (s : Names) (t : Nat) (ht : s.thr t = .idle) (c : Context) (hc : c ∈ s.contexts) (hid : c.id < 2 ^ 32) (n : String) :
    ∃ s', nameRun s [.makeWith t n c.id, .name t] = some s' ∧ c ∈ s'.contexts ∧ s'.table.lookup c.id = some n := by
  have h1 : nameStep s (.makeWith t n c.id) = some (s.setThr t (.named c.id n)) := by simp only [nameStep]; rw [if_pos ht]
  have h2 := made (s.setThr t (.named c.id n)) t c.id n (by simp [Names.setThr]) hid
  refine ⟨_, by simp only [nameRun, h1, h2, Option.bind_some]; rfl, ?_, ?_⟩
  · simp [Names.setThr, hc]
  · simp

/-- Just as one that gets its id from the counter takes the place of one that was made with that id before. -/
theorem counter_takes_over (s : Names) (t : Nat) (ht : s.thr t = .idle) (c : Context) (hc : c ∈ s.contexts) (hid : c.id = s.counter) (hl : s.counter < 2 ^ 32) (n : String) :
    ∃ s', nameRun s [.make t n, .name t] = some s' ∧ c ∈ s'.contexts ∧ s'.table.lookup c.id = some n := by
  let m : Names := { s.setThr t (.named s.counter n) with counter := next s.counter, returned := s.returned ++ [(t, s.counter)] }
  have h1 : nameStep s (.make t n) = some m := by simp only [nameStep]; rw [if_pos ht]
  have h2 := made m t s.counter n (by simp [m, Names.setThr]) hl
  refine ⟨_, by simp only [nameRun, h1, h2, Option.bind_some]; rfl, ?_, ?_⟩
  · simp [m, Names.setThr, hc]
  · simp [hid]

example : ∃ s, nameRun {} [.make 0 "a", .name 0, .makeWith 1 "b" 1, .name 1] = some s ∧ (⟨1, "b"⟩ : Context) ∈ s.contexts ∧ s.counter = 1 ∧ s.thr 0 = .idle := ⟨_, rfl, by decide, rfl, rfl⟩

/-- No context can be made once 2^32 ids have been used: making one raises. -/
theorem ids_run_out (s : Names) (t : Nat) (n : String) (ht : s.thr t = .idle) (hc : 2 ^ 32 ≤ s.counter) :
    ∃ s', nameRun s [.make t n, .name t] = some s' ∧ s'.raised = s.raised + 1 ∧ s'.contexts = s.contexts := by
  let m : Names := { s.setThr t (.named s.counter n) with counter := next s.counter, returned := s.returned ++ [(t, s.counter)] }
  have h1 : nameStep s (.make t n) = some m := by
    simp only [nameStep]
    rw [if_pos ht]
  have hm : m.thr t = .named s.counter n := by simp [m, Names.setThr]
  have h2 : nameStep m (.name t) = some { m.setThr t .idle with raised := m.raised + 1 } := by
    simp only [nameStep]
    rw [hm]
    simp only
    rw [if_neg (by omega)]
  exact ⟨{ m.setThr t .idle with raised := m.raised + 1 }, by simp only [nameRun, h1, h2, Option.bind_some], rfl, rfl⟩

example : ∃ s, nameRun {} [.make 0 "a", .make 1 "b", .name 1, .name 0] = some s ∧ s.contexts = [⟨0, "a"⟩, ⟨1, "b"⟩] := ⟨_, rfl, rfl⟩

end Scalopus.C74
