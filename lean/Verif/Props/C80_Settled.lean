import Verif.Props.C80_PyHelper

/-!
# C80: threads agree as soon as nobody is in the middle of asking for the first time
-/

namespace Scalopus.C80

open PyHelper

/-- No thread is between not finding the name and storing a context for it. -/
def Quiet (s : State) (name : String) : Prop := ∀ u, s.thr u ≠ .making name ∧ ∀ j, s.thr u ≠ .storing name j

theorem lookup_other (m : List (String × Nat)) (k name : String) (hne : name ≠ k) : (m.filter fun x => x.1 ≠ k).lookup name = m.lookup name := by
  induction m with
  | nil => rfl
  | cons e m ih =>
    obtain ⟨a, b⟩ := e
    by_cases ha : a = k
    · subst ha
      have : (name == a) = false := by simpa using hne
      rw [List.filter_cons_of_neg (by simp), List.lookup_cons, this]; exact ih
    · rw [List.filter_cons_of_pos (by simpa using ha), List.lookup_cons, List.lookup_cons, ih]

/-- What was given for a name that is not reserved has been stored. -/
theorem given_stored (h : Helper) (l : List Act) : ∀ {s s' : State}, run h s l = some s' → ∀ name, ¬ Reserved h name →
    ((∃ v, (name, v) ∈ s.log) → (s.attrs.lookup name).isSome = true) → (∃ v, (name, v) ∈ s'.log) → (s'.attrs.lookup name).isSome = true := by
  induction l with
  | nil => intro s s' e name _ h1; simp only [run, Option.some.injEq] at e; subst e; exact h1
  | cons a l ih =>
    intro s s' e name hr h1
    simp only [run] at e
    cases hs : step h s a with
    | none => rw [hs] at e; cases e
    | some s1 =>
      rw [hs] at e
      refine ih e name hr ?_
      cases a with
      | get t n =>
        simp only [step] at hs
        split at hs
        · split at hs
          · rename_i v hv
            simp only [Option.some.injEq] at hs; subst hs
            rintro ⟨w, hw⟩
            simp only [List.mem_cons, Prod.mk.injEq] at hw
            rcases hw with ⟨rfl, rfl⟩ | hw
            · unfold lookup at hv
              rw [if_neg (fun e => hr (.inl e)), if_neg (fun e => hr (.inr (.inl e)))] at hv
              split at hv
              · rename_i i hi; simp [hi]
              · rw [if_neg (fun e => hr (.inr (.inr e)))] at hv; cases hv
            · exact h1 ⟨w, hw⟩
          · simp only [Option.some.injEq] at hs; subst hs; exact h1
        · cases hs
      | make t =>
        simp only [step] at hs
        split at hs
        · simp only [Option.some.injEq] at hs; subst hs; exact h1
        · cases hs
      | store t =>
        simp only [step] at hs
        split at hs
        · rename_i n i _
          simp only [Option.some.injEq] at hs; subst hs
          rintro ⟨w, hw⟩
          by_cases hn : name = n
          · subst hn; simp
          · have h2 : (name == n) = false := by simpa using hn
            rw [List.lookup_cons, h2]
            simp only
            rw [lookup_other _ _ _ hn]
            simp only [List.mem_cons, Prod.mk.injEq, hn, false_and, false_or] at hw
            exact h1 ⟨w, hw⟩
        · cases hs

theorem settled_run (h : Helper) (name : String) (hr : ¬ Reserved h name) (i : Nat) (l : List Act) : ∀ {s s' : State}, run h s l = some s' →
    s.attrs.lookup name = some i → Quiet s name → ∃ new, s'.log = new ++ s.log ∧ ∀ w, (name, w) ∈ new → w = .ctx i := by
  induction l with
  | nil => intro s s' e _ _; simp only [run, Option.some.injEq] at e; subst e; exact ⟨[], rfl, by simp⟩
  | cons a l ih =>
    intro s s' e hi hq
    simp only [run] at e
    cases hs : step h s a with
    | none => rw [hs] at e; cases e
    | some s1 =>
      rw [hs] at e
      simp only [Option.bind_some] at e
      cases a with
      | get t n =>
        simp only [step] at hs
        split at hs
        · split at hs
          · rename_i v hv
            simp only [Option.some.injEq] at hs; subst hs
            obtain ⟨new, h1, h2⟩ := ih e hi hq
            refine ⟨new ++ [(n, v)], by rw [h1]; simp, ?_⟩
            intro w hw
            simp only [List.mem_append, List.mem_singleton, Prod.mk.injEq] at hw
            rcases hw with hw | ⟨rfl, rfl⟩
            · exact h2 w hw
            · unfold lookup at hv
              rw [if_neg (fun e => hr (.inl e)), if_neg (fun e => hr (.inr (.inl e))), hi] at hv
              simp only [Option.some.injEq] at hv
              exact hv.symm
          · rename_i hv
            simp only [Option.some.injEq] at hs; subst hs
            have hn : name ≠ n := by
              rintro rfl
              unfold lookup at hv
              rw [if_neg (fun e => hr (.inl e)), if_neg (fun e => hr (.inr (.inl e))), hi] at hv
              cases hv
            refine ih (s := s.set t (.making n)) e hi ?_
            intro u
            simp only [State.set]
            split
            · exact ⟨fun e => hn (by simpa using e.symm), by simp⟩
            · exact hq u
        · cases hs
      | make t =>
        simp only [step] at hs
        split at hs
        · rename_i n ht
          simp only [Option.some.injEq] at hs; subst hs
          have hn : name ≠ n := by rintro rfl; exact (hq t).1 ht
          refine ih (s := { s.set t (.storing n s.ctxs.length) with ctxs := s.ctxs ++ [⟨h.prefix' ++ n, h.kind⟩] }) e hi ?_
          intro u
          simp only [State.set]
          split
          · refine ⟨by simp, fun j e => hn ?_⟩
            simp only [Pc.storing.injEq] at e
            exact e.1.symm
          · exact hq u
        · cases hs
      | store t =>
        simp only [step] at hs
        split at hs
        · rename_i n j ht
          simp only [Option.some.injEq] at hs; subst hs
          have hn : name ≠ n := by rintro rfl; exact (hq t).2 j ht
          have h2 : (name == n) = false := by simpa using hn
          obtain ⟨new, h3, h4⟩ := ih e (by
            rw [List.lookup_cons, h2]
            simp only
            rw [lookup_other _ _ _ hn]
            exact hi) (by
            intro u
            simp only [State.set]
            split
            · exact ⟨by simp, by simp⟩
            · exact hq u)
          refine ⟨new ++ [(n, .ctx j)], by rw [h3]; simp, ?_⟩
          intro w hw
          simp only [List.mem_append, List.mem_singleton, Prod.mk.injEq] at hw
          rcases hw with hw | ⟨rfl, -⟩
          · exact h4 w hw
          · exact absurd rfl hn
        · cases hs

/-- **C80, partial, any number of threads.** Once a name was given and no thread is in the middle of asking for it for the first time, there is one context that every later lookup of that name gives, by
    whichever thread and whatever else is looked up. Missing: lookups while two threads ask for a new name at the same time. -/
theorem settled_partial (h : Helper) (l : List Act) (s : State) (e : run h {} l = some s) (name : String) (hr : ¬ Reserved h name) (hg : ∃ v, (name, v) ∈ s.log) (hq : Quiet s name) :
    ∃ i, s.ctxs[i]? = some ⟨h.prefix' ++ name, h.kind⟩ ∧
      ∀ l' s', run h s l' = some s' → ∃ new, s'.log = new ++ s.log ∧ ∀ w, (name, w) ∈ new → w = .ctx i := by
  have h1 := given_stored h l e name hr (by rintro ⟨v, hv⟩; cases hv) hg
  obtain ⟨i, hi⟩ := Option.isSome_iff_exists.1 h1
  refine ⟨i, ?_, fun l' s' e' => settled_run h name hr i l' e' hi hq⟩
  exact (Inv.run e).attrs name i (lookup_mem hi)

/-- Two threads have raced for a name; now nobody asks for a new one. -/
example : ∃ s, run ⟨"app.", "TraceContext", []⟩ {} twice = some s ∧ ("work", .ctx 0) ∈ s.log ∧ Quiet s "work" := by
  refine ⟨_, rfl, by decide, ?_⟩
  intro u
  simp only [State.set]
  repeat' split
  all_goals exact ⟨by simp, by simp⟩

end Scalopus.C80
