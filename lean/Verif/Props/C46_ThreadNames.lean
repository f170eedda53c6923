import Verif.Spec.ThreadNames
import Verif.Proofs.Assoc

/-!
# C46: thread names

All statements quantify over all histories of threads that start, set names, pass naming macros and end, with reuse of thread identifiers.
-/

namespace Scalopus.ThreadNames

open Assoc

structure R (s : State) (ths : List Spec.Thread) : Prop where
  len : s.threads.length = ths.length
  thread : ∀ (i : Nat) (th : Thread) (x : Spec.Thread), s.threads[i]? = some th → ths[i]? = some x →
    th.tid = x.tid ∧ th.ended = x.ended ∧ th.once = x.passed ∧ th.cleanup = x.name.isSome
  distinct : ∀ (i j : Nat) (x y : Spec.Thread), ths[i]? = some x → ths[j]? = some y → x.ended = false → y.ended = false → x.tid = y.tid → i = j
  names : ∀ k n, s.names.lookup k = some n ↔ ∃ x ∈ ths, x.ended = false ∧ x.tid = k ∧ x.name = some n
  keys : (s.names.map (·.1)).Nodup

theorem lookup_insert (m : List (Nat × String)) (k k' : Nat) (v : String) :
    (insert m k v).lookup k' = if k' = k then some v else m.lookup k' := by
  unfold insert
  rw [lookup_cons']
  by_cases h : k' = k
  · simp [h]
  · rw [lookup_filter]; simp [h]

theorem keys_insert {m : List (Nat × String)} (h : (m.map (·.1)).Nodup) (k : Nat) (v : String) : ((insert m k v).map (·.1)).Nodup := by
  unfold insert
  rw [List.map_cons, List.nodup_cons]
  constructor
  · simp
  · exact List.Nodup.sublist (List.Sublist.map _ List.filter_sublist) h

theorem R_init : R {} [] := ⟨rfl, by simp, by simp, by simp, by simp⟩

theorem R_any {s : State} {ths : List Spec.Thread} (h : R s ths) (tid : Nat) :
    s.threads.any (fun th => th.tid = tid ∧ th.ended = false) = ths.any (fun th => th.tid = tid ∧ th.ended = false) := by
  have : s.threads.map (fun th => (th.tid, th.ended)) = ths.map (fun th => (th.tid, th.ended)) := by
    apply List.ext_getElem?
    intro i
    simp only [List.getElem?_map]
    cases hs : s.threads[i]? with
    | none =>
      have : ths[i]? = none := by simp only [List.getElem?_eq_none_iff] at hs ⊢; rw [← h.len]; exact hs
      rw [this]; rfl
    | some th =>
      have hlt : i < ths.length := by rw [← h.len]; exact (List.getElem?_eq_some_iff.mp hs).1
      have ha : ths[i]? = some ths[i] := by simp [hlt]
      obtain ⟨e1, e2, _⟩ := h.thread i th _ hs ha
      rw [ha]; simp [e1, e2]
  have e : ∀ (l : List (Nat × Bool)), l.any (fun p => p.1 = tid ∧ p.2 = false) = l.any (fun p => p.1 = tid ∧ p.2 = false) := fun _ => rfl
  have h1 : s.threads.any (fun th => th.tid = tid ∧ th.ended = false) =
      (s.threads.map (fun th => (th.tid, th.ended))).any (fun p => p.1 = tid ∧ p.2 = false) := by rw [List.any_map]; rfl
  have h2 : ths.any (fun th => th.tid = tid ∧ th.ended = false) =
      (ths.map (fun th => (th.tid, th.ended))).any (fun p => p.1 = tid ∧ p.2 = false) := by rw [List.any_map]; rfl
  rw [h1, h2, this]

/-- A live thread sets its name. -/
theorem R_set {s : State} {ths : List Spec.Thread} (h : R s ths) {t : Nat} {th : Thread} {x : Spec.Thread} (ht : s.threads[t]? = some th)
    (hx : ths[t]? = some x) (he : th.ended = false) (name : String) (ks : List Nat) :
    R (setCurrentName s t { th with once := ks } name) (ths.set t { x with name := some name, passed := ks }) := by
  obtain ⟨e1, e2, e3, e4⟩ := h.thread t th x ht hx
  have hl := (List.getElem?_eq_some_iff.mp hx).1
  have hl' := (List.getElem?_eq_some_iff.mp ht).1
  have hget : ∀ d : Nat, (ths.set t { x with name := some name, passed := ks })[d]? =
      if t = d then some { x with name := some name, passed := ks } else ths[d]? := by
    intro d; simp only [List.getElem?_set]; grind
  have hget' : ∀ d : Nat, (s.threads.set t { th with once := ks, cleanup := true })[d]? =
      if t = d then some { th with once := ks, cleanup := true } else s.threads[d]? := by
    intro d; simp only [List.getElem?_set]; grind
  have hxe : x.ended = false := by rw [← e2]; exact he
  refine ⟨by simp [setCurrentName, h.len], ?_, ?_, ?_, keys_insert h.keys _ _⟩
  · intro i th' x' h1 h2
    simp only [setCurrentName, hget', hget] at h1 h2
    by_cases hti : t = i
    · simp only [hti, ↓reduceIte, Option.some.injEq] at h1 h2
      subst h1 h2
      exact ⟨e1, e2, rfl, rfl⟩
    · simp only [hti, ↓reduceIte] at h1 h2
      exact h.thread i th' x' h1 h2
  · intro i j y z h1 h2 h3 h4 h5
    rw [hget] at h1 h2
    by_cases hti : t = i <;> by_cases htj : t = j
    · omega
    · simp only [hti, ↓reduceIte, Option.some.injEq] at h1
      rw [if_neg htj] at h2
      subst h1
      exact hti ▸ h.distinct t j x z hx h2 hxe h4 h5
    · simp only [htj, ↓reduceIte, Option.some.injEq] at h2
      rw [if_neg hti] at h1
      subst h2
      exact htj ▸ h.distinct i t y x h1 hx h3 hxe h5
    · rw [if_neg hti] at h1
      rw [if_neg htj] at h2
      exact h.distinct i j y z h1 h2 h3 h4 h5
  · intro k n
    simp only [setCurrentName, lookup_insert]
    constructor
    · split
      · rename_i hk
        intro hn
        simp only [Option.some.injEq] at hn
        refine ⟨{ x with name := some name, passed := ks }, List.mem_of_getElem? (i := t) (by rw [hget]; simp), hxe, ?_, by simp [hn]⟩
        show x.tid = k
        rw [← e1, hk]
      · rename_i hk
        intro hn
        obtain ⟨y, hy, h1, h2, h3⟩ := (h.names k n).mp hn
        obtain ⟨j, hj⟩ := List.getElem?_of_mem hy
        have htj : t ≠ j := by
          rintro rfl
          rw [hx] at hj
          cases hj
          exact hk (by rw [← h2, e1])
        exact ⟨y, List.mem_of_getElem? (i := j) (by rw [hget, if_neg htj]; exact hj), h1, h2, h3⟩
    · rintro ⟨y, hy, h1, h2, h3⟩
      obtain ⟨j, hj⟩ := List.getElem?_of_mem hy
      rw [hget] at hj
      by_cases htj : t = j
      · simp only [htj, ↓reduceIte, Option.some.injEq] at hj
        subst hj
        simp only at h2 h3
        rw [if_pos (by rw [← h2, e1])]
        exact h3
      · rw [if_neg htj] at hj
        have hk : k ≠ th.tid := by
          intro hk
          exact htj (h.distinct t j x y hx hj hxe h1 (by rw [h2, hk, e1]))
        rw [if_neg hk]
        exact (h.names k n).mpr ⟨y, List.mem_of_getElem? hj, h1, h2, h3⟩

/-- Histories in which nobody names another thread. -/
def Act.own : Act → Bool
  | .setOther _ _ => false
  | _ => true

theorem R_step {s s' : State} {ths : List Spec.Thread} (h : R s ths) (a : Act) (ho : a.own = true) (hs : step s a = .ok s') :
    R s' (Spec.step ths a) := by
  cases a with
  | start tid =>
    simp only [step] at hs
    simp only [Spec.step, ← R_any h]
    split at hs
    · rename_i hc
      rw [if_pos hc]
      simp only [Res.ok.injEq] at hs
      subst hs
      exact h
    · rename_i hc
      rw [if_neg hc]
      simp only [Res.ok.injEq] at hs
      subst hs
      rw [R_any h] at hc
      have hno : ∀ x ∈ ths, x.ended = false → x.tid ≠ tid := by
        intro x hx he htid
        apply hc
        rw [List.any_eq_true]
        exact ⟨x, hx, by simp [htid, he]⟩
      have hsn : ∀ (i : Nat) (y : Spec.Thread), (ths ++ [({ tid := tid } : Spec.Thread)])[i]? = some y →
          ths[i]? = some y ∨ (i = ths.length ∧ y = { tid := tid }) := by
        intro i y hy
        rw [List.getElem?_append] at hy
        split at hy
        · exact .inl hy
        · right
          rename_i hlt
          cases hd : i - ths.length with
          | zero => rw [hd] at hy; simp at hy; exact ⟨by omega, hy.symm⟩
          | succ n => rw [hd] at hy; simp at hy
      refine ⟨by simp [h.len], ?_, ?_, ?_, h.keys⟩
      · intro i th x h1 h2
        rw [List.getElem?_append] at h1
        rcases hsn i x h2 with h2 | ⟨h2, h3⟩
        · have hlt := (List.getElem?_eq_some_iff.mp h2).1
          rw [if_pos (by rw [h.len]; exact hlt)] at h1
          exact h.thread i th x h1 h2
        · rw [if_neg (by rw [h.len]; omega)] at h1
          simp [h2, h.len] at h1
          subst h1 h3
          exact ⟨rfl, rfl, rfl, rfl⟩
      · intro i j x y h1 h2 h3 h4 h5
        rcases hsn i x h1 with h1 | ⟨h1, h1'⟩ <;> rcases hsn j y h2 with h2 | ⟨h2, h2'⟩
        · exact h.distinct i j x y h1 h2 h3 h4 h5
        · subst h2'
          exact absurd h5 (hno x (List.mem_of_getElem? h1) h3)
        · subst h1'
          exact absurd h5.symm (hno y (List.mem_of_getElem? h2) h4)
        · omega
      · intro k n
        rw [h.names]
        constructor
        · rintro ⟨x, hx, h1, h2, h3⟩
          exact ⟨x, by simp [hx], h1, h2, h3⟩
        · rintro ⟨x, hx, h1, h2, h3⟩
          simp only [List.mem_append, List.mem_singleton] at hx
          rcases hx with hx | rfl
          · exact ⟨x, hx, h1, h2, h3⟩
          · cases h3
  | setCurrent t name =>
    simp only [step] at hs
    cases ht : s.threads[t]? with
    | none =>
      rw [ht] at hs
      simp only [Res.ok.injEq] at hs
      subst hs
      have : ths[t]? = none := by simp only [List.getElem?_eq_none_iff] at ht ⊢; rw [← h.len]; exact ht
      have : ths.modify t (fun th => { th with name := some name }) = ths := by
        rw [List.modify_eq_self]; simpa using this
      simp only [Spec.step, this]
      exact h
    | some th =>
      rw [ht] at hs
      simp only at hs
      split at hs
      · cases hs
      · rename_i he
        simp only [Res.ok.injEq] at hs
        subst hs
        have hlt : t < ths.length := by rw [← h.len]; exact (List.getElem?_eq_some_iff.mp ht).1
        have hx : ths[t]? = some ths[t] := by simp [hlt]
        have e3 := (h.thread t th _ ht hx).2.2.1
        have := R_set h ht hx (by simpa using he) name th.once
        simp only [Spec.step]
        rw [modify_eq_set hx]
        rw [show ({ ths[t] with name := some name } : Spec.Thread) = { ths[t] with name := some name, passed := th.once } by rw [e3]]
        exact this
  | pass t k name =>
    simp only [step] at hs
    cases ht : s.threads[t]? with
    | none =>
      rw [ht] at hs
      simp only [Res.ok.injEq] at hs
      subst hs
      have : ths[t]? = none := by simp only [List.getElem?_eq_none_iff] at ht ⊢; rw [← h.len]; exact ht
      simp only [Spec.step]
      rw [List.modify_eq_self (by simpa using this)]
      exact h
    | some th =>
      rw [ht] at hs
      simp only at hs
      have hlt : t < ths.length := by rw [← h.len]; exact (List.getElem?_eq_some_iff.mp ht).1
      have hx : ths[t]? = some ths[t] := by simp [hlt]
      have e3 := (h.thread t th _ ht hx).2.2.1
      simp only [Spec.step]
      rw [modify_eq_set hx]
      split at hs
      · rename_i hk
        simp only [Res.ok.injEq] at hs
        subst hs
        rw [if_pos (by rw [← e3]; exact hk)]
        simp only [List.set_getElem_self]
        exact h
      · rename_i hk
        split at hs
        · cases hs
        · rename_i he
          simp only [Res.ok.injEq] at hs
          subst hs
          rw [if_neg (by rw [← e3]; exact hk), ← e3]
          exact R_set h ht hx (by simpa using he) name (k :: th.once)
  | setOther tid name => cases ho
  | exit t =>
    simp only [step] at hs
    cases ht : s.threads[t]? with
    | none =>
      rw [ht] at hs
      simp only [Res.ok.injEq] at hs
      subst hs
      have : ths[t]? = none := by simp only [List.getElem?_eq_none_iff] at ht ⊢; rw [← h.len]; exact ht
      simp only [Spec.step]
      rw [List.modify_eq_self (by simpa using this)]
      exact h
    | some th =>
      rw [ht] at hs
      simp only at hs
      have hlt : t < ths.length := by rw [← h.len]; exact (List.getElem?_eq_some_iff.mp ht).1
      obtain ⟨x, hx⟩ : ∃ x, ths[t]? = some x := ⟨ths[t], by simp [hlt]⟩
      obtain ⟨e1, e2, e3, e4⟩ := h.thread t th x ht hx
      simp only [Spec.step]
      rw [modify_eq_set hx]
      have hget : ∀ d : Nat, (ths.set t { x with ended := true })[d]? = if t = d then some { x with ended := true } else ths[d]? := by
        intro d; simp only [List.getElem?_set]; grind
      have hl' := (List.getElem?_eq_some_iff.mp ht).1
      have hget' : ∀ d : Nat, (s.threads.set t { th with ended := true })[d]? =
          if t = d then some { th with ended := true } else s.threads[d]? := by
        intro d; simp only [List.getElem?_set]; grind
      split at hs
      · rename_i he
        simp only [Res.ok.injEq] at hs
        subst hs
        have : ths.set t { x with ended := true } = ths := by
          apply List.ext_getElem?
          intro d
          rw [hget]
          split
          · rename_i hd
            subst hd
            rw [hx]
            congr
            rw [← e2]
            exact he.symm
          · rfl
        rw [this]
        exact h
      · rename_i he
        have he : th.ended = false := by simpa using he
        have hxe : x.ended = false := by rw [← e2]; exact he
        have hthr : ∀ (i : Nat) (th' : Thread) (x' : Spec.Thread), (s.threads.set t { th with ended := true })[i]? = some th' →
            (ths.set t { x with ended := true })[i]? = some x' →
            th'.tid = x'.tid ∧ th'.ended = x'.ended ∧ th'.once = x'.passed ∧ th'.cleanup = x'.name.isSome := by
          intro i th' x' h1 h2
          rw [hget'] at h1
          rw [hget] at h2
          by_cases hti : t = i
          · rw [if_pos hti] at h1 h2
            cases h1
            cases h2
            exact ⟨e1, rfl, e3, e4⟩
          · rw [if_neg hti] at h1 h2
            exact h.thread i th' x' h1 h2
        have hdis : ∀ (i j : Nat) (y z : Spec.Thread), (ths.set t { x with ended := true })[i]? = some y →
            (ths.set t { x with ended := true })[j]? = some z → y.ended = false → z.ended = false → y.tid = z.tid → i = j := by
          intro i j y z h1 h2 h3 h4 h5
          rw [hget] at h1 h2
          by_cases hti : t = i
          · rw [if_pos hti] at h1; cases h1; cases h3
          · by_cases htj : t = j
            · rw [if_pos htj] at h2; cases h2; cases h4
            · rw [if_neg hti] at h1
              rw [if_neg htj] at h2
              exact h.distinct i j y z h1 h2 h3 h4 h5
        have hmem : ∀ k n, (∃ y ∈ ths.set t { x with ended := true }, y.ended = false ∧ y.tid = k ∧ y.name = some n) ↔
            k ≠ x.tid ∧ ∃ y ∈ ths, y.ended = false ∧ y.tid = k ∧ y.name = some n ∨ False := by
          intro k n
          simp only [or_false]
          constructor
          · rintro ⟨y, hy, h1, h2, h3⟩
            obtain ⟨j, hj⟩ := List.getElem?_of_mem hy
            rw [hget] at hj
            by_cases htj : t = j
            · rw [if_pos htj] at hj; cases hj; cases h1
            · rw [if_neg htj] at hj
              refine ⟨?_, y, List.mem_of_getElem? hj, h1, h2, h3⟩
              rintro rfl
              exact htj (h.distinct t j x y hx hj hxe h1 h2.symm)
          · rintro ⟨hk, y, hy, h1, h2, h3⟩
            obtain ⟨j, hj⟩ := List.getElem?_of_mem hy
            have htj : t ≠ j := by
              rintro rfl
              rw [hx] at hj
              cases hj
              exact hk h2.symm
            exact ⟨y, List.mem_of_getElem? (i := j) (by rw [hget, if_neg htj]; exact hj), h1, h2, h3⟩
        split at hs
        · rename_i hc
          simp only [Res.ok.injEq] at hs
          subst hs
          refine ⟨by simp [h.len], hthr, hdis, ?_, ?_⟩
          · intro k n
            rw [hmem]
            simp only [lookup_filter, or_false]
            rw [← h.names k n, e1]
            by_cases hk : k = x.tid <;> simp [hk]
          · exact List.Nodup.sublist (List.Sublist.map _ List.filter_sublist) h.keys
        · rename_i hc
          simp only [Res.ok.injEq] at hs
          subst hs
          refine ⟨by simp [h.len], hthr, hdis, ?_, h.keys⟩
          intro k n
          rw [hmem]
          simp only [or_false]
          rw [← h.names k n]
          constructor
          · intro hn
            refine ⟨?_, hn⟩
            rintro rfl
            obtain ⟨y, hy, h1, h2, h3⟩ := (h.names _ _).mp hn
            obtain ⟨j, hj⟩ := List.getElem?_of_mem hy
            have := h.distinct t j x y hx hj hxe h1 h2.symm
            subst this
            rw [hx] at hj
            cases hj
            rw [h3] at e4
            simp [hc] at e4
          · exact fun hn => hn.2

theorem R_run {s s' : State} {ths : List Spec.Thread} (h : R s ths) (acts : List Act) (ho : ∀ a ∈ acts, a.own = true)
    (hs : run s acts = .ok s') : R s' (Spec.run ths acts) := by
  induction acts generalizing s ths with
  | nil => simp [run] at hs; subst hs; exact h
  | cons a as ih =>
    simp only [run] at hs
    cases hx : step s a with
    | ok s1 =>
      rw [hx] at hs
      exact ih (R_step h a (ho a (by simp)) hx) (fun b hb => ho b (by simp [hb])) hs
    | throws m => rw [hx] at hs; cases hs
    | ub => rw [hx] at hs; cases hs
    | terminate => rw [hx] at hs; cases hs

end Scalopus.ThreadNames

namespace Scalopus.C46

open ThreadNames

/-- A part of the full property C46: after every history, every listed name belongs to a thread that exists. -/
def ListedExist : Prop := ∀ (acts : List Act) (s : State), run {} acts = .ok s → ∀ tid n, (tid, n) ∈ s.names →
  ∃ th ∈ s.threads, th.ended = false ∧ th.tid = tid

/-- **C46, partial.** If threads only name themselves, the listed names are exactly the names that the threads that exist last set (with the macro: only
    when they first pass it), under their identifiers, each once; never the name of a thread that ended, also not for a new thread with its
    identifier. -/
theorem names_exact_partial (acts : List Act) (ho : ∀ a ∈ acts, a.own = true) (s : State) (h : run {} acts = .ok s) :
    (s.names.map (·.1)).Nodup ∧
    ∀ tid n, (tid, n) ∈ s.names ↔ ∃ th ∈ Spec.run [] acts, th.ended = false ∧ th.tid = tid ∧ th.name = some n := by
  have hR := R_run R_init acts ho h
  refine ⟨hR.keys, fun tid n => ?_⟩
  rw [← hR.names]
  exact ⟨fun hm => Assoc.mem_lookup hR.keys hm, fun hm => Assoc.lookup_mem hm⟩

/-- **C46 is violated** when another thread sets the name with `setThreadName`: the name stays after the thread ended. -/
theorem foreign_name_stays : ¬ ListedExist := by
  intro h
  obtain ⟨th, hth, he, htid⟩ := h [.start 5, .setOther 5 "worker", .exit 0] _ rfl 5 "worker" (by decide)
  revert he htid
  revert th
  decide

/-- and a later thread with the same identifier is listed under it. -/
theorem foreign_name_inherited : ∃ s, run {} [.start 5, .setOther 5 "worker", .exit 0, .start 5] = .ok s ∧ s.names = [(5, "worker")] ∧
    s.threads = [⟨5, false, [], true⟩, ⟨5, false, [], false⟩] := ⟨_, rfl, rfl, rfl⟩

/-- The act names thread `t`, from within. -/
def Names (t : Nat) : Act → Prop
  | .setCurrent u _ => u = t
  | .pass u _ _ => u = t
  | _ => False

theorem unnamed_step {s s' : State} {a : Act} {t : Nat} (ha : ¬ Names t a) (hu : ∀ th, s.threads[t]? = some th → th.cleanup = false) (e : step s a = .ok s') :
    ∀ th, s'.threads[t]? = some th → th.cleanup = false := by
  intro th hth
  cases a with
  | start tid =>
    simp only [step] at e
    split at e <;> simp only [Res.ok.injEq] at e <;> subst e
    · exact hu th hth
    · simp only [List.getElem?_append] at hth
      split at hth
      · exact hu th hth
      · rw [List.getElem?_singleton] at hth
        split at hth
        · simp only [Option.some.injEq] at hth; subst hth; rfl
        · cases hth
  | setOther tid n => simp only [step, Res.ok.injEq] at e; subst e; exact hu th hth
  | setCurrent u n =>
    have hne : u ≠ t := fun h => ha h
    simp only [step] at e
    split at e
    · simp only [Res.ok.injEq] at e; subst e; exact hu th hth
    · split at e
      · cases e
      · simp only [Res.ok.injEq] at e; subst e
        simp only [setCurrentName, List.getElem?_set_ne hne] at hth
        exact hu th hth
  | pass u k n =>
    have hne : u ≠ t := fun h => ha h
    simp only [step] at e
    split at e
    · simp only [Res.ok.injEq] at e; subst e; exact hu th hth
    · split at e
      · simp only [Res.ok.injEq] at e; subst e; exact hu th hth
      · split at e
        · cases e
        · simp only [Res.ok.injEq] at e; subst e
          simp only [setCurrentName, List.getElem?_set_ne hne] at hth
          exact hu th hth
  | exit u =>
    simp only [step] at e
    split at e
    · simp only [Res.ok.injEq] at e; subst e; exact hu th hth
    · rename_i x hx
      have key : ∀ th, (s.threads.set u { x with ended := true })[t]? = some th → th.cleanup = false := by
        intro th hth
        by_cases hut : u = t
        · subst hut
          rw [List.getElem?_set_self (List.getElem?_eq_some_iff.mp hx).1] at hth
          simp only [Option.some.injEq] at hth
          subst hth
          exact hu x hx
        · rw [List.getElem?_set_ne hut] at hth
          exact hu th hth
      split at e
      · simp only [Res.ok.injEq] at e; subst e; exact hu th hth
      · split at e <;> simp only [Res.ok.injEq] at e <;> subst e <;> exact key th hth

theorem unnamed_run {t : Nat} : ∀ (acts : List Act) (s s' : State), (∀ a ∈ acts, ¬ Names t a) → (∀ th, s.threads[t]? = some th → th.cleanup = false) → run s acts = .ok s' →
    ∀ th, s'.threads[t]? = some th → th.cleanup = false := by
  intro acts
  induction acts with
  | nil => intro s s' _ hu e; simp only [run, Res.ok.injEq] at e; subst e; exact hu
  | cons a acts ih =>
    intro s s' ha hu e
    simp only [run] at e
    cases hs : step s a with
    | ok s1 =>
      rw [hs] at e
      exact ih s1 s' (fun b hb => ha b (by simp [hb])) (unnamed_step (ha a (by simp)) hu hs) e
    | throws m => rw [hs] at e; cases e
    | ub => rw [hs] at e; cases e
    | terminate => rw [hs] at e; cases e

/-- **C46 is violated, every time.** After every history in which a thread that exists has not named itself: if another thread names it and it then ends, its name stays listed. -/
theorem foreign_name_always (acts : List Act) (s : State) (h : run {} acts = .ok s) (t : Nat) (th : Thread) (ht : s.threads[t]? = some th) (he : th.ended = false) (hn : ∀ a ∈ acts, ¬ Names t a) (name : String) :
    ∃ s', run s [.setOther th.tid name, .exit t] = .ok s' ∧ s'.names.lookup th.tid = some name ∧ s'.threads = s.threads.set t { th with ended := true } := by
  have hc := unnamed_run acts {} s hn (by simp) h th ht
  refine ⟨{ names := insert s.names th.tid name, threads := s.threads.set t { th with ended := true } }, ?_, ?_, rfl⟩
  · simp [run, step, ht, he, hc, Res.bind]
  · simp [lookup_insert]

/-- Threads that exist have different identifiers. -/
def Distinct (l : List Thread) : Prop := ∀ (i j : Nat) (x y : Thread), l[i]? = some x → l[j]? = some y → x.ended = false → y.ended = false → x.tid = y.tid → i = j

theorem distinct_set {l : List Thread} (h : Distinct l) {t : Nat} {x y : Thread} (hx : l[t]? = some x) (hid : y.tid = x.tid) (he : x.ended = true → y.ended = true) : Distinct (l.set t y) := by
  have back : ∀ (i : Nat) (z : Thread), (l.set t y)[i]? = some z → z.ended = false → ∃ w, l[i]? = some w ∧ w.ended = false ∧ w.tid = z.tid := by
    intro i z hz hze
    by_cases hi : t = i
    · subst hi
      rw [List.getElem?_set_self (List.getElem?_eq_some_iff.mp hx).1, Option.some.injEq] at hz
      subst hz
      refine ⟨x, hx, ?_, hid.symm⟩
      cases hxe : x.ended
      · rfl
      · rw [he hxe] at hze; cases hze
    · rw [List.getElem?_set_ne hi] at hz
      exact ⟨z, hz, hze, rfl⟩
  intro i j a b ha hb ea eb hab
  obtain ⟨a', h1, h2, h3⟩ := back i a ha ea
  obtain ⟨b', h4, h5, h6⟩ := back j b hb eb
  exact h i j a' b' h1 h4 h2 h5 (by rw [h3, h6, hab])

theorem distinct_step {s s' : State} {a : Act} (h : Distinct s.threads) (e : step s a = .ok s') : Distinct s'.threads := by
  cases a with
  | start tid =>
    simp only [step] at e
    split at e
    · simp only [Res.ok.injEq] at e; subst e; exact h
    · rename_i hn
      simp only [Res.ok.injEq] at e
      subst e
      have hno : ∀ x ∈ s.threads, x.ended = false → x.tid ≠ tid := by
        intro x hx he ht
        exact hn (List.any_eq_true.mpr ⟨x, hx, by simp [he, ht]⟩)
      intro i j x y hx hy ex ey hxy
      simp only [List.getElem?_append] at hx hy
      split at hx <;> split at hy
      · exact h i j x y hx hy ex ey hxy
      · simp only [List.getElem?_singleton] at hy
        split at hy <;> simp only [Option.some.injEq, reduceCtorEq] at hy
        subst hy
        exact absurd hxy (hno x (List.mem_of_getElem? hx) ex)
      · simp only [List.getElem?_singleton] at hx
        split at hx <;> simp only [Option.some.injEq, reduceCtorEq] at hx
        subst hx
        exact absurd hxy.symm (hno y (List.mem_of_getElem? hy) ey)
      · simp only [List.getElem?_singleton] at hx hy
        split at hx <;> split at hy <;> first | omega | (simp at hy; done) | (simp at hx; done)
  | setCurrent t name =>
    simp only [step] at e
    split at e
    · simp only [Res.ok.injEq] at e; subst e; exact h
    · rename_i th ht
      split at e
      · cases e
      · simp only [Res.ok.injEq] at e
        subst e
        simp only [setCurrentName]
        exact distinct_set h ht rfl id
  | pass t k name =>
    simp only [step] at e
    split at e
    · simp only [Res.ok.injEq] at e; subst e; exact h
    · rename_i th ht
      split at e
      · simp only [Res.ok.injEq] at e; subst e; exact h
      · split at e
        · cases e
        · simp only [Res.ok.injEq] at e
          subst e
          simp only [setCurrentName]
          exact distinct_set h ht rfl id
  | setOther tid name => simp only [step, Res.ok.injEq] at e; subst e; exact h
  | exit t =>
    simp only [step] at e
    split at e
    · simp only [Res.ok.injEq] at e; subst e; exact h
    · rename_i th ht
      split at e
      · simp only [Res.ok.injEq] at e; subst e; exact h
      · split at e <;> simp only [Res.ok.injEq] at e <;> subst e <;> exact distinct_set h ht rfl (fun _ => rfl)

theorem distinct_run : ∀ (acts : List Act) (s s' : State), Distinct s.threads → run s acts = .ok s' → Distinct s'.threads := by
  intro acts
  induction acts with
  | nil => intro s s' hu e; simp only [run, Res.ok.injEq] at e; subst e; exact hu
  | cons a acts ih =>
    intro s s' hu e
    simp only [run] at e
    cases hs : step s a with
    | ok s1 => rw [hs] at e; exact ih s1 s' (distinct_step hu hs) e
    | throws m => rw [hs] at e; cases e
    | ub => rw [hs] at e; cases e
    | terminate => rw [hs] at e; cases e

/-- **C46 is violated, every time:** and a new thread that is given the identifier of the one that ended is listed under that one's name, without ever having a name. -/
theorem foreign_name_inherited_always (acts : List Act) (s : State) (h : run {} acts = .ok s) (t : Nat) (th : Thread) (ht : s.threads[t]? = some th) (he : th.ended = false) (hn : ∀ a ∈ acts, ¬ Names t a)
    (name : String) :
    ∃ s', run s [.setOther th.tid name, .exit t, .start th.tid] = .ok s' ∧ s'.names.lookup th.tid = some name ∧ s'.threads = s.threads.set t { th with ended := true } ++ [{ tid := th.tid }] := by
  have hc := unnamed_run acts {} s hn (by simp) h th ht
  have hd : Distinct s.threads := distinct_run acts {} s (by intro i j x y hx; simp at hx) h
  have hlen := (List.getElem?_eq_some_iff.mp ht).1
  have hno : (s.threads.set t { th with ended := true }).any (fun x => decide (x.tid = th.tid ∧ x.ended = false)) = false := by
    rw [List.any_eq_false]
    intro x hx hq
    simp only [decide_eq_true_eq] at hq
    obtain ⟨i, hi⟩ := List.mem_iff_getElem?.mp hx
    by_cases hit : t = i
    · subst hit
      rw [List.getElem?_set_self hlen, Option.some.injEq] at hi
      subst hi
      exact absurd hq.2 (by simp)
    · rw [List.getElem?_set_ne hit] at hi
      exact hit (hd t i th x ht hi he hq.2 hq.1.symm)
  refine ⟨{ names := insert s.names th.tid name, threads := s.threads.set t { th with ended := true } ++ [{ tid := th.tid }] }, ?_, ?_, rfl⟩
  · rw [hc] at hno
    simp only [run, step, ht, he, hc, Res.bind, Bool.false_eq_true, if_false, hno]
  · simp [lookup_insert]

/-- A thread that named itself and one that did not. -/
example : ∃ s th, run {} [.start 5, .start 6, .setCurrent 0 "a"] = .ok s ∧ s.threads[1]? = some th ∧ th.ended = false ∧ ∀ a ∈ [Act.start 5, .start 6, .setCurrent 0 "a"], ¬ Names 1 a :=
  ⟨_, _, rfl, rfl, rfl, by simp [Names]⟩

/-- **C46, macro.** A naming macro sets the name when a thread first passes it and never again in that thread. -/
theorem macro_once (s s' s'' : State) (t k : Nat) (n n' : String) (h1 : step s (.pass t k n) = .ok s') (h2 : step s' (.pass t k n') = .ok s'') :
    s'' = s' := by
  simp only [step] at h1
  cases ht : s.threads[t]? with
  | none =>
    rw [ht] at h1
    simp only [Res.ok.injEq] at h1
    subst h1
    simp only [step, ht, Res.ok.injEq] at h2
    exact h2.symm
  | some th =>
    have hl := (List.getElem?_eq_some_iff.mp ht).1
    rw [ht] at h1
    simp only at h1
    split at h1
    · rename_i hk
      simp only [Res.ok.injEq] at h1
      subst h1
      simp only [step, ht, hk, ↓reduceIte, Res.ok.injEq] at h2
      exact h2.symm
    · split at h1
      · cases h1
      · simp only [Res.ok.injEq] at h1
        subst h1
        have : (setCurrentName s t { th with once := k :: th.once } n).threads[t]? =
            some { th with once := k :: th.once, cleanup := true } := by
          simp [setCurrentName, hl]
        simp only [step, this, List.mem_cons, true_or, ↓reduceIte, Res.ok.injEq] at h2
        exact h2.symm

/-- **C46, no failure.** Naming fails only if a thread does it after its own clean-up, which is undefined. -/
theorem fails_only_late (s : State) (a : Act) : (step s a).isOk = true ∨
    step s a = .ub ∧ ∃ t th, s.threads[t]? = some th ∧ th.ended = true ∧ ((∃ n, a = .setCurrent t n) ∨ ∃ k n, a = .pass t k n) := by
  cases a with
  | start tid => left; simp only [step]; split <;> rfl
  | setOther tid n => left; rfl
  | setCurrent t n =>
    simp only [step]
    cases ht : s.threads[t]? with
    | none => left; rfl
    | some th =>
      cases he : th.ended with
      | false => left; simp [he, Res.isOk]
      | true => right; exact ⟨by simp [he], t, th, ht, he, .inl ⟨n, rfl⟩⟩
  | pass t k n =>
    simp only [step]
    cases ht : s.threads[t]? with
    | none => left; rfl
    | some th =>
      cases he : th.ended with
      | false => left; simp only [he]; split <;> simp [Res.isOk]
      | true =>
        by_cases hk : k ∈ th.once
        · left; simp [hk, Res.isOk]
        · right; exact ⟨by simp [he, hk], t, th, ht, he, .inr ⟨k, n, rfl⟩⟩
  | exit t =>
    left
    simp only [step]
    repeat' split
    all_goals rfl

/-- Two threads name themselves, one ends, a third gets its identifier. -/
example : ∃ s, run {} [.start 5, .start 6, .setCurrent 0 "a", .pass 1 0 "b", .pass 1 0 "c", .setCurrent 0 "d", .exit 0, .start 5] = .ok s ∧
    s.names = [(6, "b")] := ⟨_, rfl, rfl⟩

end Scalopus.C46
