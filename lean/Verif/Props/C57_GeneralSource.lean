import Verif.Model.GeneralSource
import Mathlib.Data.List.Perm.Basic

/-!
# C57: process metadata entries
-/

namespace Scalopus.C57

open GeneralSource
open Endpoints (ProcessInfo Answer processInfo)

/-- Specification: a metadata entry as the viewer expects it: the phase is "M", the name tells what is named, the arguments carry the name. -/
def Metadata (what : String) (pid : Int) (tid : Nat) (name : String) : Json :=
  .obj [("args", .obj [("name", .str name)]), ("name", .str what), ("ph", .str "M"), ("pid", .int pid), ("tid", .int tid)]

/-- Specification: the entries of one process. -/
def ofProcess (i : ProcessInfo) : List Json := Metadata "process_name" i.pid 0 i.name :: i.threads.map fun t => Metadata "thread_name" i.pid t.1 t.2

theorem mem_assign {k : Int} {v : ProcessInfo} {m : List (Int × ProcessInfo)} (h : k ∉ m.map (·.1)) : (assign k v m).Perm ((k, v) :: m) := by
  induction m with
  | nil => exact .refl _
  | cons x m ih =>
    simp only [List.map_cons, List.mem_cons, not_or] at h
    unfold assign
    split
    · exact .refl _
    · rw [if_neg h.1]
      exact (List.Perm.cons x (ih h.2)).trans (List.Perm.swap _ _ _)

theorem entries_perm {m m' : List (Int × ProcessInfo)} (h : m.Perm m') : (entries m).Perm (entries m') := by
  have e : ∀ m, entries m = m.flatMap (fun x => processEntry x.1 x.2.name :: (x.2.threads.map fun t => threadEntry x.1 t.1 t.2)) := by
    intro m
    induction m with
    | nil => rfl
    | cons x m ih => simp [entries, ih]
  rw [e, e]
  exact h.flatMap_right _

/-- The processes that answered. -/
def known (answers : List (Option (Res ProcessInfo))) : List ProcessInfo :=
  answers.filterMap fun a => match a with
    | some (.ok i) => some i
    | _ => none

theorem query_spec (answers : List (Option (Res ProcessInfo))) : ∀ m m', query answers m = (m', .ok ()) → (m.map (·.1) ++ (known answers).map (·.pid)).Nodup →
    m'.Perm (m ++ (known answers).map fun i => (i.pid, i)) := by
  induction answers with
  | nil =>
    intro m m' h _
    simp only [query, Prod.mk.injEq, and_true] at h
    subst h
    simp [known]
  | cons a r ih =>
    intro m m' h hn
    cases a with
    | none => exact ih m m' h hn
    | some a =>
      cases a with
      | ok i =>
        simp only [query] at h
        have hk : known (some (.ok i) :: r) = i :: known r := rfl
        rw [hk] at hn ⊢
        simp only [List.map_cons] at hn ⊢
        have hi : i.pid ∉ m.map (·.1) := by
          intro hc
          rw [List.nodup_append] at hn
          exact hn.2.2 _ hc _ List.mem_cons_self rfl
        have hp := mem_assign (v := i) hi
        refine (ih _ m' h ?_).trans ?_
        · refine (List.Perm.nodup_iff ((hp.map (·.1)).append_right _)).mpr ?_
          simp only [List.map_cons, List.cons_append]
          exact (List.Perm.nodup_iff List.perm_middle).mp hn
        · refine (hp.append_right _).trans ?_
          exact List.perm_middle.symm
      | throws w => simp [query] at h
      | ub => simp [query] at h
      | terminate => simp [query] at h

theorem entries_known (l : List ProcessInfo) : entries (l.map fun i => (i.pid, i)) = l.flatMap ofProcess := by
  induction l with
  | nil => rfl
  | cons i l ih =>
    simp only [List.map_cons, entries, ih, List.flatMap_cons]
    rfl

/-- **C57, for the answers.** If the queries end normally and the processes that answered have different ids, the source returns the entries of these processes, each once, and
    nothing else. -/
theorem entries_exact (answers : List (Option (Res ProcessInfo))) (h : ((known answers).map (·.pid)).Nodup) (es : List Json) (he : finishInterval answers [] = .ok es) :
    es.Perm ((known answers).flatMap ofProcess) := by
  unfold finishInterval at he
  obtain ⟨m, r, hq⟩ : ∃ m r, updateMapping answers = (m, r) := ⟨_, _, rfl⟩
  rw [hq] at he
  cases r with
  | ok u =>
    simp only [List.foldl_nil, Res.ok.injEq] at he
    subst he
    have := query_spec answers [] m hq (by simpa using h)
    simp only [List.nil_append] at this
    rw [← entries_known]
    exact entries_perm this
  | throws w => cases he
  | ub => cases he
  | terminate => cases he

/-- The last information that was given for each process id. -/
def lastOnes : List ProcessInfo → List ProcessInfo
  | [] => []
  | i :: l => if i.pid ∈ l.map (·.pid) then lastOnes l else i :: lastOnes l

theorem assign_sorted {k : Int} {v : ProcessInfo} {m : List (Int × ProcessInfo)} (h : m.Pairwise fun a b => a.1 < b.1) :
    (assign k v m).Pairwise (fun a b => a.1 < b.1) ∧ (assign k v m).Perm ((k, v) :: m.filter fun x => x.1 ≠ k) := by
  induction m with
  | nil => exact ⟨by simp [assign], .refl _⟩
  | cons x m ih =>
    obtain ⟨h1, h2⟩ := List.pairwise_cons.1 h
    obtain ⟨i1, i2⟩ := ih h2
    unfold assign
    split
    · rename_i hk
      have e : (x :: m).filter (fun x => x.1 ≠ k) = x :: m := by
        rw [List.filter_eq_self]
        intro y hy
        rcases List.mem_cons.1 hy with rfl | hy
        · simp; omega
        · have := h1 y hy
          simp; omega
      rw [e]
      refine ⟨List.pairwise_cons.2 ⟨fun y hy => ?_, h⟩, .refl _⟩
      rcases List.mem_cons.1 hy with rfl | hy
      · exact hk
      · have := h1 y hy
        show k < y.1
        omega
    · rename_i hk
      split
      · rename_i he
        subst he
        have e : (x :: m).filter (fun y => y.1 ≠ x.1) = m := by
          rw [List.filter_cons_of_neg (by simp), List.filter_eq_self]
          intro y hy
          have := h1 y hy
          simp; omega
        rw [e]
        exact ⟨List.pairwise_cons.2 ⟨h1, h2⟩, .refl _⟩
      · rename_i he
        rw [List.filter_cons_of_pos (by simp; omega)]
        refine ⟨List.pairwise_cons.2 ⟨fun y hy => ?_, i1⟩, (List.Perm.cons x i2).trans (List.Perm.swap _ _ _)⟩
        rcases List.mem_cons.1 (i2.mem_iff.1 hy) with rfl | hy
        · show x.1 < k
          omega
        · exact h1 y (List.mem_filter.1 hy).1

theorem query_last (answers : List (Option (Res ProcessInfo))) : ∀ m m', query answers m = (m', .ok ()) → m.Pairwise (fun a b => a.1 < b.1) →
    m'.Pairwise (fun a b => a.1 < b.1) ∧
      m'.Perm ((m.filter fun x => x.1 ∉ (known answers).map (·.pid)) ++ (lastOnes (known answers)).map fun i => (i.pid, i)) := by
  induction answers with
  | nil =>
    intro m m' h hs
    simp only [query, Prod.mk.injEq, and_true] at h
    subst h
    have e : (m.filter fun x => x.1 ∉ (known []).map (·.pid)) = m := by simp [known]
    rw [e]
    exact ⟨hs, by simp [known, lastOnes]⟩
  | cons a r ih =>
    intro m m' h hs
    cases a with
    | none => exact ih m m' h hs
    | some a =>
      cases a with
      | ok i =>
        simp only [query] at h
        have hk : known (some (.ok i) :: r) = i :: known r := rfl
        rw [hk]
        obtain ⟨a1, a2⟩ := assign_sorted (k := i.pid) (v := i) hs
        obtain ⟨b1, b2⟩ := ih _ m' h a1
        refine ⟨b1, b2.trans ?_⟩
        have a3 := a2.filter fun x => x.1 ∉ (known r).map (·.pid)
        refine (a3.append_right _).trans ?_
        have e : ((m.filter fun x => x.1 ≠ i.pid).filter fun x => x.1 ∉ (known r).map (·.pid)) = m.filter fun x => x.1 ∉ (i :: known r).map (·.pid) := by
          rw [List.filter_filter]
          apply List.filter_congr
          intro x _
          simp only [List.map_cons, List.mem_cons, not_or, ne_eq, Bool.decide_and]
          rw [Bool.and_comm]
        by_cases hm : i.pid ∈ (known r).map (·.pid)
        · rw [List.filter_cons_of_neg (by simpa using hm), e, lastOnes, if_pos hm]
        · rw [List.filter_cons_of_pos (by simpa using hm), e, lastOnes, if_neg hm]
          exact List.perm_middle.symm
      | throws w => simp [query] at h
      | ub => simp [query] at h
      | terminate => simp [query] at h

/-- **C57, equal ids.** If several answers have the same process id, the entries are those of the last one; the processes are in the order of their ids. -/
theorem last_answer_counts (answers : List (Option (Res ProcessInfo))) (es : List Json) (he : finishInterval answers [] = .ok es) :
    ∃ l : List ProcessInfo, l.Perm (lastOnes (known answers)) ∧ l.Pairwise (fun a b => a.pid < b.pid) ∧ es = l.flatMap ofProcess := by
  unfold finishInterval at he
  obtain ⟨m, r, hq⟩ : ∃ m r, updateMapping answers = (m, r) := ⟨_, _, rfl⟩
  rw [hq] at he
  cases r with
  | ok u =>
    simp only [List.foldl_nil, Res.ok.injEq] at he
    subst he
    obtain ⟨h1, h2⟩ := query_last answers [] m hq List.Pairwise.nil
    simp only [List.filter_nil, List.nil_append] at h2
    have e : m = (m.map (·.2)).map fun i => (i.pid, i) := by
      rw [List.map_map]
      conv => lhs; rw [← List.map_id m]
      apply List.map_congr_left
      intro x hx
      obtain ⟨i, _, rfl⟩ := List.mem_map.1 (h2.mem_iff.1 hx)
      rfl
    refine ⟨m.map (·.2), ?_, ?_, ?_⟩
    · have := h2.map (·.2)
      rw [List.map_map] at this
      simpa [Function.comp_def] using this
    · rw [e, List.pairwise_map] at h1
      exact h1
    · conv => lhs; rw [e]
      exact entries_known _
  | throws w => cases he
  | ub => cases he
  | terminate => cases he

example : ∃ es, finishInterval [some (.ok { pid := 3, name := "a" }), some (.ok { pid := 2, name := "b" }), some (.ok { pid := 3, name := "c" })] [] = .ok es ∧
    es = [Metadata "process_name" 2 0 "b", Metadata "process_name" 3 0 "c"] := ⟨_, rfl, rfl⟩

/-- Other sessions that finish in between replace the answers: the entries are those of the last one, if its queries end normally. -/
theorem entries_with_others (answers last : List (Option (Res ProcessInfo))) (others : List (List (Option (Res ProcessInfo)))) (h : (updateMapping answers).2 = .ok ())
    : finishInterval answers (others ++ [last]) = .ok (entries (updateMapping last).1) := by
  unfold finishInterval
  obtain ⟨m, r, hq⟩ : ∃ m r, updateMapping answers = (m, r) := ⟨_, _, rfl⟩
  rw [hq] at h ⊢
  simp only at h
  subst h
  simp

/-- What a process is: its information, and whether it answers in time. -/
structure Process where
  info : ProcessInfo
  late : Bool

/-- What the query of a process yields; `junk` is the content of uninitialised memory (C47). -/
def answerOf (junk : Int) (p : Process) : Option (Res ProcessInfo) :=
  some (if p.late then processInfo true junk .late else .ok p.info)

/-- **C57** in full: the entries are those of the connected processes that answered, whatever the others do. -/
def Exact : Prop := ∀ (junk : Int) (ps : List Process), (ps.map (·.info.pid)).Nodup → ∀ es, finishInterval (ps.map (answerOf junk)) [] = .ok es →
  es.Perm ((ps.filter fun p => !p.late).flatMap fun p => ofProcess p.info)

/-- **C57 fails:** a process that does not answer in time adds an entry for a process with an arbitrary id and no name; if the id is that of another process, that one's names
    are lost. -/
theorem late_process_hides_other : ¬ Exact := by
  intro h
  have := h 2 [⟨{ pid := 2, name := "a", threads := [(7, "t")] }, false⟩, ⟨{ pid := 3, name := "b" }, true⟩] (by decide) _ rfl
  have := this.length_eq
  revert this
  decide

/-- **C57, partial.** Exact if every process answers in time. Missing: late processes. -/
theorem exact_partial (junk : Int) (ps : List Process) (hp : (ps.map (·.info.pid)).Nodup) (hl : ∀ p ∈ ps, p.late = false) :
    ∃ es, finishInterval (ps.map (answerOf junk)) [] = .ok es ∧ es.Perm (ps.flatMap fun p => ofProcess p.info) := by
  have hk : known (ps.map (answerOf junk)) = ps.map (·.info) := by
    clear hp
    induction ps with
    | nil => rfl
    | cons p ps ih =>
      have h1 := hl p List.mem_cons_self
      have h2 := ih (fun q hq => hl q (List.mem_cons_of_mem _ hq))
      simp only [List.map_cons, known, answerOf, h1, Bool.false_eq_true, if_false, List.filterMap_cons] at h2 ⊢
      rw [h2]
  have hok : ∀ m, (query (ps.map (answerOf junk)) m).2 = .ok () := by
    clear hk hp
    induction ps with
    | nil => intro m; rfl
    | cons p ps ih =>
      intro m
      have h1 := hl p List.mem_cons_self
      simp only [List.map_cons, answerOf, h1, Bool.false_eq_true, if_false, query]
      exact ih (fun q hq => hl q (List.mem_cons_of_mem _ hq)) _
  obtain ⟨m, r, hq⟩ : ∃ m r, updateMapping (ps.map (answerOf junk)) = (m, r) := ⟨_, _, rfl⟩
  have hr : r = .ok () := by have := hok []; unfold updateMapping at hq; rw [hq] at this; exact this
  subst hr
  have he : finishInterval (ps.map (answerOf junk)) [] = .ok (entries m) := by
    unfold finishInterval; rw [hq]; rfl
  refine ⟨_, he, ?_⟩
  have := entries_exact _ (by rw [hk, List.map_map]; exact hp) _ he
  rw [hk, List.flatMap_map] at this
  exact this

/-- A query that fails fails the interval: nothing is returned. -/
theorem failing_query_escapes (pre post : List (Option (Res ProcessInfo))) (hp : ∀ a ∈ pre, ∀ r, a = some r → ∃ i, r = .ok i) (w : String) (others : List (List (Option (Res ProcessInfo)))) :
    finishInterval (pre ++ some (.throws w) :: post) others = .throws w := by
  have : ∀ m, ∃ m', query (pre ++ some (.throws w) :: post) m = (m', .throws w) := by
    induction pre with
    | nil => intro m; exact ⟨m, rfl⟩
    | cons a pre ih =>
      intro m
      have h2 := ih (fun b hb => hp b (List.mem_cons_of_mem _ hb))
      cases a with
      | none => exact h2 m
      | some r =>
        obtain ⟨i, rfl⟩ := hp _ List.mem_cons_self r rfl
        exact h2 _
  obtain ⟨m', h⟩ := this []
  unfold finishInterval updateMapping
  rw [h]

example : ∃ es, finishInterval [some (.ok { pid := 9, name := "b", threads := [(1, "m"), (2, "w")] }), none, some (.ok { pid := 4, name := "a" })] [] = .ok es ∧ es.length = 4 := ⟨_, rfl, rfl⟩

end Scalopus.C57
