import Verif.Model.ThreadRows
import Verif.Props.C46_ThreadNames
import Verif.Props.C57_GeneralSource

/-!
# C145: what a thread records is shown in a row of its own, under its name

All statements quantify over all histories of threads that start, name themselves and each other, trace and end, with all reuses of thread ids.
-/

namespace Scalopus.C145

open ThreadRows
open ThreadNames (Spec.Thread)
open C57 (Metadata)

/-- What happened to the threads in a history. -/
def threadActs : List Act → List ThreadNames.Act
  | [] => []
  | .thread a :: as => a :: threadActs as
  | .emit _ _ _ :: as => threadActs as

/-- The threads of a history, with the names that they gave themselves: the specification of C46. -/
def threadsOf (as : List Act) : List ThreadNames.Spec.Thread := ThreadNames.Spec.run [] (threadActs as)

/-- What a thread recorded, and what is shown in a row. -/
def recordedBy (s : State) (t : Nat) : List Event := s.events.filter fun e => e.thread = t
def row (s : State) (tid : Nat) : List Event := s.events.filter fun e => e.tid = tid

/-- The row of this thread id is named so among these entries. -/
def Named (es : List Json) (pid : Int) (tid : Nat) (n : String) : Prop := Metadata "thread_name" pid tid n ∈ es
def Unnamed (es : List Json) (pid : Int) (tid : Nat) : Prop := ∀ n, ¬ Named es pid tid n

/-- **C145** in full: what a thread recorded is shown in a row in which there is nothing of other threads, and which has the name that the thread gave itself and no other. -/
def OwnRows : Prop := ∀ as s, (∀ a ∈ threadActs as, a.own = true) → run {} as = .ok s → ∀ e ∈ s.events, ∀ th, (threadsOf as)[e.thread]? = some th →
  (∀ e' ∈ s.events, e'.tid = e.tid → e'.thread = e.thread) ∧
  ∀ pid name es, rowNames pid name s = .ok es → ∀ n, Named es pid e.tid n ↔ th.name = some n

/-! ## Proofs -/

theorem Metadata_inj {w w' : String} {p p' : Int} {t t' : Nat} {n n' : String} (h : Metadata w p t n = Metadata w' p' t' n') : w = w' ∧ p = p' ∧ t = t' ∧ n = n' := by
  simp only [Metadata, Json.obj.injEq, List.cons.injEq, Prod.mk.injEq, Json.str.injEq, Json.int.injEq, true_and, and_true] at h
  obtain ⟨h1, h2, h3, h4⟩ := h
  exact ⟨h2, h3, by omega, h1⟩

/-- The names of the rows are those in the map of the process. -/
theorem named_iff (pid : Int) (name : String) (s : State) : ∃ es, rowNames pid name s = .ok es ∧ ∀ tid n, Named es pid tid n ↔ (tid, n) ∈ s.names.names := by
  refine ⟨_, rfl, ?_⟩
  intro tid n
  show Metadata "thread_name" pid tid n ∈ Metadata "process_name" pid 0 name :: (s.names.names.map fun t => Metadata "thread_name" pid t.1 t.2) ++ [] ↔ _
  simp only [List.append_nil, List.mem_cons, List.mem_map]
  constructor
  · rintro (h | ⟨x, hx, h⟩)
    · exact absurd (Metadata_inj h).1 (by decide)
    · obtain ⟨_, _, h1, h2⟩ := Metadata_inj h
      subst h1 h2
      exact hx
  · intro h
    exact Or.inr ⟨(tid, n), h, rfl⟩

theorem names_run : ∀ (as : List Act) (s s' : State), run s as = .ok s' → ThreadNames.run s.names (threadActs as) = .ok s'.names
  | [], s, s', h => by simp only [run, Res.ok.injEq] at h; subst h; rfl
  | a :: as, s, s', h => by
    simp only [run] at h
    cases a with
    | thread a =>
      simp only [step] at h
      cases hn : ThreadNames.step s.names a with
      | ok n =>
        rw [hn] at h
        simp only [Res.bind] at h
        have := names_run as _ s' h
        simp only [threadActs, ThreadNames.run, hn, Res.bind]
        exact this
      | throws w => rw [hn] at h; simp [Res.bind] at h
      | ub => rw [hn] at h; simp [Res.bind] at h
      | terminate => rw [hn] at h; simp [Res.bind] at h
    | emit t b i =>
      simp only [step] at h
      simp only [threadActs]
      split at h
      · exact names_run as s s' h
      · rename_i th hth
        cases he : th.ended with
        | true => rw [he] at h; exact names_run as s s' h
        | false => rw [he] at h; exact names_run as { s with events := s.events ++ [⟨t, th.tid, b, i⟩] } s' h

theorem listed_iff (as : List Act) (ho : ∀ a ∈ threadActs as, a.own = true) (s : State) (h : run {} as = .ok s) (tid : Nat) (n : String) :
    (tid, n) ∈ s.names.names ↔ ∃ th ∈ threadsOf as, th.ended = false ∧ th.tid = tid ∧ th.name = some n :=
  (C46.names_exact_partial (threadActs as) ho s.names (names_run as {} s h)).2 tid n

/-- What a step of the tracker does to the threads. -/
theorem threads_step {n n' : ThreadNames.State} {a : ThreadNames.Act} (h : ThreadNames.step n a = .ok n') :
    n'.threads = n.threads ∨
    (∃ tid, (∀ th ∈ n.threads, th.tid = tid → th.ended = true) ∧ n'.threads = n.threads ++ [{ tid := tid }]) ∨
    ∃ (t : Nat) (th th' : ThreadNames.Thread), n.threads[t]? = some th ∧ n'.threads = n.threads.set t th' ∧ th'.tid = th.tid ∧ (th.ended = true → th'.ended = true) := by
  cases a with
  | start tid =>
    simp only [ThreadNames.step] at h
    split at h
    · simp only [Res.ok.injEq] at h; subst h; exact Or.inl rfl
    · rename_i hn
      simp only [Res.ok.injEq] at h; subst h
      refine Or.inr (Or.inl ⟨tid, ?_, rfl⟩)
      intro th hth ht
      cases he : th.ended with
      | true => rfl
      | false =>
        exfalso
        apply hn
        rw [List.any_eq_true]
        exact ⟨th, hth, by simp [ht, he]⟩
  | setCurrent t name =>
    simp only [ThreadNames.step] at h
    split at h
    · simp only [Res.ok.injEq] at h; subst h; exact Or.inl rfl
    · rename_i th hth
      split at h
      · cases h
      · simp only [Res.ok.injEq] at h; subst h
        exact Or.inr (Or.inr ⟨t, th, _, hth, rfl, rfl, fun h => h⟩)
  | pass t k name =>
    simp only [ThreadNames.step] at h
    split at h
    · simp only [Res.ok.injEq] at h; subst h; exact Or.inl rfl
    · rename_i th hth
      split at h
      · simp only [Res.ok.injEq] at h; subst h; exact Or.inl rfl
      · split at h
        · cases h
        · simp only [Res.ok.injEq] at h; subst h
          exact Or.inr (Or.inr ⟨t, th, _, hth, rfl, rfl, fun h => h⟩)
  | setOther tid name =>
    simp only [ThreadNames.step, Res.ok.injEq] at h; subst h; exact Or.inl rfl
  | exit t =>
    simp only [ThreadNames.step] at h
    split at h
    · simp only [Res.ok.injEq] at h; subst h; exact Or.inl rfl
    · rename_i th hth
      split at h
      · simp only [Res.ok.injEq] at h; subst h; exact Or.inl rfl
      · split at h
        · simp only [Res.ok.injEq] at h; subst h
          exact Or.inr (Or.inr ⟨t, th, _, hth, rfl, rfl, fun _ => rfl⟩)
        · simp only [Res.ok.injEq] at h; subst h
          exact Or.inr (Or.inr ⟨t, th, _, hth, rfl, rfl, fun _ => rfl⟩)

/-- The threads that had this id, in the order in which they were started. -/
def users (s : State) (tid : Nat) : List Nat := (List.range s.names.threads.length).filter fun t => (s.names.threads[t]?.map (·.tid)) = some tid

structure Inv (s : State) : Prop where
  known : ∀ e ∈ s.events, ∃ th, s.names.threads[e.thread]? = some th ∧ th.tid = e.tid
  last : ∀ (i j : Nat) (th th' : ThreadNames.Thread), s.names.threads[i]? = some th → s.names.threads[j]? = some th' → i < j → th.tid = th'.tid → th.ended = true
  rows : ∀ tid, row s tid = (users s tid).flatMap (recordedBy s)

theorem Inv_init : Inv {} := ⟨by simp, by simp, by intro tid; rfl⟩

theorem tids_same {l l' : List ThreadNames.Thread} {t : Nat} {th th' : ThreadNames.Thread} (h1 : l[t]? = some th) (h2 : l' = l.set t th') (h3 : th'.tid = th.tid) (i : Nat) :
    l'[i]?.map (·.tid) = l[i]?.map (·.tid) := by
  subst h2
  rw [List.getElem?_set]
  by_cases h : t = i
  · subst h
    have := (List.getElem?_eq_some_iff.mp h1).1
    rw [h1, if_pos rfl, if_pos this, Option.map_some, Option.map_some, h3]
  · simp [h]

theorem Inv_thread {s : State} (h : Inv s) {a : ThreadNames.Act} {n : ThreadNames.State} (e : ThreadNames.step s.names a = .ok n) : Inv { s with names := n } := by
  rcases threads_step e with h1 | ⟨tid, hno, h1⟩ | ⟨t, th, th', ht, h1, h2, h3⟩
  · refine ⟨?_, ?_, ?_⟩
    · simp only [h1]; exact h.known
    · simp only [h1]; exact h.last
    · intro k
      have := h.rows k
      simp only [users] at this ⊢
      simp only [h1]
      exact this
  · refine ⟨?_, ?_, ?_⟩
    · intro x hx
      obtain ⟨th, ha, hb⟩ := h.known x hx
      refine ⟨th, ?_, hb⟩
      show n.threads[x.thread]? = _
      rw [h1, List.getElem?_append_left (List.getElem?_eq_some_iff.mp ha).1, ha]
    · intro i j th th' hi hj hij ht
      simp only [h1] at hi hj
      have hjl : j < s.names.threads.length + 1 := by have := (List.getElem?_eq_some_iff.mp hj).1; simpa using this
      have hi' : s.names.threads[i]? = some th := by rwa [List.getElem?_append_left (by omega)] at hi
      by_cases hlt : j < s.names.threads.length
      · rw [List.getElem?_append_left hlt] at hj
        exact h.last i j th th' hi' hj hij ht
      · have : j = s.names.threads.length := by omega
        subst this
        simp only [List.getElem?_concat_length, Option.some.injEq] at hj
        subst hj
        exact hno th (List.mem_of_getElem? hi') ht
    · intro k
      have hr : (fun t : Nat => (decide ((n.threads[t]?.map (·.tid)) = some k))) = fun t : Nat => if t < s.names.threads.length then decide ((s.names.threads[t]?.map (·.tid)) = some k) else
          decide ((n.threads[t]?.map (·.tid)) = some k) := by
        funext t
        split
        · rename_i hl; rw [h1, List.getElem?_append_left hl]
        · rfl
      have hu : users { s with names := n } k = users s k ++ (if tid = k then [s.names.threads.length] else []) := by
        unfold users
        show List.filter _ (List.range n.threads.length) = _
        rw [h1, List.length_append, List.length_singleton, List.range_succ, List.filter_append]
        congr 1
        · apply List.filter_congr
          intro t ht
          rw [List.getElem?_append_left (by simpa using ht)]
        · by_cases hk : tid = k <;> simp [hk]
      show row s k = _
      rw [hu, h.rows k, List.flatMap_append]
      show _ = (users s k).flatMap (recordedBy s) ++ _
      have hnil : recordedBy s s.names.threads.length = [] := by
        unfold recordedBy
        rw [List.filter_eq_nil_iff]
        intro x hx
        obtain ⟨th, ha, _⟩ := h.known x hx
        have := (List.getElem?_eq_some_iff.mp ha).1
        simp only [decide_eq_true_eq]
        omega
      split
      · show _ = _ ++ (recordedBy s s.names.threads.length ++ [])
        rw [hnil]; simp
      · simp
  · have hsame := tids_same ht h1 h2
    have hlen : n.threads.length = s.names.threads.length := by rw [h1]; simp
    refine ⟨?_, ?_, ?_⟩
    · intro x hx
      obtain ⟨y, ha, hb⟩ := h.known x hx
      have := hsame x.thread
      rw [ha] at this
      cases hy : n.threads[x.thread]? with
      | none => rw [hy] at this; simp at this
      | some z =>
        rw [hy] at this
        simp only [Option.map_some, Option.some.injEq] at this
        exact ⟨z, rfl, by rw [this]; exact hb⟩
    · intro i j x y hi hj hij hxy
      have hi' := hsame i
      have hj' := hsame j
      simp only at hi hj
      rw [hi] at hi'
      rw [hj] at hj'
      cases hx : s.names.threads[i]? with
      | none => rw [hx] at hi'; simp at hi'
      | some x0 =>
        cases hy : s.names.threads[j]? with
        | none => rw [hy] at hj'; simp at hj'
        | some y0 =>
          rw [hx] at hi'; rw [hy] at hj'
          simp only [Option.map_some, Option.some.injEq] at hi' hj'
          have hend := h.last i j x0 y0 hx hy hij (by rw [← hi', ← hj']; exact hxy)
          rw [h1, List.getElem?_set] at hi
          by_cases hti : t = i
          · subst hti
            have hl := (List.getElem?_eq_some_iff.mp ht).1
            simp only [↓reduceIte, hl, Option.some.injEq] at hi
            rw [ht] at hx
            simp only [Option.some.injEq] at hx
            subst hi hx
            exact h3 hend
          · simp only [hti, ↓reduceIte] at hi
            rw [hx] at hi
            simp only [Option.some.injEq] at hi
            subst hi
            exact hend
    · intro k
      have hu : users { s with names := n } k = users s k := by
        unfold users
        show List.filter _ (List.range n.threads.length) = _
        rw [hlen]
        apply List.filter_congr
        intro t _
        show decide (Option.map _ n.threads[t]? = some k) = _
        rw [hsame t]
      rw [hu]
      exact h.rows k

theorem flatMap_congr' {l : List Nat} {f g : Nat → List Event} (h : ∀ x ∈ l, f x = g x) : l.flatMap f = l.flatMap g := by
  induction l with
  | nil => rfl
  | cons a l ih => rw [List.flatMap_cons, List.flatMap_cons, h a (by simp), ih fun x hx => h x (by simp [hx])]

theorem Inv_emit {s : State} (h : Inv s) {t : Nat} {th : ThreadNames.Thread} (ht : s.names.threads[t]? = some th) (he : th.ended = false) (b : Bool) (id : Nat) :
    Inv { s with events := s.events ++ [⟨t, th.tid, b, id⟩] } := by
  refine ⟨?_, h.last, ?_⟩
  · intro x hx
    simp only [List.mem_append, List.mem_singleton] at hx
    rcases hx with hx | rfl
    · exact h.known x hx
    · exact ⟨th, ht, rfl⟩
  · intro k
    show List.filter _ (s.events ++ _) = (users s k).flatMap _
    rw [List.filter_append]
    have hrow : List.filter (fun e : Event => decide (e.tid = k)) s.events = (users s k).flatMap (recordedBy s) := h.rows k
    rw [hrow]
    have hrec : ∀ u, recordedBy { s with events := s.events ++ [⟨t, th.tid, b, id⟩] } u = recordedBy s u ++ if t = u then [⟨t, th.tid, b, id⟩] else [] := by
      intro u
      unfold recordedBy
      rw [List.filter_append]
      by_cases hu : t = u <;> simp [hu]
    by_cases hk : th.tid = k
    · -- the thread is the last one with this id
      have hl := (List.getElem?_eq_some_iff.mp ht).1
      have hsplit : List.range s.names.threads.length = List.range t ++ t :: (List.range (s.names.threads.length - t - 1)).map (fun x => t + 1 + x) := by
        have : s.names.threads.length = t + (1 + (s.names.threads.length - t - 1)) := by omega
        conv => lhs; rw [this]
        rw [List.range_add, List.range_add]
        simp [Function.comp_def, Nat.add_assoc]
      have hu : users s k = (List.range t).filter (fun t => (s.names.threads[t]?.map (·.tid)) = some k) ++ [t] := by
        unfold users
        rw [hsplit, List.filter_append, List.filter_cons]
        simp only [ht, Option.map_some, hk, decide_true, ↓reduceIte]
        congr 2
        rw [List.filter_eq_nil_iff]
        intro x hx
        simp only [List.mem_map, List.mem_range] at hx
        obtain ⟨y, _, rfl⟩ := hx
        simp only [decide_eq_true_eq]
        intro hc
        cases hz : s.names.threads[t + 1 + y]? with
        | none => rw [hz] at hc; simp at hc
        | some z =>
          rw [hz] at hc
          simp only [Option.map_some, Option.some.injEq] at hc
          have := h.last t (t + 1 + y) th z ht hz (by omega) (by rw [hk, hc])
          rw [he] at this
          cases this
      rw [hu, List.flatMap_append, List.flatMap_append, List.append_assoc]
      congr 1
      · apply flatMap_congr'
        intro x hx
        simp only [List.mem_filter, List.mem_range] at hx
        rw [hrec, if_neg (by omega)]
        simp
      · rw [List.flatMap_cons, List.flatMap_cons, List.flatMap_nil, List.flatMap_nil, hrec, if_pos rfl]
        simp [hk]
    · have : List.filter (fun e : Event => decide (e.tid = k)) [⟨t, th.tid, b, id⟩] = [] := by simp [hk]
      rw [this, List.append_nil]
      apply flatMap_congr'
      intro x hx
      have hne : t ≠ x := by
        intro hc
        subst hc
        simp only [users, List.mem_filter, ht, Option.map_some, Option.some.injEq, decide_eq_true_eq] at hx
        exact hk hx.2
      rw [hrec, if_neg hne, List.append_nil]

theorem Inv_step {s s' : State} (h : Inv s) {a : Act} (e : step s a = .ok s') : Inv s' := by
  cases a with
  | thread a =>
    simp only [step] at e
    cases hn : ThreadNames.step s.names a with
    | ok n =>
      rw [hn] at e
      simp only [Res.bind, Res.ok.injEq] at e
      subst e
      exact Inv_thread h hn
    | throws w => rw [hn] at e; simp [Res.bind] at e
    | ub => rw [hn] at e; simp [Res.bind] at e
    | terminate => rw [hn] at e; simp [Res.bind] at e
  | emit t b id =>
    simp only [step] at e
    split at e
    · simp only [Res.ok.injEq] at e; subst e; exact h
    · rename_i th hth
      cases he : th.ended with
      | true => rw [he] at e; simp only [↓reduceIte, Res.ok.injEq] at e; subst e; exact h
      | false =>
        rw [he] at e
        simp only [Bool.false_eq_true, ↓reduceIte, Res.ok.injEq] at e
        subst e
        exact Inv_emit h hth he b id

theorem Inv_run : ∀ (as : List Act) {s s' : State}, Inv s → run s as = .ok s' → Inv s'
  | [], s, s', h, e => by simp only [run, Res.ok.injEq] at e; subst e; exact h
  | a :: as, s, s', h, e => by
    simp only [run] at e
    cases hs : step s a with
    | ok s1 => rw [hs] at e; exact Inv_run as (Inv_step h hs) e
    | throws w => rw [hs] at e; simp [Res.bind] at e
    | ub => rw [hs] at e; simp [Res.bind] at e
    | terminate => rw [hs] at e; simp [Res.bind] at e

/-! ## What holds -/

/-- **C145, rows.** In every history, the row of a thread id shows what the threads that had this id recorded, one after the other in the order in which they were started, each with all it recorded; the events of
    two threads are never mixed. -/
theorem row_exact (as : List Act) (s : State) (e : run {} as = .ok s) (tid : Nat) :
    row s tid = ((List.range s.names.threads.length).filter fun t => (s.names.threads[t]?.map (·.tid)) = some tid).flatMap (recordedBy s) :=
  (Inv_run as Inv_init e).rows tid

/-- Scopes are left in the reverse order in which they were entered. -/
inductive Balanced : List (Bool × Nat) → Prop
  | nil : Balanced []
  | append {a b : List (Bool × Nat)} : Balanced a → Balanced b → Balanced (a ++ b)
  | wrap {a : List (Bool × Nat)} (id : Nat) : Balanced a → Balanced ([(true, id)] ++ a ++ [(false, id)])

def shape (l : List Event) : List (Bool × Nat) := l.map fun e => (e.enter, e.id)

/-- **C145, nesting.** If every thread leaves the scopes that it enters, in the reverse order, the entries of every row are nested, also if the row shows several threads. -/
theorem rows_nested (as : List Act) (s : State) (e : run {} as = .ok s) (h : ∀ t, Balanced (shape (recordedBy s t))) (tid : Nat) : Balanced (shape (row s tid)) := by
  rw [row_exact as s e tid]
  generalize List.filter _ _ = l
  induction l with
  | nil => exact Balanced.nil
  | cons t l ih =>
    rw [List.flatMap_cons]
    unfold shape at ih ⊢
    rw [List.map_append]
    exact Balanced.append (h t) ih

theorem tids_run : ∀ (as : List Act) (s s' : State), run s as = .ok s' → ∀ (i : Nat) (th : ThreadNames.Thread), s.names.threads[i]? = some th →
    ∃ th', s'.names.threads[i]? = some th' ∧ th'.tid = th.tid
  | [], s, s', e, i, th, h => by simp only [run, Res.ok.injEq] at e; subst e; exact ⟨th, h, rfl⟩
  | a :: as, s, s', e, i, th, h => by
    simp only [run] at e
    have key : ∀ s1, step s a = .ok s1 → ∃ th', s1.names.threads[i]? = some th' ∧ th'.tid = th.tid := by
      intro s1 h1
      cases a with
      | thread a =>
        simp only [step] at h1
        cases hn : ThreadNames.step s.names a with
        | ok n =>
          rw [hn] at h1
          simp only [Res.bind, Res.ok.injEq] at h1
          subst h1
          rcases threads_step hn with h2 | ⟨tid, _, h2⟩ | ⟨t, x, x', ht, h2, h3, _⟩
          · exact ⟨th, by simp only [h2]; exact h, rfl⟩
          · exact ⟨th, by simp only [h2]; rw [List.getElem?_append_left (List.getElem?_eq_some_iff.mp h).1]; exact h, rfl⟩
          · have := tids_same ht h2 h3 i
            rw [h] at this
            simp only
            cases hz : n.threads[i]? with
            | none => rw [hz] at this; simp at this
            | some z => rw [hz] at this; simp only [Option.map_some, Option.some.injEq] at this; exact ⟨z, rfl, this⟩
        | throws w => rw [hn] at h1; simp [Res.bind] at h1
        | ub => rw [hn] at h1; simp [Res.bind] at h1
        | terminate => rw [hn] at h1; simp [Res.bind] at h1
      | emit t b id =>
        simp only [step] at h1
        split at h1
        · simp only [Res.ok.injEq] at h1; subst h1; exact ⟨th, h, rfl⟩
        · split at h1
          · simp only [Res.ok.injEq] at h1; subst h1; exact ⟨th, h, rfl⟩
          · simp only [Res.ok.injEq] at h1; subst h1; exact ⟨th, h, rfl⟩
    cases hs : step s a with
    | ok s1 =>
      rw [hs] at e
      obtain ⟨th1, h1, e1⟩ := key s1 hs
      obtain ⟨th2, h2, e2⟩ := tids_run as s1 s' e i th1 h1
      exact ⟨th2, h2, by rw [e2, e1]⟩
    | throws w => rw [hs] at e; simp [Res.bind] at e
    | ub => rw [hs] at e; simp [Res.bind] at e
    | terminate => rw [hs] at e; simp [Res.bind] at e

theorem run_append {s s1 : State} {as bs : List Act} (h : run s as = .ok s1) : run s (as ++ bs) = run s1 bs := by
  induction as generalizing s with
  | nil => simp only [run, Res.ok.injEq] at h; subst h; rfl
  | cons a as ih =>
    simp only [run, List.cons_append] at h ⊢
    cases hs : step s a with
    | ok s2 => rw [hs] at h; exact ih h
    | throws w => rw [hs] at h; simp [Res.bind] at h
    | ub => rw [hs] at h; simp [Res.bind] at h
    | terminate => rw [hs] at h; simp [Res.bind] at h

/-- **C145, threads that run at the same time.** What two threads recorded that at some time both existed is in different rows, whatever happens afterwards. -/
theorem together_apart (as bs : List Act) (s s' : State) (e : run {} as = .ok s) (e' : run s bs = .ok s') (i j : Nat) (x y : ThreadNames.Thread) (hij : i ≠ j)
    (hi : s.names.threads[i]? = some x) (hj : s.names.threads[j]? = some y) (hx : x.ended = false) (hy : y.ended = false) (a b : Event) (ha : a ∈ s'.events) (hb : b ∈ s'.events)
    (hai : a.thread = i) (hbj : b.thread = j) : a.tid ≠ b.tid := by
  have inv := Inv_run as Inv_init e
  have inv' := Inv_run (as ++ bs) Inv_init (by rw [run_append e]; exact e')
  obtain ⟨x', hx', ex⟩ := tids_run bs s s' e' i x hi
  obtain ⟨y', hy', ey⟩ := tids_run bs s s' e' j y hj
  obtain ⟨xa, h1, h2⟩ := inv'.known a ha
  obtain ⟨yb, h3, h4⟩ := inv'.known b hb
  rw [hai, hx'] at h1
  rw [hbj, hy'] at h3
  simp only [Option.some.injEq] at h1 h3
  subst h1 h3
  intro hc
  have ht : x.tid = y.tid := by rw [← ex, ← ey, h2, h4, hc]
  rcases Nat.lt_or_gt_of_ne hij with h | h
  · have := inv.last i j x y hi hj h ht
    rw [hx] at this; cases this
  · have := inv.last j i y x hj hi h ht.symm
    rw [hy] at this; cases this

theorem spec_thread (as : List Act) (ho : ∀ a ∈ threadActs as, a.own = true) (s : State) (e : run {} as = .ok s) :
    ThreadNames.R s.names (threadsOf as) :=
  ThreadNames.R_run ThreadNames.R_init (threadActs as) ho (names_run as {} s e)

/-- The thread of an event is known, and the event has its id. -/
theorem event_thread (as : List Act) (ho : ∀ a ∈ threadActs as, a.own = true) (s : State) (e : run {} as = .ok s) (ev : Event) (hev : ev ∈ s.events) :
    ∃ th, (threadsOf as)[ev.thread]? = some th ∧ th.tid = ev.tid := by
  obtain ⟨th, h1, h2⟩ := (Inv_run as Inv_init e).known ev hev
  have r := spec_thread as ho s e
  have hl : ev.thread < (threadsOf as).length := by rw [← r.len]; exact (List.getElem?_eq_some_iff.mp h1).1
  have ha : (threadsOf as)[ev.thread]? = some (threadsOf as)[ev.thread] := by simp [hl]
  obtain ⟨e1, _⟩ := r.thread _ _ _ h1 ha
  exact ⟨_, ha, by rw [← e1]; exact h2⟩

/-- **C145, partial.** If threads only name themselves: what a thread recorded that still exists when the recording is finished is in a row that has the name that the thread last gave itself and no other, and no name if
    it gave itself none. Missing: threads that have ended; see below. -/
theorem running_named_partial (as : List Act) (ho : ∀ a ∈ threadActs as, a.own = true) (s : State) (e : run {} as = .ok s) (ev : Event) (hev : ev ∈ s.events) (th : ThreadNames.Spec.Thread)
    (hth : (threadsOf as)[ev.thread]? = some th) (hrun : th.ended = false) (pid : Int) (name : String) :
    ∃ es, rowNames pid name s = .ok es ∧ ∀ n, Named es pid ev.tid n ↔ th.name = some n := by
  obtain ⟨es, h1, h2⟩ := named_iff pid name s
  refine ⟨es, h1, ?_⟩
  intro n
  rw [h2, listed_iff as ho s e]
  obtain ⟨th', h3, h4⟩ := event_thread as ho s e ev hev
  rw [hth] at h3
  simp only [Option.some.injEq] at h3
  subst h3
  constructor
  · rintro ⟨x, hx, hend, htid, hname⟩
    obtain ⟨j, hj, hjx⟩ := List.getElem_of_mem hx
    have hj' : (threadsOf as)[j]? = some x := by simp [hj, hjx]
    have := (spec_thread as ho s e).distinct _ _ _ _ hj' hth hend hrun (by rw [htid, h4])
    subst this
    rw [hth] at hj'
    simp only [Option.some.injEq] at hj'
    subst hj'
    exact hname
  · intro hn
    exact ⟨th, List.mem_of_getElem? hth, hrun, h4, hn⟩

/-- What a thread enters or leaves while it exists is recorded, after everything before, under its id. -/
theorem emit_recorded (s : State) (t : Nat) (th : ThreadNames.Thread) (ht : s.names.threads[t]? = some th) (he : th.ended = false) (b : Bool) (id : Nat) :
    ∃ s', step s (.emit t b id) = .ok s' ∧ s'.names = s.names ∧ recordedBy s' t = recordedBy s t ++ [⟨t, th.tid, b, id⟩] ∧ ∀ u, u ≠ t → recordedBy s' u = recordedBy s u := by
  refine ⟨{ s with events := s.events ++ [⟨t, th.tid, b, id⟩] }, by simp [step, ht, he], rfl, ?_, ?_⟩
  · unfold recordedBy
    rw [List.filter_append]
    simp
  · intro u hu
    unfold recordedBy
    rw [List.filter_append]
    simp [Ne.symm hu]

/-! ## What does not hold -/

/-- **C145 fails:** what a thread recorded that has ended before the recording is finished, and whose id no thread uses then, is in a row without a name, whatever name it gave itself. -/
theorem ended_unnamed (as : List Act) (ho : ∀ a ∈ threadActs as, a.own = true) (s : State) (e : run {} as = .ok s) (ev : Event) (hend : ∀ th ∈ threadsOf as, th.tid = ev.tid → th.ended = true)
    (pid : Int) (name : String) : ∃ es, rowNames pid name s = .ok es ∧ Unnamed es pid ev.tid := by
  obtain ⟨es, h1, h2⟩ := named_iff pid name s
  refine ⟨es, h1, ?_⟩
  intro n hn
  rw [h2, listed_iff as ho s e] at hn
  obtain ⟨x, hx, hx1, hx2, _⟩ := hn
  rw [hend x hx hx2] at hx1
  cases hx1

/-- **C145 fails, worse:** if another thread has its id by then, what it recorded is in the same row, under the name of the other one. -/
theorem reused_misnamed (as : List Act) (ho : ∀ a ∈ threadActs as, a.own = true) (s : State) (e : run {} as = .ok s) (ev : Event) (u : ThreadNames.Spec.Thread) (hu : u ∈ threadsOf as)
    (hrun : u.ended = false) (htid : u.tid = ev.tid) (m : String) (hm : u.name = some m) (pid : Int) (name : String) :
    ∃ es, rowNames pid name s = .ok es ∧ Named es pid ev.tid m ∧ ∀ n, Named es pid ev.tid n → n = m := by
  obtain ⟨es, h1, h2⟩ := named_iff pid name s
  refine ⟨es, h1, (h2 _ _).2 ((listed_iff as ho s e _ _).2 ⟨u, hu, hrun, htid, hm⟩), ?_⟩
  intro n hn
  rw [h2, listed_iff as ho s e] at hn
  obtain ⟨x, hx, hx1, hx2, hx3⟩ := hn
  obtain ⟨i, hi, hix⟩ := List.getElem_of_mem hx
  obtain ⟨j, hj, hju⟩ := List.getElem_of_mem hu
  have hi' : (threadsOf as)[i]? = some x := by simp [hi, hix]
  have hj' : (threadsOf as)[j]? = some u := by simp [hj, hju]
  have := (spec_thread as ho s e).distinct _ _ _ _ hi' hj' hx1 hrun (by rw [hx2, htid])
  subst this
  rw [hi'] at hj'
  simp only [Option.some.injEq] at hj'
  subst hj'
  rw [hm] at hx3
  simpa using hx3.symm

/-- A thread that names itself, traces a scope and ends; another one that gets its id. -/
def pool : List Act := [.thread (.start 5), .thread (.setCurrent 0 "worker a"), .emit 0 true 1, .emit 0 false 1, .thread (.exit 0)]
def next : List Act := [.thread (.start 5), .thread (.setCurrent 1 "worker b"), .emit 1 true 2, .emit 1 false 2]

theorem not_OwnRows : ¬ OwnRows := by
  intro h
  have h0 : ∃ s, run {} (pool ++ next) = .ok s ∧ s.events = [⟨0, 5, true, 1⟩, ⟨0, 5, false, 1⟩, ⟨1, 5, true, 2⟩, ⟨1, 5, false, 2⟩] := ⟨_, rfl, by decide⟩
  obtain ⟨s, hs, hev⟩ := h0
  have := (h _ s (by decide) hs ⟨0, 5, true, 1⟩ (by rw [hev]; decide) ⟨5, some "worker a", [], true⟩ (by decide)).1 ⟨1, 5, true, 2⟩ (by rw [hev]; decide) rfl
  cases this

/-- The hypotheses are met: the first thread before it ends; after it; with the next one; two threads at once. -/
example : ∃ s th, run {} (pool.take 4) = .ok s ∧ (⟨0, 5, true, 1⟩ : Event) ∈ s.events ∧ (threadsOf (pool.take 4))[0]? = some th ∧ th.ended = false ∧ th.name = some "worker a" := ⟨_, _, rfl, by decide, rfl, rfl, rfl⟩
example : ∃ s, run {} pool = .ok s ∧ (⟨0, 5, true, 1⟩ : Event) ∈ s.events ∧ ∀ th ∈ threadsOf pool, th.tid = 5 → th.ended = true := ⟨_, rfl, by decide, by decide⟩
example : ∃ s u, run {} (pool ++ next) = .ok s ∧ (⟨0, 5, true, 1⟩ : Event) ∈ s.events ∧ u ∈ threadsOf (pool ++ next) ∧ u.ended = false ∧ u.tid = 5 ∧ u.name = some "worker b" ∧ (∀ a ∈ threadActs (pool ++ next), a.own = true) :=
  ⟨_, ⟨5, some "worker b", [], false⟩, rfl, by decide, by decide, rfl, rfl, rfl, by decide⟩
example : ∃ s, run {} [.thread (.start 5), .thread (.start 6), .emit 0 true 1, .emit 1 true 1, .emit 0 false 1, .emit 1 false 1] = .ok s ∧ s.events.length = 4 ∧ row s 5 ≠ [] ∧ row s 6 ≠ [] := ⟨_, rfl, by decide, by decide, by decide⟩

end Scalopus.C145
