import Verif.Model.LttngProcs

/-!
# C136: LTTng tools can be started and halted any number of times

Starting and halting LTTng tools leaves no process and no descriptor behind, and halting a tool signals the process that the tool has started. The second holds while the system can start processes, unless the program ignores `SIGCHLD`;
the descriptors are closed if all pipes can be made. But the processes stay in the system's table when they have ended, because nobody waits for them: no program can start more tools than the table has room for, and
the halting of a tool that could not be started signals every process of the user.
-/

namespace Scalopus.C136
open Scalopus.LttngProcs

/-! ## Specification -/

/-- The children of this program in the table. -/
def children (s : State) : List Entry := s.table.filter (·.owner.isSome)

/-- The tools that are started. -/
def started (s : State) : Nat := (s.tools.filter (·.isSome)).length

/-- All pipes of the tools can be made. -/
def PipesMade (as : List Act) : Prop := ∀ a ∈ as, ∀ i pid n, a = .init i pid n → 3 ≤ n

/-- Before every start there is room in the system's table. -/
def Room : State → List Act → Prop
  | _, [] => True
  | s, a :: as => (∀ i pid n, a = .init i pid n → s.table.length < s.limit) ∧ Room (step s a) as

/-- A program at its start, in a system with other processes. -/
def Fresh (s : State) : Prop := s.starts = 0 ∧ s.tools = [] ∧ s.fds = 0 ∧ s.signals = [] ∧ (s.table.map (·.pid)).Nodup ∧ ∀ e ∈ s.table, e.owner = none

/-! ## Lists -/

theorem filter_set {l : List Tool} {i : Nat} {x y : Tool} (h : l[i]? = some x) :
    ((l.set i y).filter (·.isSome)).length + (if x.isSome then 1 else 0) = (l.filter (·.isSome)).length + (if y.isSome then 1 else 0) := by
  induction l generalizing i with
  | nil => simp at h
  | cons z l ih =>
    cases i with
    | zero =>
      simp only [List.getElem?_cons_zero, Option.some.injEq] at h
      subst h
      simp only [List.set_cons_zero, List.filter_cons]
      split <;> split <;> simp_all <;> omega
    | succ i =>
      simp only [List.getElem?_cons_succ] at h
      have := ih h
      simp only [List.set_cons_succ, List.filter_cons]
      split
      · simp only [List.length_cons]; omega
      · exact this

/-! ## Descriptors -/

theorem fds_step {s : State} (h : s.fds = 3 * started s) (a : Act) (ha : ∀ i pid n, a = .init i pid n → 3 ≤ n) :
    (step s a).fds = 3 * started (step s a) := by
  cases a with
  | newTool => simpa [step, started] using h
  | exits pid => exact h
  | foreign pid => simp only [step]; split <;> exact h
  | init i pid n =>
    have hn := ha i pid n rfl
    simp only [step]
    split
    · rename_i ht
      simp only [popen]
      rw [if_neg (by omega)]
      split
      · have := filter_set (y := some none) ht
        simp only [started] at h ⊢
        simp at this
        omega
      · split
        · exact h
        · have := filter_set (y := some (some pid)) ht
          simp only [started] at h ⊢
          simp at this
          omega
    · exact h
  | halt i =>
    simp only [step]
    split
    · rename_i p ht
      have := filter_set (y := none) ht
      simp only [started] at h ⊢
      simp at this
      omega
    · exact h

/-- **No descriptor is left**: if all pipes can be made, there are three for each tool that is started, and none when all are halted. -/
theorem descriptors_partial (s : State) (hf : Fresh s) (as : List Act) (hp : PipesMade as) : (run s as).fds = 3 * started (run s as) := by
  have key : ∀ (as : List Act) (s : State), s.fds = 3 * started s → PipesMade as → (run s as).fds = 3 * started (run s as) := by
    intro as
    induction as with
    | nil => intro s h _; exact h
    | cons a as ih => intro s h hp; exact ih _ (fds_step h a (hp a (List.mem_cons_self ..))) (fun b hb => hp b (List.mem_cons_of_mem _ hb))
  refine key as s ?_ hp
  simp [started, hf.2.1, hf.2.2.1]

/-- **A pipe that cannot be made leaves descriptors open** that no later action closes: two for each pipe that was made before it. -/
theorem pipe_fails (s : State) (i pid n : Nat) (hn : n < 3) (hi : s.tools[i]? = some none) :
    step s (.init i pid n) = { s with fds := s.fds + 2 * n } := by
  simp [step, hi, popen, hn]

/-! ## Processes -/

structure Inv (s : State) : Prop where
  nodup : (s.table.map (·.pid)).Nodup
  owned : ∀ (i p : Nat), s.tools[i]? = some (some (some p)) → ∃ e ∈ s.table, e.pid = p ∧ e.owner.isSome
  signals : ∀ p o, .process p o ∈ s.signals → o.isSome
  count : (children s).length = s.starts

theorem not_taken {s : State} {pid : Nat} (h : taken s pid = false) : ∀ e ∈ s.table, e.pid ≠ pid := by
  intro e he hp
  simp only [taken, List.any_eq_false] at h
  exact h e he (by simpa using hp)

theorem find_unique {l : List Entry} (hn : (l.map (·.pid)).Nodup) {e : Entry} (he : e ∈ l) : l.find? (·.pid == e.pid) = some e := by
  induction l with
  | nil => cases he
  | cons x l ih =>
    simp only [List.map_cons, List.nodup_cons] at hn
    rcases List.mem_cons.1 he with h | h
    · subst h; simp
    · have : x.pid ≠ e.pid := fun e' => hn.1 (e' ▸ List.mem_map_of_mem h)
      simp [this, ih hn.2 h]

theorem nodup_snoc {l : List Entry} {e : Entry} (h : (l.map (·.pid)).Nodup) (hp : ∀ x ∈ l, x.pid ≠ e.pid) : ((l ++ [e]).map (·.pid)).Nodup := by
  simp only [List.map_append, List.map_cons, List.map_nil]
  rw [List.nodup_append]
  refine ⟨h, by simp, ?_⟩
  intro a ha b hb
  simp only [List.mem_singleton] at hb
  subst hb
  obtain ⟨x, hx, rfl⟩ := List.mem_map.1 ha
  exact hp x hx

theorem ends_pids {s : State} (h : s.ignoring = false) (pid : Nat) : (ends s pid).map (·.pid) = (s.table.filter fun e => e.pid != pid || e.owner.isSome).map (·.pid) := by
  simp only [ends, h, Bool.false_eq_true, if_false, List.map_map]
  apply List.map_congr_left
  intro e _
  simp only [Function.comp]
  split <;> rfl

theorem inv_step {s : State} (h : Inv s) (hg : s.ignoring = false) (a : Act) : Inv (step s a) ∧ (step s a).ignoring = false := by
  cases a with
  | newTool =>
    refine ⟨⟨h.nodup, ?_, h.signals, h.count⟩, hg⟩
    intro i p hi
    simp only [step] at hi
    by_cases hlt : i < s.tools.length
    · rw [List.getElem?_append_left hlt] at hi; exact h.owned i p hi
    · rw [List.getElem?_append_right (by omega)] at hi
      cases hd : i - s.tools.length with
      | zero => rw [hd] at hi; cases hi
      | succ n => rw [hd] at hi; simp at hi
  | foreign pid =>
    simp only [step]
    split
    · exact ⟨h, hg⟩
    · rename_i hc
      simp only [not_or, Bool.not_eq_true] at hc
      refine ⟨⟨nodup_snoc h.nodup (not_taken hc.2), ?_, h.signals, ?_⟩, hg⟩
      · intro i p hi
        obtain ⟨e, he, h1⟩ := h.owned i p hi
        exact ⟨e, List.mem_append_left _ he, h1⟩
      · simpa [children] using h.count
  | exits pid =>
    refine ⟨⟨?_, ?_, h.signals, ?_⟩, hg⟩
    · show ((ends s pid).map (·.pid)).Nodup
      rw [ends_pids hg]
      exact List.Sublist.nodup (List.Sublist.map _ List.filter_sublist) h.nodup
    · intro i p hi
      obtain ⟨e, he, h1, h2⟩ := h.owned i p hi
      refine ⟨if e.pid = pid then { e with ended := true } else e, ?_, ?_, ?_⟩
      · show _ ∈ ends s pid
        simp only [ends, hg, Bool.false_eq_true, if_false]
        exact List.mem_map.2 ⟨e, List.mem_filter.2 ⟨he, by simp [h2]⟩, rfl⟩
      · split <;> exact h1
      · split <;> exact h2
    · show ((ends s pid).filter (·.owner.isSome)).length = s.starts
      rw [← h.count]
      simp only [ends, hg, Bool.false_eq_true, if_false, children]
      rw [List.filter_map, List.length_map, List.filter_filter]
      congr 1
      apply List.filter_congr
      intro e _
      simp only [Function.comp]
      split <;> simp <;> intro h <;> simp [h]
  | init i pid n =>
    simp only [step]
    split
    · rename_i ht
      simp only [popen]
      split
      · exact ⟨⟨h.nodup, h.owned, h.signals, h.count⟩, hg⟩
      · split
        · refine ⟨⟨h.nodup, ?_, h.signals, h.count⟩, hg⟩
          intro j p hj
          by_cases hij : i = j
          · subst hij
            rw [List.getElem?_set_self (List.getElem?_eq_some_iff.1 ht).1] at hj
            cases hj
          · rw [List.getElem?_set_ne hij] at hj
            exact h.owned j p hj
        · split
          · exact ⟨h, hg⟩
          · rename_i hc
            simp only [Bool.not_eq_true] at hc
            refine ⟨⟨nodup_snoc h.nodup (not_taken hc), ?_, h.signals, ?_⟩, hg⟩
            · intro j p hj
              by_cases hij : i = j
              · subst hij
                rw [List.getElem?_set_self (List.getElem?_eq_some_iff.1 ht).1] at hj
                cases hj
                exact ⟨_, List.mem_append_right _ (List.mem_singleton.2 rfl), rfl, rfl⟩
              · rw [List.getElem?_set_ne hij] at hj
                obtain ⟨e, he, h1⟩ := h.owned j p hj
                exact ⟨e, List.mem_append_left _ he, h1⟩
            · have := h.count
              simp only [children] at this ⊢
              simp [this]
    · exact ⟨h, hg⟩
  | halt i =>
    simp only [step]
    split
    · rename_i p ht
      refine ⟨⟨h.nodup, ?_, ?_, h.count⟩, hg⟩
      · intro j q hj
        by_cases hij : i = j
        · subst hij
          rw [List.getElem?_set_self (List.getElem?_eq_some_iff.1 ht).1] at hj
          cases hj
        · rw [List.getElem?_set_ne hij] at hj
          exact h.owned j q hj
      · intro q o hq
        rcases List.mem_append.1 hq with hq | hq
        · exact h.signals q o hq
        · cases p with
          | none => simp [reached] at hq
          | some p =>
            obtain ⟨e, he, h1, h2⟩ := h.owned i p ht
            have := find_unique h.nodup he
            rw [h1] at this
            simp only [reached, this] at hq
            split at hq
            · cases hq
            · simp only [List.mem_singleton, Signal.process.injEq] at hq
              rw [hq.2]; exact h2
    · exact ⟨h, hg⟩

theorem inv_run : ∀ (as : List Act) (s : State), Inv s → s.ignoring = false → Inv (run s as) ∧ (run s as).ignoring = false := by
  intro as
  induction as with
  | nil => intro s h hg; exact ⟨h, hg⟩
  | cons a as ih => intro s h hg; have := inv_step h hg a; exact ih _ this.1 this.2

theorem inv_fresh {s : State} (h : Fresh s) : Inv s := by
  obtain ⟨h1, h2, h3, h4, h5, h6⟩ := h
  refine ⟨h5, by simp [h2], by simp [h4], ?_⟩
  have : children s = [] := by
    simp only [children, List.filter_eq_nil_iff]
    intro e he
    simp [h6 e he]
  simp [this, h1]

/-- **A signal to a process goes to one that a tool has started**, if the program does not ignore `SIGCHLD`: never to a process of somebody else that happens to have the number. -/
theorem own_process (s : State) (hf : Fresh s) (hg : s.ignoring = false) (as : List Act) (p : Nat) (o : Option Nat)
    (h : .process p o ∈ (run s as).signals) : ∃ k, o = some k := by
  have := (inv_run as s (inv_fresh hf) hg).1.signals p o h
  exact Option.isSome_iff_exists.1 this

/-- **Every process that a tool has started stays in the table**, also when it has ended and the tool has been halted: so a program can start no more tools than the table has room for. -/
theorem children_stay (s : State) (hf : Fresh s) (hg : s.ignoring = false) (as : List Act) :
    (children (run s as)).length = (run s as).starts ∧ (run s as).starts ≤ (run s as).table.length := by
  have h := (inv_run as s (inv_fresh hf) hg).1.count
  refine ⟨h, ?_⟩
  rw [← h]
  exact List.length_filter_le _ _

theorem limit_step (s : State) (a : Act) : (step s a).limit = s.limit := by
  cases a with
  | init i pid n => simp only [step]; split <;> try rfl
                    simp only [popen]; repeat' split
                    all_goals rfl
  | halt i => simp only [step]; split <;> rfl
  | foreign pid => simp only [step]; split <;> rfl
  | _ => rfl

theorem ends_length (s : State) (pid : Nat) : (ends s pid).length ≤ s.table.length := by
  simp only [ends]
  split
  · exact List.length_filter_le _ _
  · rw [List.length_map]; exact List.length_filter_le _ _

theorem table_step (s : State) (h : s.table.length ≤ s.limit) (a : Act) : (step s a).table.length ≤ (step s a).limit := by
  rw [limit_step]
  cases a with
  | init i pid n =>
    simp only [step]
    split
    · simp only [popen]
      repeat' split
      all_goals first
        | exact h
        | (simp only [List.length_append, List.length_cons, List.length_nil]; omega)
    · exact h
  | halt i => simp only [step]; split <;> exact h
  | foreign pid =>
    simp only [step]
    split
    · exact h
    · rename_i hc
      simp only [not_or] at hc
      simp only [List.length_append, List.length_cons, List.length_nil]
      omega
  | exits pid => exact Nat.le_trans (ends_length s pid) h
  | newTool => exact h

/-- The number of starts has a bound, for all histories: a program whose tools all end and are halted cannot start tools for ever. -/
theorem starts_bounded (s : State) (hf : Fresh s) (hg : s.ignoring = false) (hl : s.table.length ≤ s.limit) (as : List Act) :
    (run s as).starts ≤ s.limit := by
  have key : ∀ (as : List Act) (s : State), s.table.length ≤ s.limit → (run s as).table.length ≤ (run s as).limit ∧ (run s as).limit = s.limit := by
    intro as
    induction as with
    | nil => intro s h; exact ⟨h, rfl⟩
    | cons a as ih =>
      intro s h
      obtain ⟨h1, h2⟩ := ih (step s a) (table_step s h a)
      exact ⟨h1, h2.trans (limit_step s a)⟩
  have h1 := key as s hl
  have h2 := children_stay s hf hg as
  omega

/-- **As long as there is room, nobody else is signalled**: no halting of a tool signals all processes. -/
theorem not_everyone_partial (s : State) (hf : Fresh s) (as : List Act) (hr : Room s as) : .everyone ∉ (run s as).signals := by
  have key : ∀ (as : List Act) (s : State), .everyone ∉ s.signals → (∀ i : Nat, s.tools[i]? ≠ some (some none)) → Room s as → .everyone ∉ (run s as).signals := by
    intro as
    induction as with
    | nil => intro s h _ _; exact h
    | cons a as ih =>
      intro s h ht hr
      have hset : ∀ (i : Nat) (y : Tool), y ≠ some none → ∀ j : Nat, (s.tools.set i y)[j]? ≠ some (some none) := by
        intro i y hy j hj
        by_cases hij : i = j
        · subst hij
          by_cases hlt : i < s.tools.length
          · rw [List.getElem?_set_self hlt] at hj; cases hj; exact hy rfl
          · rw [List.getElem?_eq_none (by simp; omega)] at hj; cases hj
        · rw [List.getElem?_set_ne hij] at hj; exact ht j hj
      refine ih (step s a) ?_ ?_ hr.2
      · cases a with
        | halt i =>
          simp only [step]
          split
          · rename_i p hp
            intro hm
            rcases List.mem_append.1 hm with hm | hm
            · exact h hm
            · cases p with
              | none => exact ht i hp
              | some p =>
                simp only [reached] at hm
                repeat' split at hm
                all_goals simp at hm
          · exact h
        | init i pid n => simp only [step]; split <;> try exact h
                          simp only [popen]; repeat' split
                          all_goals exact h
        | foreign pid => simp only [step]; split <;> exact h
        | _ => exact h
      · cases a with
        | newTool =>
          intro i hi
          simp only [step] at hi
          by_cases hlt : i < s.tools.length
          · rw [List.getElem?_append_left hlt] at hi; exact ht i hi
          · rw [List.getElem?_append_right (by omega)] at hi
            cases hd : i - s.tools.length with
            | zero => rw [hd] at hi; cases hi
            | succ n => rw [hd] at hi; simp at hi
        | halt i => simp only [step]; split <;> first | exact hset i none (by simp) | exact ht
        | init i pid n =>
          have hroom := hr.1 i pid n rfl
          simp only [step]
          split
          · simp only [popen]
            split
            · exact ht
            · rw [if_neg (by omega)]
              split
              · exact ht
              · exact hset i (some (some pid)) (by simp)
          · exact ht
        | foreign pid => simp only [step]; split <;> exact ht
        | exits pid => exact ht
  exact key as s (by simp [hf.2.2.2.1]) (by simp [hf.2.1]) hr

/-- **A tool that is started when there is no room signals all processes of the user when it is halted**, in every state. -/
theorem full_table (s : State) (i pid : Nat) (hi : s.tools[i]? = some none) (hl : s.limit ≤ s.table.length) :
    (run s [.init i pid 3, .halt i]).signals = s.signals ++ [.everyone] := by
  have hlt := (List.getElem?_eq_some_iff.1 hi).1
  have h1 : step s (.init i pid 3) = { s with tools := s.tools.set i (some none), fds := s.fds + 3 } := by
    simp [step, hi, popen, hl]
  simp only [run, List.foldl_cons, List.foldl_nil, h1]
  simp [step, hlt, reached]

/-- What a careful program does with one tool: it starts the tool, babeltrace ends, it halts the tool. -/
def round (pid : Nat) : List Act := [.init 0 pid 3, .exits pid, .halt 0]

def rounds (n : Nat) : List Act := (List.range n).flatMap round

/-- The table after `n` rounds: `n` processes that have ended. -/
def left (n : Nat) : List Entry := (List.range n).map fun k => { pid := k, owner := some k, ended := true }

theorem run_append (s : State) (a b : List Act) : run s (a ++ b) = run (run s a) b := by simp [run]

theorem after_rounds (limit n : Nat) (h : n ≤ limit) :
    run { limit := limit, tools := [none] } (rounds n) = { limit := limit, tools := [none], table := left n, starts := n } := by
  induction n with
  | zero => rfl
  | succ n ih =>
    have h1 : rounds (n + 1) = rounds n ++ round n := by simp [rounds, List.range_succ]
    rw [h1, run_append, ih (by omega)]
    have hlen : (left n).length = n := by simp [left]
    have hno : (left n).any (fun e => e.pid == n) = false := by
      simp only [left, List.any_map, List.any_eq_false, List.mem_range, Function.comp]
      intro x hx
      simp; omega
    have hmap : ∀ l : List Entry, (∀ e ∈ l, e.pid ≠ n ∧ e.owner.isSome) →
        ((l.filter fun e => e.pid != n || e.owner.isSome).map fun e => if e.pid = n then { e with ended := true } else e) = l := by
      intro l
      induction l with
      | nil => intro _; rfl
      | cons e l ihl =>
        intro he
        have h0 := he e (List.mem_cons_self ..)
        simp only [List.filter_cons, h0.2, Bool.or_true, if_true, List.map_cons, h0.1, if_false]
        rw [ihl (fun x hx => he x (List.mem_cons_of_mem _ hx))]
    have hl : ∀ e ∈ left n, e.pid ≠ n ∧ e.owner.isSome := by
      intro e he
      obtain ⟨k, hk, rfl⟩ := List.mem_map.1 he
      have := List.mem_range.1 hk
      exact ⟨by simp; omega, rfl⟩
    have hfind : (left n).find? (fun e => e.pid == n) = none := by
      rw [List.find?_eq_none]
      intro e he
      simpa using (hl e he).1
    have e1 : step { limit := limit, tools := [none], table := left n, starts := n } (.init 0 n 3) =
        { limit := limit, tools := [some (some n)], table := left n ++ [{ pid := n, owner := some n }], starts := n + 1, fds := 3 } := by
      have : ¬ limit ≤ n := by omega
      simp [step, popen, hlen, taken, hno, this]
    have e2 : step { limit := limit, tools := [some (some n)], table := left n ++ [{ pid := n, owner := some n }], starts := n + 1, fds := 3 } (.exits n) =
        { limit := limit, tools := [some (some n)], table := left n ++ [{ pid := n, owner := some n, ended := true }], starts := n + 1, fds := 3 } := by
      have := hmap (left n) hl
      simp only [step, ends, Bool.false_eq_true, if_false, List.filter_append, List.map_append, this]
      simp
    have e3 : step { limit := limit, tools := [some (some n)], table := left n ++ [{ pid := n, owner := some n, ended := true }], starts := n + 1, fds := 3 } (.halt 0) =
        { limit := limit, tools := [none], table := left n ++ [{ pid := n, owner := some n, ended := true }], starts := n + 1 } := by
      simp [step, reached, List.find?_append, hfind]
    simp only [run, round, List.foldl_cons, List.foldl_nil, e1, e2, e3]
    simp [left, List.range_succ]

/-- **A careful program wears the system out**: whatever the limit, a program that has started, seen the end of, and halted its tool as many times as there is room signals all processes of the user when it does so once more. -/
theorem worn_out (limit pid : Nat) : (run { limit := limit } (.newTool :: (rounds limit ++ [.init 0 pid 3, .halt 0]))).signals = [.everyone] := by
  have h1 : run { limit := limit } (.newTool :: (rounds limit ++ [.init 0 pid 3, .halt 0])) = run { limit := limit, tools := [none] } (rounds limit ++ [.init 0 pid 3, .halt 0]) := rfl
  rw [h1, run_append, after_rounds limit limit (Nat.le_refl _)]
  have := full_table { limit := limit, tools := [none], table := left limit, starts := limit } 0 pid rfl (by simp [left])
  simpa using this

/-- **A program that ignores `SIGCHLD` may signal a process of somebody else**: in every state with room, when babeltrace has ended and its number has been given to another process. -/
theorem ignoring_signals_others (s : State) (hg : s.ignoring = true) (i p : Nat) (hi : s.tools[i]? = some none) (hr : s.table.length < s.limit)
    (hp : ∀ e ∈ s.table, e.pid ≠ p) :
    .process p none ∈ (run s [.init i p 3, .exits p, .foreign p, .halt i]).signals := by
  have hlt := (List.getElem?_eq_some_iff.1 hi).1
  have ht : s.table.any (fun e => e.pid == p) = false := by
    rw [List.any_eq_false]
    intro e he
    simpa using hp e he
  have hfil : s.table.filter (fun e => e.pid != p) = s.table := by
    rw [List.filter_eq_self]
    intro e he
    simpa using hp e he
  have hfind : s.table.find? (fun e => e.pid == p) = none := by
    rw [List.find?_eq_none]
    intro e he
    simpa using hp e he
  have hle : ¬ s.limit ≤ s.table.length := by omega
  have e1 : step s (.init i p 3) = { s with tools := s.tools.set i (some (some p)), fds := s.fds + 3, starts := s.starts + 1, table := s.table ++ [{ pid := p, owner := some s.starts }] } := by
    simp [step, hi, popen, hle, taken, ht]
  simp only [run, List.foldl_cons, List.foldl_nil, e1]
  simp [step, ends, hg, hfil, hle, taken, ht, hlt, reached, List.find?_append, hfind]

/-- A program with two tools among other processes: the hypotheses of the theorems are met. -/
example : let s : State := { limit := 5, table := [{ pid := 1, owner := none }] }
    let as : List Act := [.newTool, .newTool, .init 0 7 3, .init 1 8 3, .exits 7, .foreign 9, .halt 1, .halt 0, .init 0 10 3]
    Fresh s ∧ PipesMade as ∧ Room s as ∧ (run s as).signals = [.process 8 (some 1)] ∧ (run s as).fds = 3 := by
  refine ⟨by simp [Fresh], ?_, ?_, by decide, by decide⟩
  · intro a ha i pid n e
    subst e
    simp at ha
    omega
  · simp [Room, step, popen, taken, ends, reached]

/-- The full statement: when all tools have been halted and all their processes have ended, nothing is left of them. -/
def NothingLeft : Prop := ∀ (s : State), Fresh s → s.ignoring = false → ∀ as : List Act, started (run s as) = 0 → (∀ e ∈ children (run s as), e.ended = true) → children (run s as) = []

theorem not_NothingLeft : ¬ NothingLeft := by
  intro h
  have := h { limit := 1 } (by simp [Fresh]) rfl (.newTool :: rounds 1) (by decide) (by decide)
  revert this
  decide

end Scalopus.C136
