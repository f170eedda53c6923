import Verif.Model.RemoteSwitch
import Verif.Props.C25_Configurator

/-!
# C141: switches set from other processes

Statements about `Model/RemoteSwitch`: any number of clients that switch tracing on and off in a process whose threads trace, and switch too, meanwhile.
-/

namespace Scalopus.C141

open RemoteSwitch
open Configurator (Config setActs)
open TraceState (R Obs)

/-- The command of this call has been sent, and the process has not done with it. -/
def Pending (s : State) (k : Nat) : Prop := k ∈ s.queue ∨ ∃ w, s.work = some w ∧ w.call = k

/-- The command of this call, if it is one that sets. -/
def cmd (s : State) (k : Nat) : Option Config := (s.calls[k]?).bind (·.cfg)

/-- The connection of this call. -/
def connOf (s : State) (k : Nat) : Option Nat := (s.calls[k]?).map (·.conn)

/-! ## Steps -/

inductive Trans (s : State) : Act → State → Prop
  | thread (a : TraceState.Act) (sw : TraceState.State) : TraceState.step s.sw a = .ok sw → Trans s (.thread a) { s with sw := sw }
  | call (conn : Nat) (cfg : Option Config) : Trans s (.call conn cfg) { s with calls := s.calls ++ [{ conn := conn, cfg := cfg }], queue := s.queue ++ [s.calls.length] }
  | take (conn k : Nat) : s.work = none → k ∈ s.queue → s.queue.find? (fun k => (s.calls[k]?).any (·.conn = conn)) = some k →
      Trans s (.take conn) { s with
        sw := { s.sw with snaps := s.sw.snaps ++ [s.sw.map] }
        queue := s.queue.erase k
        work := some { call := k, h := s.sw.snaps.length, todo := stores s.sw.snaps.length (cmd s k), left := s.sw.map } }
  | store (w : Work) (a : TraceState.Act) (as : List TraceState.Act) (sw : TraceState.State) : s.work = some w → w.todo = a :: as → TraceState.step s.sw a = .ok sw →
      Trans s .handle { s with sw := sw, work := some { w with todo := as } }
  | process (w : Work) : s.work = some w → w.todo = [] → w.process = none → Trans s .handle { s with work := some { w with process := some s.sw.process } }
  | load (w : Work) (p : Bool) (tid c : Nat) (l : List (Nat × Nat)) (y : TraceState.Cell) : s.work = some w → w.todo = [] → w.process = some p → w.left = (tid, c) :: l → s.sw.cells[c]? = some y →
      Trans s .handle { s with work := some { w with left := l, got := w.got ++ [(tid, y.val)] } }
  | answer (w : Work) (p : Bool) : s.work = some w → w.todo = [] → w.process = some p → w.left = [] →
      Trans s .handle { s with
        work := none
        calls := s.calls.modify w.call fun k => if k.out = .waiting then { k with out := .returned { process := p, threads := w.got, success := true } } else k }
  | giveUp (k : Nat) : Trans s (.giveUp k) { s with calls := s.calls.modify k fun c => if c.out = .waiting then { c with out := .failed } else c }
  | idle (x : Act) : (∀ a, x ≠ .thread a) → (∀ c cfg, x ≠ .call c cfg) → Trans s x s

theorem bind_ok {α β : Type} {x : Res α} {f : α → Res β} {b : β} (h : x.bind f = .ok b) : ∃ a, x = .ok a ∧ f a = .ok b := by
  cases x <;> simp [Res.bind] at h
  exact ⟨_, rfl, h⟩

theorem trans {s s' : State} {x : Act} (h : step s x = .ok s') : Trans s x s' := by
  cases x with
  | thread a =>
    obtain ⟨sw, h1, h2⟩ := bind_ok h
    cases h2
    exact .thread a sw h1
  | call conn cfg => cases h; exact .call conn cfg
  | take conn =>
    simp only [step] at h
    split at h
    · rename_i k hw hq
      obtain ⟨sw, h1, h2⟩ := bind_ok h
      cases h1
      cases h2
      exact .take conn k hw (List.mem_of_find?_eq_some hq) hq
    · cases h; exact .idle _ (by intro a e; cases e) (by intro a b e; cases e)
  | handle =>
    simp only [step] at h
    split at h
    · rename_i w hw
      simp only [handleStep] at h
      split at h
      · rename_i a as ht
        obtain ⟨sw, h1, h2⟩ := bind_ok h
        cases h2
        exact .store w a as sw hw ht h1
      · rename_i ht
        split at h
        · rename_i hp
          cases h
          exact .process w hw ht hp
        · rename_i p hp
          split at h
          · rename_i tid c l hl
            split at h
            · rename_i y hy
              cases h
              exact .load w p tid c l y hw ht hp hl hy
            · cases h
          · rename_i hl
            cases h
            exact .answer w p hw ht hp hl
    · cases h; exact .idle _ (by intro a e; cases e) (by intro a b e; cases e)
  | giveUp k => cases h; exact .giveUp k

theorem run_append {s s' : State} (xs ys : List Act) (h : run s (xs ++ ys) = .ok s') : ∃ s1, run s xs = .ok s1 ∧ run s1 ys = .ok s' := by
  induction xs generalizing s with
  | nil => exact ⟨s, rfl, h⟩
  | cons x xs ih =>
    obtain ⟨s1, h1, h2⟩ := bind_ok h
    obtain ⟨s2, h3, h4⟩ := ih h2
    exact ⟨s2, by simp [run, h1, Res.bind, h3], h4⟩

theorem run_join {s s1 s' : State} (xs ys : List Act) (h1 : run s xs = .ok s1) (h2 : run s1 ys = .ok s') : run s (xs ++ ys) = .ok s' := by
  induction xs generalizing s with
  | nil => cases h1; exact h2
  | cons x xs ih =>
    obtain ⟨s2, h3, h4⟩ := bind_ok h1
    simp only [List.cons_append, run, h3, Res.bind]
    exact ih h4

/-- An invariant of steps holds of histories. -/
theorem run_inv {P : State → Prop} {ok : Act → Prop} (hstep : ∀ (s : State) (x : Act) (s' : State), P s → ok x → Trans s x s' → P s') :
    ∀ (xs : List Act) (s s' : State), P s → (∀ x ∈ xs, ok x) → run s xs = .ok s' → P s'
  | [], s, s', h, _, hr => by cases hr; exact h
  | x :: xs, s, s', h, hx, hr => by
    obtain ⟨s1, h1, h2⟩ := bind_ok hr
    exact run_inv hstep xs s1 s' (hstep s x s1 h (hx x (List.mem_cons_self ..)) (trans h1)) (fun y hy => hx y (List.mem_cons_of_mem _ hy)) h2

/-! ## What every history keeps -/

structure Base (s : State) : Prop where
  r : ∃ a, R s.sw a
  nodup : s.queue.Nodup
  sorted : s.queue.Pairwise (· < ·)
  lt : ∀ k, Pending s k → k < s.calls.length
  apart : ∀ w, s.work = some w → w.call ∉ s.queue
  waits : ∀ (k : Nat) (c : Call) (r : Config), s.calls[k]? = some c → c.out = .returned r → ¬ Pending s k
  todo : ∀ w, s.work = some w → ∀ a ∈ w.todo, a ∈ stores w.h (cmd s w.call)
  cells : ∀ w, s.work = some w → ∀ e ∈ w.left, e.2 < s.sw.cells.length

theorem stores_kind {h : Nat} {c : Option Config} {a : TraceState.Act} (ha : a ∈ stores h c) :
    ∃ cfg, c = some cfg ∧ ((a = .storeProcess cfg.process ∧ cfg.setProcess = true) ∨ ∃ tid v, a = .remoteStore h tid v ∧ (tid, v) ∈ cfg.threads) := by
  cases c with
  | none => cases ha
  | some cfg =>
    refine ⟨cfg, rfl, ?_⟩
    simp only [stores, setActs, List.mem_append, List.mem_map] at ha
    rcases ha with ha | ⟨⟨tid, v⟩, hm, rfl⟩
    · split at ha
      · rename_i hs
        simp only [List.mem_singleton] at ha
        exact .inl ⟨ha, hs⟩
      · cases ha
    · exact .inr ⟨tid, v, rfl, hm⟩

theorem cells_step {s s' : TraceState.State} {x : TraceState.Act} (h : TraceState.step s x = .ok s') : s.cells.length ≤ s'.cells.length := by
  have ptr : ∀ (s : TraceState.State) (t : Nat) (th : TraceState.Thread), s.cells.length ≤ (TraceState.threadStatePtr s t th).1.cells.length := by
    intro s t th
    unfold TraceState.threadStatePtr
    simp only
    split <;> simp
  cases x with
  | getThread t =>
    simp only [TraceState.step] at h
    repeat' split at h
    all_goals first
      | (cases h; done)
      | (cases h; exact Nat.le_refl _)
      | (cases h; exact ptr _ _ _)
  | setThread t b =>
    simp only [TraceState.step] at h
    repeat' split at h
    all_goals first
      | (cases h; done)
      | (cases h; exact Nat.le_refl _)
      | (cases h; simpa [TraceState.store] using ptr s t _)
  | reach t be p =>
    simp only [TraceState.step] at h
    repeat' split at h
    all_goals first
      | (cases h; done)
      | (cases h; exact Nat.le_refl _)
      | (cases h; exact ptr s t _)
  | _ =>
    simp only [TraceState.step] at h
    repeat' split at h
    all_goals first
      | (cases h; done)
      | (cases h; exact Nat.le_refl _)
      | (cases h; simp [TraceState.store]; done)

theorem cmd_append {l : List Call} {c : Call} {k : Nat} (h : k < l.length) : ((l ++ [c])[k]?).bind (·.cfg) = (l[k]?).bind (·.cfg) := by
  rw [List.getElem?_append_left h]

theorem conn_append {l : List Call} {c : Call} {k : Nat} (h : k < l.length) : ((l ++ [c])[k]?).map (·.conn) = (l[k]?).map (·.conn) := by
  rw [List.getElem?_append_left h]

theorem conn_modify {l : List Call} (j : Nat) (f : Call → Call) (hf : ∀ c, (f c).conn = c.conn) (k : Nat) : ((l.modify j f)[k]?).map (·.conn) = (l[k]?).map (·.conn) := by
  rw [List.getElem?_modify]
  cases l[k]? with
  | none => rfl
  | some c =>
    by_cases hj : j = k <;> simp [hj, hf]

/-- Messages of one connection are taken in their order. -/
theorem in_order {s : State} (h : Base s) {conn k : Nat} (hf : s.queue.find? (fun k => (s.calls[k]?).any (·.conn = conn)) = some k) {j : Nat} (hj : j ∈ s.queue) (hlt : j < k) : connOf s j ≠ connOf s k := by
  intro e
  have hk : (s.calls[k]?).any (·.conn = conn) = true := List.find?_some (p := fun i : Nat => (s.calls[i]?).any (fun c : Call => decide (c.conn = conn))) hf
  have hj' : (s.calls[j]?).any (·.conn = conn) = true := by
    simp only [connOf] at e
    cases h1 : s.calls[j]? <;> cases h2 : s.calls[k]? <;> simp_all
  revert hf hj
  have := h.sorted
  revert this
  generalize s.queue = q
  intro hs hf hj
  induction q with
  | nil => cases hj
  | cons i q ih =>
    rw [List.find?_cons] at hf
    split at hf
    · cases hf
      rcases List.mem_cons.1 hj with e | hj
      · omega
      · have := List.rel_of_pairwise_cons hs hj
        omega
    · rename_i hn
      rcases List.mem_cons.1 hj with e | hj
      · subst e
        have hn' : (s.calls[j]?).any (·.conn = conn) = false := hn
        rw [hj'] at hn'
        cases hn'
      · exact ih hs.of_cons hf hj

theorem cmd_modify {l : List Call} (j : Nat) (f : Call → Call) (hf : ∀ c, (f c).cfg = c.cfg) (k : Nat) : ((l.modify j f)[k]?).bind (·.cfg) = (l[k]?).bind (·.cfg) := by
  rw [List.getElem?_modify]
  cases l[k]? with
  | none => rfl
  | some c =>
    by_cases hj : j = k <;> simp [hj, hf]

theorem base_step (s : State) (x : Act) (s' : State) (h : Base s) (_ : True) (ht : Trans s x s') : Base s' := by
  obtain ⟨a, hR⟩ := h.r
  cases ht with
  | thread y sw hy =>
    refine ⟨⟨_, TraceState.R_step hR y hy⟩, h.nodup, h.sorted, h.lt, h.apart, h.waits, h.todo, ?_⟩
    intro w hw e he
    exact Nat.lt_of_lt_of_le (h.cells w hw e he) (cells_step hy)
  | call conn cfg =>
    have hlt : ∀ w, s.work = some w → w.call < s.calls.length := fun w hw => h.lt _ (.inr ⟨w, hw, rfl⟩)
    refine ⟨⟨a, hR⟩, ?_, ?_, ?_, ?_, ?_, ?_, h.cells⟩
    · refine List.nodup_append.2 ⟨h.nodup, by simp, ?_⟩
      intro k hk j hj
      simp only [List.mem_singleton] at hj
      subst hj
      have := h.lt k (.inl hk)
      omega
    · refine List.pairwise_append.2 ⟨h.sorted, by simp, ?_⟩
      intro k hk j hj
      simp only [List.mem_singleton] at hj
      subst hj
      exact h.lt k (.inl hk)
    · intro k hk
      simp only [List.length_append, List.length_singleton]
      rcases hk with hk | ⟨w, hw, rfl⟩
      · simp only [List.mem_append, List.mem_singleton] at hk
        rcases hk with hk | hk
        · have := h.lt k (.inl hk); omega
        · omega
      · have := hlt w hw; omega
    · intro w hw hc
      simp only [List.mem_append, List.mem_singleton] at hc
      rcases hc with hc | hc
      · exact h.apart w hw hc
      · have := hlt w hw; omega
    · intro k c r hk hr hp
      by_cases hl : k < s.calls.length
      · simp only [List.getElem?_append_left hl] at hk
        refine h.waits k c r hk hr ?_
        rcases hp with hp | hp
        · simp only [List.mem_append, List.mem_singleton] at hp
          rcases hp with hp | hp
          · exact .inl hp
          · omega
        · exact .inr hp
      · simp only [List.getElem?_append_right (Nat.le_of_not_lt hl)] at hk
        cases hkk : k - s.calls.length with
        | zero => simp only [hkk, List.getElem?_cons_zero, Option.some.injEq] at hk; subst hk; cases hr
        | succ n => simp [hkk] at hk
    · intro w hw y hy
      have := h.todo w hw y hy
      simp only [cmd] at this ⊢
      rw [cmd_append (hlt w hw)]
      exact this
  | take conn k hw hk hf =>
    refine ⟨⟨_, TraceState.R_step hR .getMap rfl⟩, h.nodup.erase k, h.sorted.sublist List.erase_sublist, ?_, ?_, ?_, ?_, ?_⟩
    · intro j hj
      rcases hj with hj | ⟨w, hw', rfl⟩
      · exact h.lt j (.inl (List.mem_of_mem_erase hj))
      · cases hw'; exact h.lt k (.inl hk)
    · intro w hw' hm
      cases hw'
      exact (h.nodup.mem_erase_iff.1 hm).1 rfl
    · intro j c r hj hr hp
      refine h.waits j c r hj hr ?_
      rcases hp with hp | ⟨w, hw', rfl⟩
      · exact .inl (List.mem_of_mem_erase hp)
      · cases hw'; exact .inl hk
    · intro w hw' y hy
      cases hw'
      exact hy
    · intro w hw' e he
      cases hw'
      obtain ⟨k', c⟩ := e
      have hl : s.sw.map.lookup k' = some c := by
        have := hR.keys
        revert this he
        generalize s.sw.map = m
        intro he hn
        simp only at he
        induction m with
        | nil => cases he
        | cons e m ih =>
          obtain ⟨k1, c1⟩ := e
          simp only [List.map_cons, List.nodup_cons, List.mem_map, not_exists, not_and] at hn
          rcases List.mem_cons.1 he with he | he
          · cases he; simp
          · have : k' ≠ k1 := fun e => hn.1 (k', c) he e
            simp only [List.lookup_cons, beq_eq_false_iff_ne.2 this]
            exact ih he hn.2
      obtain ⟨y, _, hy, _⟩ := hR.map k' c hl
      exact (List.getElem?_eq_some_iff.1 hy).1
  | store w y ys sw hw hy hstep =>
    refine ⟨⟨_, TraceState.R_step hR y hstep⟩, h.nodup, h.sorted, ?_, ?_, ?_, ?_, ?_⟩
    · intro j hj
      rcases hj with hj | ⟨w', hw', rfl⟩
      · exact h.lt j (.inl hj)
      · cases hw'; exact h.lt _ (.inr ⟨w, hw, rfl⟩)
    · intro w' hw' hm; cases hw'; exact h.apart w hw hm
    · intro j c r hj hr hp
      refine h.waits j c r hj hr ?_
      rcases hp with hp | ⟨w', hw', rfl⟩
      · exact .inl hp
      · cases hw'; exact .inr ⟨w, hw, rfl⟩
    · intro w' hw' z hz
      cases hw'
      exact h.todo w hw z (by rw [hy]; exact List.mem_cons_of_mem _ hz)
    · intro w' hw' e he
      cases hw'
      exact Nat.lt_of_lt_of_le (h.cells w hw e he) (cells_step hstep)
  | process w hw hy hp =>
    refine ⟨⟨a, hR⟩, h.nodup, h.sorted, ?_, ?_, ?_, ?_, ?_⟩
    · intro j hj
      rcases hj with hj | ⟨w', hw', rfl⟩
      · exact h.lt j (.inl hj)
      · cases hw'; exact h.lt _ (.inr ⟨w, hw, rfl⟩)
    · intro w' hw' hm; cases hw'; exact h.apart w hw hm
    · intro j c r hj hr hq
      refine h.waits j c r hj hr ?_
      rcases hq with hq | ⟨w', hw', rfl⟩
      · exact .inl hq
      · cases hw'; exact .inr ⟨w, hw, rfl⟩
    · intro w' hw' z hz; cases hw'; exact h.todo w hw z hz
    · intro w' hw' e he; cases hw'; exact h.cells w hw e he
  | load w p tid c l y hw hy hp hl hc =>
    refine ⟨⟨a, hR⟩, h.nodup, h.sorted, ?_, ?_, ?_, ?_, ?_⟩
    · intro j hj
      rcases hj with hj | ⟨w', hw', rfl⟩
      · exact h.lt j (.inl hj)
      · cases hw'; exact h.lt _ (.inr ⟨w, hw, rfl⟩)
    · intro w' hw' hm; cases hw'; exact h.apart w hw hm
    · intro j c r hj hr hq
      refine h.waits j c r hj hr ?_
      rcases hq with hq | ⟨w', hw', rfl⟩
      · exact .inl hq
      · cases hw'; exact .inr ⟨w, hw, rfl⟩
    · intro w' hw' z hz; cases hw'; exact h.todo w hw z hz
    · intro w' hw' e he; cases hw'; exact h.cells w hw e (by rw [hl]; exact List.mem_cons_of_mem _ he)
  | answer w p hw hy hp hl =>
    refine ⟨⟨a, hR⟩, h.nodup, h.sorted, ?_, (by intro w' hw'; cases hw'), ?_, (by intro w' hw'; cases hw'), (by intro w' hw'; cases hw')⟩
    · intro j hj
      rcases hj with hj | ⟨w', hw', _⟩
      · simp only [List.length_modify]; exact h.lt j (.inl hj)
      · cases hw'
    · intro j c r hj hr hq
      rcases hq with hq | ⟨w', hw', _⟩
      · rw [List.getElem?_modify] at hj
        have hne : w.call ≠ j := fun e => h.apart w hw (e ▸ hq)
        simp only [hne, if_false] at hj
        cases hc : s.calls[j]? with
        | none => simp [hc] at hj
        | some c' =>
          simp only [hc, Option.map_eq_map, Option.map_some, Option.some.injEq, id] at hj
          subst hj
          exact h.waits j _ r hc hr (.inl hq)
      · cases hw'
  | giveUp k =>
    refine ⟨⟨a, hR⟩, h.nodup, h.sorted, ?_, h.apart, ?_, ?_, h.cells⟩
    · intro j hj
      simp only [List.length_modify]
      exact h.lt j hj
    · intro j c r hj hr hq
      rw [List.getElem?_modify] at hj
      cases hc : s.calls[j]? with
      | none => simp [hc] at hj
      | some c' =>
        simp only [hc, Option.map_eq_map, Option.map_some, Option.some.injEq] at hj
        have : c'.out = .returned r := by
          subst hj
          split at hr
          · split at hr
            · cases hr
            · exact hr
          · exact hr
        exact h.waits j c' r hc this hq
    · intro w hw y hy
      have := h.todo w hw y hy
      simp only [cmd] at this ⊢
      rw [cmd_modify k _ (by intro c; split <;> rfl)]
      exact this
  | idle => exact h

theorem base_run (xs : List Act) (s : State) (h : run {} xs = .ok s) : Base s := by
  refine run_inv (ok := fun _ => True) base_step xs {} s ?_ (fun _ _ => trivial) h
  exact
    { r := ⟨{}, TraceState.R_init⟩
      nodup := List.nodup_nil
      sorted := List.Pairwise.nil
      lt := by
        intro k hk
        rcases hk with hk | ⟨w, hw, _⟩
        · cases hk
        · cases hw
      apart := by intro w hw; cases hw
      waits := by intro k c r hk; simp at hk
      todo := by intro w hw; cases hw
      cells := by intro w hw; cases hw }

/-- A call that has returned was done with. -/
theorem returned_done (as : List Act) (s : State) (h : run {} as = .ok s) (k : Nat) (c : Call) (r : Config) (hk : s.calls[k]? = some c) (hr : c.out = .returned r) : ¬ Pending s k :=
  (base_run as s h).waits k c r hk hr

/-! ## The switch of the process -/

/-- Somebody sets the switch of the process to this value, or asks for that. -/
def SetsProcess (b : Bool) : Act → Prop
  | .thread (.setProcess v) => v = b
  | .thread (.storeProcess v) => v = b
  | .call _ (some c) => c.setProcess = true ∧ c.process = b
  | _ => False

structure J (k : Nat) (b : Bool) (s : State) : Prop where
  base : Base s
  known : k < s.calls.length
  others : ∀ j, Pending s j → ∀ cfg, cmd s j = some cfg → cfg.setProcess = true → cfg.process = b ∨ (k ∈ s.queue ∧ j < k ∧ connOf s j = connOf s k)
  mine : ∃ cfg, cmd s k = some cfg ∧ cfg.setProcess = true ∧ cfg.process = b
  here : k ∈ s.queue ∨ (∃ w, s.work = some w ∧ w.call = k ∧ .storeProcess b ∈ w.todo) ∨ s.sw.process = b

theorem process_step {s s' : TraceState.State} {x : TraceState.Act} (h : TraceState.step s x = .ok s') : s'.process = s.process ∨ x = .setProcess s'.process ∨ x = .storeProcess s'.process := by
  have ptr : ∀ (s : TraceState.State) (t : Nat) (th : TraceState.Thread), (TraceState.threadStatePtr s t th).1.process = s.process := by
    intro s t th
    unfold TraceState.threadStatePtr
    simp only
    split <;> rfl
  cases x with
  | setProcess b => cases h; exact .inr (.inl rfl)
  | storeProcess b => cases h; exact .inr (.inr rfl)
  | _ =>
    refine .inl ?_
    simp only [TraceState.step] at h
    repeat' split at h
    all_goals first
      | (cases h; done)
      | (cases h; rfl)
      | (cases h; exact ptr _ _ _)

theorem J_step (k : Nat) (b : Bool) (s : State) (x : Act) (s' : State) (h : J k b s) (hx : ¬ SetsProcess (!b) x) (ht : Trans s x s') : J k b s' := by
  have hb' := base_step s x s' h.base trivial ht
  cases ht with
  | thread y sw hy =>
    refine ⟨hb', h.known, h.others, h.mine, ?_⟩
    rcases h.here with hh | hh | hh
    · exact .inl hh
    · exact .inr (.inl hh)
    · refine .inr (.inr ?_)
      show sw.process = b
      rcases process_step hy with e | e | e
      · rw [e, hh]
      · subst e; cases hv : sw.process <;> cases b <;> simp_all [SetsProcess]
      · subst e; cases hv : sw.process <;> cases b <;> simp_all [SetsProcess]
  | call conn cfg =>
    refine ⟨hb', by simp only [List.length_append, List.length_singleton]; have := h.known; omega, ?_, ?_, ?_⟩
    · intro j hj c hc hs
      by_cases hl : j < s.calls.length
      · simp only [cmd] at hc
        rw [cmd_append hl] at hc
        have hp : Pending s j := by
          rcases hj with hj | hj
          · simp only [List.mem_append, List.mem_singleton] at hj
            rcases hj with hj | hj
            · exact .inl hj
            · omega
          · exact .inr hj
        rcases h.others j hp c hc hs with e | ⟨e1, e2, e3⟩
        · exact .inl e
        · refine .inr ⟨List.mem_append_left _ e1, e2, ?_⟩
          simp only [connOf]
          rw [conn_append hl, conn_append h.known]
          exact e3
      · simp only [cmd, List.getElem?_append_right (Nat.le_of_not_lt hl)] at hc
        cases hkk : j - s.calls.length with
        | zero =>
          simp only [hkk, List.getElem?_cons_zero, Option.bind_some] at hc
          subst hc
          refine .inl ?_
          cases hv : c.process <;> cases b <;> simp_all [SetsProcess]
        | succ n => simp [hkk] at hc
    · obtain ⟨c, hc, hs⟩ := h.mine
      exact ⟨c, by simp only [cmd]; rw [cmd_append h.known]; exact hc, hs⟩
    · rcases h.here with hh | hh
      · exact .inl (List.mem_append_left _ hh)
      · exact .inr hh
  | take conn j hw hj hf =>
    refine ⟨hb', h.known, ?_, h.mine, ?_⟩
    · intro i hi c hc hs
      have hq : i ∈ s.queue := by
        rcases hi with hi | ⟨w, hw', rfl⟩
        · exact List.mem_of_mem_erase hi
        · cases hw'; exact hj
      rcases h.others i (.inl hq) c hc hs with e | ⟨e1, e2, e3⟩
      · exact .inl e
      · by_cases ejk : j = k
        · subst ejk
          exact absurd e3 (in_order h.base hf hq e2)
        · exact .inr ⟨(List.mem_erase_of_ne (Ne.symm ejk)).2 e1, e2, e3⟩
    · rcases h.here with hh | ⟨w, hw', _⟩ | hh
      · by_cases e : j = k
        · subst e
          refine .inr (.inl ⟨_, rfl, rfl, ?_⟩)
          obtain ⟨c, hc, hs, hb⟩ := h.mine
          simp [stores, hc, setActs, hs, hb]
        · exact .inl ((List.mem_erase_of_ne (Ne.symm e)).2 hh)
      · rw [hw] at hw'; cases hw'
      · exact .inr (.inr hh)
  | store w y ys sw hw hy hstep =>
    refine ⟨hb', h.known, ?_, h.mine, ?_⟩
    · intro i hi c hc hs
      refine h.others i ?_ c hc hs
      rcases hi with hi | ⟨w', hw', rfl⟩
      · exact .inl hi
      · cases hw'; exact .inr ⟨w, hw, rfl⟩
    · obtain ⟨cfg, hcfg, hkind⟩ := stores_kind (h.base.todo w hw y (by rw [hy]; exact List.mem_cons_self ..))
      rcases hkind with ⟨rfl, hs⟩ | ⟨tid, v, rfl, _⟩
      · cases hstep
        rcases h.others w.call (.inr ⟨w, hw, rfl⟩) cfg hcfg hs with hb | ⟨e1, _⟩
        · exact .inr (.inr hb)
        · exact .inl e1
      · have hp : sw.process = s.sw.process := by
          rcases process_step hstep with e | e | e
          · exact e
          · cases e
          · cases e
        rcases h.here with hh | ⟨w', hw', hc, hm⟩ | hh
        · exact .inl hh
        · rw [hw] at hw'
          cases hw'
          rw [hy] at hm
          refine .inr (.inl ⟨_, rfl, hc, ?_⟩)
          rcases List.mem_cons.1 hm with hm | hm
          · cases hm
          · exact hm
        · exact .inr (.inr (hp.trans hh))
  | process w hw hy hp =>
    refine ⟨hb', h.known, ?_, h.mine, ?_⟩
    · intro i hi c hc hs
      refine h.others i ?_ c hc hs
      rcases hi with hi | ⟨w', hw', rfl⟩
      · exact .inl hi
      · cases hw'; exact .inr ⟨w, hw, rfl⟩
    · rcases h.here with hh | ⟨w', hw', hc, hm⟩ | hh
      · exact .inl hh
      · rw [hw] at hw'; cases hw'; rw [hy] at hm; cases hm
      · exact .inr (.inr hh)
  | load w p tid c l y hw hy hp hl hc =>
    refine ⟨hb', h.known, ?_, h.mine, ?_⟩
    · intro i hi c hc hs
      refine h.others i ?_ c hc hs
      rcases hi with hi | ⟨w', hw', rfl⟩
      · exact .inl hi
      · cases hw'; exact .inr ⟨w, hw, rfl⟩
    · rcases h.here with hh | ⟨w', hw', hc, hm⟩ | hh
      · exact .inl hh
      · rw [hw] at hw'; cases hw'; rw [hy] at hm; cases hm
      · exact .inr (.inr hh)
  | answer w p hw hy hp hl =>
    have hcmd : ∀ j, ((s.calls.modify w.call fun k => if k.out = .waiting then { k with out := .returned { process := p, threads := w.got, success := true } } else k)[j]?).bind (·.cfg) = cmd s j :=
      fun j => cmd_modify w.call _ (by intro c; split <;> rfl) j
    have hconn : ∀ j, ((s.calls.modify w.call fun k => if k.out = .waiting then { k with out := .returned { process := p, threads := w.got, success := true } } else k)[j]?).map (·.conn) = connOf s j :=
      fun j => conn_modify w.call _ (by intro c; split <;> rfl) j
    refine ⟨hb', by simp only [List.length_modify]; exact h.known, ?_, ?_, ?_⟩
    · intro i hi c hc hs
      simp only [cmd] at hc
      rw [hcmd] at hc
      simp only [connOf]
      rw [hconn, hconn]
      refine h.others i ?_ c hc hs
      rcases hi with hi | ⟨w', hw', _⟩
      · exact .inl hi
      · cases hw'
    · obtain ⟨c, hc, hs⟩ := h.mine
      exact ⟨c, by simp only [cmd]; rw [hcmd]; exact hc, hs⟩
    · rcases h.here with hh | ⟨w', hw', hc, hm⟩ | hh
      · exact .inl hh
      · rw [hw] at hw'; cases hw'; rw [hy] at hm; cases hm
      · exact .inr (.inr hh)
  | giveUp j =>
    have hcmd : ∀ i, ((s.calls.modify j fun c => if c.out = .waiting then { c with out := .failed } else c)[i]?).bind (·.cfg) = cmd s i :=
      fun i => cmd_modify j _ (by intro c; split <;> rfl) i
    have hconn : ∀ i, ((s.calls.modify j fun c => if c.out = .waiting then { c with out := .failed } else c)[i]?).map (·.conn) = connOf s i :=
      fun i => conn_modify j _ (by intro c; split <;> rfl) i
    refine ⟨hb', by simp only [List.length_modify]; exact h.known, ?_, ?_, h.here⟩
    · intro i hi c hc hs
      simp only [cmd] at hc
      rw [hcmd] at hc
      simp only [connOf]
      rw [hconn, hconn]
      exact h.others i hi c hc hs
    · obtain ⟨c, hc, hs⟩ := h.mine
      exact ⟨c, by simp only [cmd]; rw [hcmd]; exact hc, hs⟩
  | idle => exact h

theorem J_call {s0 s1 : State} (h : Base s0) (conn : Nat) (c : Config) (hc : c.setProcess = true) (hs : step s0 (.call conn (some c)) = .ok s1)
    (ho : ∀ j, Pending s0 j → ∀ cfg, cmd s0 j = some cfg → cfg.setProcess = true → cfg.process = c.process ∨ connOf s0 j = some conn) : J s0.calls.length c.process s1 := by
  have hb := base_step s0 _ s1 h trivial (trans hs)
  cases hs
  have hmine : cmd { s0 with calls := s0.calls ++ [{ conn := conn, cfg := some c }], queue := s0.queue ++ [s0.calls.length] } s0.calls.length = some c := by simp [cmd]
  refine ⟨hb, by simp, ?_, ⟨c, hmine, hc, rfl⟩, .inl (by simp)⟩
  intro j hj cfg hcfg hset
  by_cases hl : j < s0.calls.length
  · simp only [cmd] at hcfg
    rw [cmd_append hl] at hcfg
    have hp : Pending s0 j := by
      rcases hj with hj | hj
      · simp only [List.mem_append, List.mem_singleton] at hj
        rcases hj with hj | hj
        · exact .inl hj
        · omega
      · exact .inr hj
    rcases ho j hp cfg hcfg hset with e | e
    · exact .inl e
    · refine .inr ⟨by simp, hl, ?_⟩
      simp only [connOf] at e ⊢
      rw [conn_append hl, e]
      simp
  · have := hb.lt j hj
    simp only [List.length_append, List.length_singleton] at this
    have e : j = s0.calls.length := by omega
    subst e
    rw [hmine] at hcfg
    cases hcfg
    exact .inl rfl

/-- **The switch of the process is as the command set it**, from the moment on at which the process has done with the command, and so when the call returns; until somebody sets it otherwise.
    What the same client has asked for before does not matter, done or not: its commands are done in their order. -/
theorem process_holds (as : List Act) (s0 : State) (h0 : run {} as = .ok s0) (conn : Nat) (c : Config) (hc : c.setProcess = true)
    (ho : ∀ j, Pending s0 j → ∀ cfg, cmd s0 j = some cfg → cfg.setProcess = true → cfg.process = c.process ∨ connOf s0 j = some conn)
    (bs : List Act) (hb : ∀ x ∈ bs, ¬ SetsProcess (!c.process) x) (s : State) (hs : run s0 (.call conn (some c) :: bs) = .ok s) (hd : ¬ Pending s s0.calls.length) :
    s.sw.process = c.process := by
  obtain ⟨s1, h1, h2⟩ := bind_ok hs
  have hJ := run_inv (J_step s0.calls.length c.process) bs s1 s (J_call (base_run as s0 h0) conn c hc h1 ho) hb h2
  rcases hJ.here with hh | ⟨w, hw, hwc, _⟩ | hh
  · exact absurd (.inl hh) hd
  · exact absurd (.inr ⟨w, hw, hwc⟩) hd
  · exact hh

/-! ## What is recorded -/

/-- The events that thread `t` has recorded. -/
def eventsOf (t : Nat) (log : List Obs) : List Obs := log.filter fun
  | .event u _ _ => u == t
  | _ => false

/-- The thread is in a tracepoint and has seen that the process traces. -/
def Inside (s : TraceState.State) (t : Nat) : Prop := ∃ th be p, s.threads[t]? = some th ∧ th.pc = .loaded be p

theorem spec_events (a : TraceState.Spec.State) (x : TraceState.Act) (t : Nat) :
    eventsOf t (TraceState.Spec.step a x).log = eventsOf t a.log ∨
      (x = .loadThread t ∧ ∃ th be p, a.threads[t]? = some th ∧ th.pc = .loaded be p ∧ th.on = true ∧ ∃ e, eventsOf t (TraceState.Spec.step a x).log = eventsOf t a.log ++ [e]) := by
  cases x with
  | loadThread u =>
    simp only [TraceState.Spec.step]
    cases hu : a.threads[u]? with
    | none => exact .inl rfl
    | some th =>
      simp only []
      cases hp : th.pc with
      | loaded be p =>
        simp only []
        cases ho : th.on <;> cases hr : TraceState.record be p <;> simp only []
        · exact .inl rfl
        · exact .inl rfl
        · exact .inl rfl
        · rename_i rec
          by_cases e : u = t
          · subst e
            refine .inr ⟨rfl, th, be, p, hu, hp, ho, .event u th.tid rec, ?_⟩
            simp [TraceState.Spec.State.out, TraceState.Spec.State.upd, eventsOf]
          · refine .inl ?_
            simp [TraceState.Spec.State.out, TraceState.Spec.State.upd, eventsOf, e]
      | _ => exact .inl rfl
  | _ =>
    refine .inl ?_
    simp only [TraceState.Spec.step]
    repeat' split
    all_goals simp [TraceState.Spec.State.out, TraceState.Spec.State.upd, eventsOf]

theorem spec_inside (a : TraceState.Spec.State) (x : TraceState.Act) (t : Nat) (th : TraceState.Spec.Thread) (be : TraceState.Backend) (p : TraceState.Point)
    (h : (TraceState.Spec.step a x).threads[t]? = some th) (hp : th.pc = .loaded be p) :
    (x ≠ .loadThread t ∧ ∃ th', a.threads[t]? = some th' ∧ th'.pc = .loaded be p) ∨ (x = .loadProcess t ∧ a.process = true) := by
  have key : ∀ (i : Nat) (f : TraceState.Spec.Thread → TraceState.Spec.Thread), (a.upd i f).threads[t]? = some th → (i = t ∧ ∃ th', a.threads[t]? = some th' ∧ th = f th') ∨ (i ≠ t ∧ a.threads[t]? = some th) := by
    intro i f hf
    unfold TraceState.Spec.State.upd at hf
    simp only [List.getElem?_modify] at hf
    by_cases hi : i = t
    · refine .inl ⟨hi, ?_⟩
      cases ha : a.threads[t]? with
      | none => simp [ha] at hf
      | some y => simp only [ha, hi, if_true, Option.map_eq_map, Option.map_some, Option.some.injEq] at hf; exact ⟨y, rfl, hf.symm⟩
    · refine .inr ⟨hi, ?_⟩
      cases ha : a.threads[t]? with
      | none => simp [ha] at hf
      | some y => simpa [ha, hi] using hf
  cases x with
  | start tid =>
    refine .inl ⟨by simp, ?_⟩
    simp only [TraceState.Spec.step] at h
    split at h
    · exact ⟨th, h, hp⟩
    · by_cases hl : t < a.threads.length
      · simp only [List.getElem?_append_left hl] at h
        exact ⟨th, h, hp⟩
      · simp only [List.getElem?_append_right (Nat.le_of_not_lt hl)] at h
        cases hk : t - a.threads.length with
        | zero => simp only [hk, List.getElem?_cons_zero, Option.some.injEq] at h; subst h; cases hp
        | succ n => simp [hk] at h
  | reach u be' p' =>
    refine .inl ⟨by simp, ?_⟩
    simp only [TraceState.Spec.step] at h
    split at h
    · exact ⟨th, h, hp⟩
    · split at h
      · rcases key _ _ h with ⟨_, th', h1, h2⟩ | ⟨_, h1⟩
        · subst h2; cases hp
        · exact ⟨th, h1, hp⟩
      · exact ⟨th, h, hp⟩
  | loadProcess u =>
    simp only [TraceState.Spec.step] at h
    split at h
    · exact .inl ⟨by simp, th, h, hp⟩
    · split at h
      · rcases key _ _ h with ⟨e, th', h1, h2⟩ | ⟨_, h1⟩
        · refine .inr ⟨by rw [e], ?_⟩
          subst h2
          simp only at hp
          split at hp
          · assumption
          · cases hp
        · exact .inl ⟨by simp, th, h1, hp⟩
      · exact .inl ⟨by simp, th, h, hp⟩
  | loadThread u =>
    simp only [TraceState.Spec.step] at h
    by_cases e : u = t
    · subst e
      exfalso
      cases ha : a.threads[u]? with
      | none => simp [ha] at h
      | some y =>
        simp only [ha] at h
        cases hy : y.pc with
        | loaded be' p' =>
          have : (a.upd u fun th => { th with pc := .idle }).threads[u]? = some th := by
            simp only [hy] at h
            split at h
            · exact h
            · exact h
          rcases key _ _ this with ⟨_, th', _, h2⟩ | ⟨h1, _⟩
          · subst h2; cases hp
          · exact h1 rfl
        | idle => simp only [hy, ha, Option.some.injEq] at h; subst h; rw [hy] at hp; cases hp
        | ready be' p' => simp only [hy, ha, Option.some.injEq] at h; subst h; rw [hy] at hp; cases hp
    · refine .inl ⟨by simpa using e, ?_⟩
      split at h
      · exact ⟨th, h, hp⟩
      · split at h
        · have : (a.upd u fun th => { th with pc := .idle }).threads[t]? = some th := by
            split at h
            · exact h
            · exact h
          rcases key _ _ this with ⟨h1, _⟩ | ⟨_, h1⟩
          · exact absurd h1 e
          · exact ⟨th, h1, hp⟩
        · exact ⟨th, h, hp⟩
  | _ =>
    refine .inl ⟨by simp, ?_⟩
    simp only [TraceState.Spec.step] at h
    repeat' split at h
    all_goals first
      | exact ⟨th, h, hp⟩
      | (rcases key _ _ h with ⟨_, th', h1, h2⟩ | ⟨_, h1⟩
         · subst h2; exact ⟨th', h1, hp⟩
         · exact ⟨th, h1, hp⟩)

theorem sw_step {s s' : State} {x : Act} (h : Trans s x s') :
    s'.sw = s.sw ∨ ∃ a, TraceState.step s.sw a = .ok s'.sw ∧ (x = .thread a ∨ a = .getMap ∨ ∃ w, s.work = some w ∧ a ∈ w.todo) := by
  cases h with
  | thread a sw ha => exact .inr ⟨a, ha, .inl rfl⟩
  | take conn k hw hk hf => exact .inr ⟨.getMap, rfl, .inr (.inl rfl)⟩
  | store w a as sw hw hy ha => exact .inr ⟨a, ha, .inr (.inr ⟨w, hw, by rw [hy]; exact List.mem_cons_self ..⟩)⟩
  | _ => exact .inl rfl

/-- With the process switched off, a step records nothing of a thread that is not inside a tracepoint, and brings it inside none. -/
theorem off_step {s s' : TraceState.State} {a : TraceState.Spec.State} (hR : R s a) {x : TraceState.Act} (h : TraceState.step s x = .ok s') (hp : s.process = false) (t : Nat) :
    (Inside s' t → Inside s t) ∧ (eventsOf t s'.log = eventsOf t s.log ∨ (Inside s t ∧ ¬ Inside s' t ∧ ∃ e, eventsOf t s'.log = eventsOf t s.log ++ [e])) := by
  have hR' := TraceState.R_step hR x h
  have back : ∀ {s : TraceState.State} {a : TraceState.Spec.State}, R s a → (Inside s t ↔ ∃ th be p, a.threads[t]? = some th ∧ th.pc = .loaded be p) := by
    intro s a hR
    constructor
    · rintro ⟨th, be, p, h1, h2⟩
      obtain ⟨y, hy, hyp⟩ := hR.getA h1
      exact ⟨y, be, p, hy, hyp.2.1 ▸ h2⟩
    · rintro ⟨y, be, p, h1, h2⟩
      have hl : t < s.threads.length := by rw [hR.len]; exact (List.getElem?_eq_some_iff.1 h1).1
      have ht : s.threads[t]? = some s.threads[t] := List.getElem?_eq_getElem hl
      exact ⟨s.threads[t], be, p, ht, (hR.thread t _ y ht h1).2.1 ▸ h2⟩
  have hoff : a.process = false := hR.process ▸ hp
  have hin : Inside s' t → Inside s t ∧ x ≠ .loadThread t := by
    intro hi
    obtain ⟨th, be, p, h1, h2⟩ := (back hR').1 hi
    rcases spec_inside a x t th be p h1 h2 with ⟨hx, th', h3, h4⟩ | ⟨_, h3⟩
    · exact ⟨(back hR).2 ⟨th', be, p, h3, h4⟩, hx⟩
    · rw [hoff] at h3; cases h3
  refine ⟨fun hi => (hin hi).1, ?_⟩
  rw [hR.log, hR'.log]
  rcases spec_events a x t with e | ⟨hx, th, be, p, h1, h2, _, he⟩
  · exact .inl e
  · exact .inr ⟨(back hR).2 ⟨th, be, p, h1, h2⟩, fun hi => (hin hi).2 hx, he⟩

theorem pending_step {s s' : State} {x : Act} (h : Trans s x s') (k : Nat) (hk : k < s.calls.length) (hp : Pending s' k) : Pending s k := by
  cases h with
  | thread => exact hp
  | call conn cfg =>
    rcases hp with hp | hp
    · simp only [List.mem_append, List.mem_singleton] at hp
      rcases hp with hp | hp
      · exact .inl hp
      · omega
    · exact .inr hp
  | take conn j hw hj hf =>
    rcases hp with hp | ⟨w, hw', rfl⟩
    · exact .inl (List.mem_of_mem_erase hp)
    · cases hw'; exact .inl hj
  | store w y ys sw hw hy hs =>
    rcases hp with hp | ⟨w', hw', rfl⟩
    · exact .inl hp
    · cases hw'; exact .inr ⟨w, hw, rfl⟩
  | process w hw hy hq =>
    rcases hp with hp | ⟨w', hw', rfl⟩
    · exact .inl hp
    · cases hw'; exact .inr ⟨w, hw, rfl⟩
  | load w p tid c l y hw hy hq hl hc =>
    rcases hp with hp | ⟨w', hw', rfl⟩
    · exact .inl hp
    · cases hw'; exact .inr ⟨w, hw, rfl⟩
  | answer w p hw hy hq hl =>
    rcases hp with hp | ⟨w', hw', _⟩
    · exact .inl hp
    · cases hw'
  | giveUp => exact hp
  | idle => exact hp

/-- **Off means off.** A client switches the process off, and the process has done with that (the call has returned, for instance). From then on, until somebody switches it on or asks for that,
    a thread records nothing more; only a thread that was inside a tracepoint right then may finish that one. -/
theorem process_off_silent (as : List Act) (s0 : State) (h0 : run {} as = .ok s0) (conn : Nat) (c : Config) (hc : c.setProcess = true) (hoff : c.process = false)
    (ho : ∀ j, Pending s0 j → ∀ cfg, cmd s0 j = some cfg → cfg.setProcess = true → cfg.process = false ∨ connOf s0 j = some conn)
    (bs : List Act) (hb : ∀ x ∈ bs, ¬ SetsProcess true x) (s1 : State) (hs1 : run s0 (.call conn (some c) :: bs) = .ok s1) (hd : ¬ Pending s1 s0.calls.length)
    (cs : List Act) (hcs : ∀ x ∈ cs, ¬ SetsProcess true x) (s2 : State) (hs2 : run s1 cs = .ok s2) (t : Nat) :
    (¬ Inside s1.sw t → eventsOf t s2.sw.log = eventsOf t s1.sw.log) ∧
      (eventsOf t s2.sw.log = eventsOf t s1.sw.log ∨ ∃ e, eventsOf t s2.sw.log = eventsOf t s1.sw.log ++ [e]) := by
  obtain ⟨s', h1, h2⟩ := bind_ok hs1
  have hJ := run_inv (J_step s0.calls.length c.process) bs s' s1 (J_call (base_run as s0 h0) conn c hc h1 (by rw [hoff]; exact ho)) (by rw [hoff]; exact hb) h2
  have main := run_inv (ok := fun x => ¬ SetsProcess true x)
    (P := fun s => J s0.calls.length false s ∧ ¬ Pending s s0.calls.length ∧ (¬ Inside s1.sw t → ¬ Inside s.sw t ∧ eventsOf t s.sw.log = eventsOf t s1.sw.log) ∧
      ((Inside s.sw t ∧ eventsOf t s.sw.log = eventsOf t s1.sw.log) ∨ (¬ Inside s.sw t ∧ (eventsOf t s.sw.log = eventsOf t s1.sw.log ∨ ∃ e, eventsOf t s.sw.log = eventsOf t s1.sw.log ++ [e])))) ?_
    cs s1 s2 ?_ hcs hs2
  · obtain ⟨_, _, m1, m2⟩ := main
    refine ⟨fun hi => (m1 hi).2, ?_⟩
    rcases m2 with ⟨_, m⟩ | ⟨_, m⟩
    · exact .inl m
    · exact m
  · intro s x s'' ⟨hj, hnp, i1, i2⟩ hx ht
    have hj' := J_step s0.calls.length false s x s'' hj hx ht
    have hnp' : ¬ Pending s'' s0.calls.length := fun hp => hnp (pending_step ht _ hj.known hp)
    have hproc : s.sw.process = false := by
      rcases hj.here with hh | ⟨w, hw, hwc, _⟩ | hh
      · exact absurd (.inl hh) hnp
      · exact absurd (.inr ⟨w, hw, hwc⟩) hnp
      · exact hh
    refine ⟨hj', hnp', ?_⟩
    rcases sw_step ht with e | ⟨y, hy, _⟩
    · rw [e]; exact ⟨i1, i2⟩
    · obtain ⟨a, hR⟩ := hj.base.r
      obtain ⟨o1, o2⟩ := off_step hR hy hproc t
      constructor
      · intro hi
        obtain ⟨j1, j2⟩ := i1 hi
        refine ⟨fun h => j1 (o1 h), ?_⟩
        rcases o2 with o2 | ⟨o2, _⟩
        · rw [o2, j2]
        · exact absurd o2 j1
      · by_cases hin : Inside s.sw t
        · have hev : eventsOf t s.sw.log = eventsOf t s1.sw.log := by
            rcases i2 with ⟨_, i2⟩ | ⟨i2, _⟩
            · exact i2
            · exact absurd hin i2
          rcases o2 with o2 | ⟨_, o3, e, o4⟩
          · by_cases h' : Inside s''.sw t
            · exact .inl ⟨h', by rw [o2, hev]⟩
            · exact .inr ⟨h', .inl (by rw [o2, hev])⟩
          · exact .inr ⟨o3, .inr ⟨e, by rw [o4, hev]⟩⟩
        · refine .inr ⟨fun h => hin (o1 h), ?_⟩
          rcases o2 with o2 | ⟨o2, _⟩
          · rw [o2]
            rcases i2 with ⟨i2, _⟩ | ⟨_, i2⟩
            · exact absurd i2 hin
            · exact i2
          · exact absurd o2 hin
  · rw [hoff] at hJ
    refine ⟨hJ, hd, fun hi => ⟨hi, rfl⟩, ?_⟩
    by_cases hin : Inside s1.sw t
    · exact .inl ⟨hin, rfl⟩
    · exact .inr ⟨hin, .inl rfl⟩

/-! ## The switch of a thread -/

/-- Somebody sets the switch of thread `t`, which has the id `tid`, to this value, or asks for that: the thread itself, a store through a copy of the map of threads, another command. -/
def SetsThread (t tid : Nat) (b : Bool) : Act → Prop
  | .thread (.setThread u v) => u = t ∧ v = b
  | .thread (.remoteStore _ k v) => k = tid ∧ v = b
  | .call _ (some c) => (tid, b) ∈ c.threads
  | _ => False

/-- Copies of the map list threads under their own ids. -/
def SnapTid (a : TraceState.Spec.State) : Prop := ∀ (h : Nat) (old : List TraceState.Spec.Thread), a.snaps[h]? = some old →
  ∀ (t : Nat) (x : TraceState.Spec.Thread), old[t]? = some x → ∃ y, a.threads[t]? = some y ∧ y.tid = x.tid

theorem spec_thread (a : TraceState.Spec.State) (x : TraceState.Act) (t : Nat) (y : TraceState.Spec.Thread) (hy : a.threads[t]? = some y) :
    ∃ z, (TraceState.Spec.step a x).threads[t]? = some z ∧ z.tid = y.tid ∧ (y.used = true → z.used = true) ∧ (y.ended = true → z.ended = true) := by
  have key : ∀ (i : Nat) (f : TraceState.Spec.Thread → TraceState.Spec.Thread), (∀ y, (f y).tid = y.tid ∧ (y.used = true → (f y).used = true) ∧ (y.ended = true → (f y).ended = true)) →
      ∃ z, (a.threads.modify i f)[t]? = some z ∧ z.tid = y.tid ∧ (y.used = true → z.used = true) ∧ (y.ended = true → z.ended = true) := by
    intro i f hf
    rw [List.getElem?_modify, hy]
    by_cases hi : i = t
    · exact ⟨f y, by simp [hi], hf y⟩
    · exact ⟨y, by simp [hi], rfl, id, id⟩
  have same : ∃ z, a.threads[t]? = some z ∧ z.tid = y.tid ∧ (y.used = true → z.used = true) ∧ (y.ended = true → z.ended = true) := ⟨y, hy, rfl, id, id⟩
  cases x with
  | start tid =>
    simp only [TraceState.Spec.step]
    split
    · exact same
    · exact ⟨y, by simp only [List.getElem?_append_left (List.getElem?_eq_some_iff.1 hy).1]; exact hy, rfl, id, id⟩
  | _ =>
    simp only [TraceState.Spec.step, TraceState.Spec.State.out, TraceState.Spec.State.upd]
    repeat' split
    all_goals first
      | exact same
      | (refine key _ _ ?_; intro y; simp)

theorem spec_snaps (a : TraceState.Spec.State) (x : TraceState.Act) (h : Nat) (old : List TraceState.Spec.Thread) (hs : a.snaps[h]? = some old) : (TraceState.Spec.step a x).snaps[h]? = some old := by
  cases x with
  | getMap =>
    show (a.snaps ++ [a.threads])[h]? = some old
    rw [List.getElem?_append_left (List.getElem?_eq_some_iff.1 hs).1, hs]
  | _ =>
    simp only [TraceState.Spec.step, TraceState.Spec.State.out, TraceState.Spec.State.upd]
    repeat' split
    all_goals exact hs

theorem snapTid_step (a : TraceState.Spec.State) (x : TraceState.Act) (h : SnapTid a) : SnapTid (TraceState.Spec.step a x) := by
  intro i old hi t y hy
  have hold : (∃ z, a.threads[t]? = some z ∧ z.tid = y.tid) := by
    cases hs : a.snaps[i]? with
    | some old' =>
      have := spec_snaps a x i old' hs
      rw [hi] at this
      cases this
      exact h i old hs t y hy
    | none =>
      cases x with
      | getMap =>
        have hi' : (a.snaps ++ [a.threads])[i]? = some old := hi
        rw [List.getElem?_append_right (List.getElem?_eq_none_iff.1 hs)] at hi'
        cases hk : i - a.snaps.length with
        | zero => simp only [hk, List.getElem?_cons_zero, Option.some.injEq] at hi'; subst hi'; exact ⟨y, hy, rfl⟩
        | succ n => simp [hk] at hi'
      | _ =>
        exfalso
        simp only [TraceState.Spec.step, TraceState.Spec.State.out, TraceState.Spec.State.upd] at hi
        repeat' split at hi
        all_goals (rw [hs] at hi; cases hi)
  obtain ⟨z, hz, hzt⟩ := hold
  obtain ⟨z', hz', h1, _⟩ := spec_thread a x t z hz
  exact ⟨z', hz', h1.trans hzt⟩

/-- What sets the switch of a thread. -/
theorem sets_tid {a : TraceState.Spec.State} (hs : SnapTid a) {t : Nat} {y : TraceState.Spec.Thread} (hy : a.threads[t]? = some y) {x : TraceState.Act} {v : Bool} (h : C22.sets a t x = some v) :
    x = .setThread t v ∨ ∃ i, x = .remoteStore i y.tid v := by
  cases x with
  | setThread u w =>
    simp only [C22.sets] at h
    split at h
    · rename_i hc; cases h; exact .inl (by rw [hc.1])
    · cases h
  | remoteStore i k w =>
    simp only [C22.sets] at h
    split at h
    · rename_i hc
      cases h
      cases hi : a.snaps[i]? with
      | none => simp [hi] at hc
      | some old =>
        simp only [hi, Option.bind_some] at hc
        obtain ⟨z, hz, _, hzk⟩ := TraceState.who_some hc
        obtain ⟨y', hy', e⟩ := hs i old hi t z hz
        rw [hy] at hy'
        cases hy'
        exact .inr ⟨i, by rw [e, hzk]⟩
    · cases h
  | _ => cases h

/-- How thread `t` is, seen from the specification. -/
structure Spot (s : State) (t tid k : Nat) (b : Bool) (a : TraceState.Spec.State) (y : TraceState.Spec.Thread) : Prop where
  r : R s.sw a
  snap : SnapTid a
  at_ : a.threads[t]? = some y
  id : y.tid = tid
  here : y.ended = true ∨ (y.used = true ∧ (k ∈ s.queue ∨
    (∃ w, s.work = some w ∧ w.call = k ∧ .remoteStore w.h tid b ∈ w.todo ∧ (a.snaps[w.h]?).bind (TraceState.Spec.who · tid) = some t) ∨ y.on = b))

structure K (t tid k : Nat) (b : Bool) (s : State) : Prop where
  base : Base s
  known : k < s.calls.length
  others : ∀ j, Pending s j → ∀ cfg, cmd s j = some cfg → (tid, !b) ∉ cfg.threads ∨ (k ∈ s.queue ∧ j < k ∧ connOf s j = connOf s k)
  mine : ∃ cfg, cmd s k = some cfg ∧ (tid, b) ∈ cfg.threads
  spot : ∃ a y, Spot s t tid k b a y

theorem neg_of {v b : Bool} (h : v ≠ !b) : v = b := by cases v <;> cases b <;> simp_all

/-- A step of the switches that does not set this one otherwise. -/
theorem spot_sw {s : State} {t tid k : Nat} {b : Bool} {a : TraceState.Spec.State} {y : TraceState.Spec.Thread} (h : Spot s t tid k b a y) {x : TraceState.Act} {sw : TraceState.State}
    (hx : TraceState.step s.sw x = .ok sw) : ∃ z, R sw (TraceState.Spec.step a x) ∧ SnapTid (TraceState.Spec.step a x) ∧
      (TraceState.Spec.step a x).threads[t]? = some z ∧ z.tid = tid ∧ (y.ended = true → z.ended = true) ∧ (y.used = true → z.used = true) ∧ (x ≠ .setThread t (!b) → (∀ i, x ≠ .remoteStore i tid (!b)) → y.on = b → z.on = b) ∧ (C22.sets a t x = some b → z.on = b) := by
  obtain ⟨z, hz, z1, z2, z3⟩ := spec_thread a x t y h.at_
  have hon := C22.on_step a x t y.on y h.at_ rfl
  rw [hz] at hon
  simp only [Option.map_some, Option.some.injEq] at hon
  refine ⟨z, TraceState.R_step h.r x hx, snapTid_step a x h.snap, hz, z1.trans h.id, z3, z2, ?_, ?_⟩
  · intro h1 h2 e
    rw [hon]
    cases hs : C22.sets a t x with
    | none => exact e
    | some v =>
      simp only [Option.getD_some]
      refine neg_of fun hv => ?_
      subst hv
      rcases sets_tid h.snap h.at_ hs with e' | ⟨i, e'⟩
      · exact h1 e'
      · rw [h.id] at e'; exact h2 i e'
  · intro e
    rw [hon, e]
    rfl

theorem K_step (t tid k : Nat) (b : Bool) (s : State) (x : Act) (s' : State) (h : K t tid k b s) (hx : ¬ SetsThread t tid (!b) x) (ht : Trans s x s') : K t tid k b s' := by
  have hb' := base_step s x s' h.base trivial ht
  obtain ⟨a, y, hs⟩ := h.spot
  cases ht with
  | thread z sw hz =>
    obtain ⟨y', r1, r2, r3, r4, r5, r6, r7, _⟩ := spot_sw hs hz
    have r7 := r7 (by rintro rfl; exact hx ⟨rfl, rfl⟩) (by rintro i rfl; exact hx ⟨rfl, rfl⟩)
    refine ⟨hb', h.known, h.others, h.mine, _, y', r1, r2, r3, r4, ?_⟩
    rcases hs.here with hh | ⟨hu, hh | ⟨w, hw, hc, hm, hwho⟩ | hh⟩
    · exact .inl (r5 hh)
    · exact .inr ⟨r6 hu, .inl hh⟩
    · refine .inr ⟨r6 hu, .inr (.inl ⟨w, hw, hc, hm, ?_⟩)⟩
      cases ho : a.snaps[w.h]? with
      | none => simp [ho] at hwho
      | some old => rw [spec_snaps a z w.h old ho, ← ho]; exact hwho
    · exact .inr ⟨r6 hu, .inr (.inr (r7 hh))⟩
  | call conn cfg =>
    refine ⟨hb', by simp only [List.length_append, List.length_singleton]; have := h.known; omega, ?_, ?_, a, y, hs.r, hs.snap, hs.at_, hs.id, ?_⟩
    · intro j hj c hc
      by_cases hl : j < s.calls.length
      · simp only [cmd] at hc
        rw [cmd_append hl] at hc
        have hp : Pending s j := by
          rcases hj with hj | hj
          · simp only [List.mem_append, List.mem_singleton] at hj
            rcases hj with hj | hj
            · exact .inl hj
            · omega
          · exact .inr hj
        rcases h.others j hp c hc with e | ⟨e1, e2, e3⟩
        · exact .inl e
        · refine .inr ⟨List.mem_append_left _ e1, e2, ?_⟩
          simp only [connOf]
          rw [conn_append hl, conn_append h.known]
          exact e3
      · simp only [cmd, List.getElem?_append_right (Nat.le_of_not_lt hl)] at hc
        cases hkk : j - s.calls.length with
        | zero =>
          simp only [hkk, List.getElem?_cons_zero, Option.bind_some] at hc
          subst hc
          exact .inl hx
        | succ n => simp [hkk] at hc
    · obtain ⟨c, hc, hm⟩ := h.mine
      exact ⟨c, by simp only [cmd]; rw [cmd_append h.known]; exact hc, hm⟩
    · rcases hs.here with hh | ⟨hu, hh | hh⟩
      · exact .inl hh
      · exact .inr ⟨hu, .inl (List.mem_append_left _ hh)⟩
      · exact .inr ⟨hu, .inr hh⟩
  | take conn j hw hj hf =>
    obtain ⟨y', r1, r2, r3, r4, r5, r6, r7, _⟩ := spot_sw hs (x := .getMap) rfl
    have hy' : y' = y := by
      have : (TraceState.Spec.step a .getMap).threads[t]? = some y := hs.at_
      rw [r3] at this
      exact Option.some.inj this
    subst hy'
    refine ⟨hb', h.known, ?_, h.mine, _, y', r1, r2, r3, r4, ?_⟩
    · intro i hi c hc
      have hq : i ∈ s.queue := by
        rcases hi with hi | ⟨w, hw', rfl⟩
        · exact List.mem_of_mem_erase hi
        · cases hw'; exact hj
      rcases h.others i (.inl hq) c hc with e | ⟨e1, e2, e3⟩
      · exact .inl e
      · by_cases ejk : j = k
        · subst ejk
          exact absurd e3 (in_order h.base hf hq e2)
        · exact .inr ⟨(List.mem_erase_of_ne (Ne.symm ejk)).2 e1, e2, e3⟩
    · rcases hs.here with hh | ⟨hu, hh | ⟨w, hw', _⟩ | hh⟩
      · exact .inl hh
      · by_cases e : j = k
        · subst e
          cases he : y'.ended with
          | true => exact .inl rfl
          | false =>
          refine .inr ⟨hu, .inr (.inl ⟨_, rfl, rfl, ?_, ?_⟩)⟩
          · obtain ⟨c, hc, hm⟩ := h.mine
            simp only [stores, hc, setActs, List.mem_append, List.mem_map]
            exact .inr ⟨(tid, b), hm, rfl⟩
          · have hsn : (TraceState.Spec.step a .getMap).snaps[s.sw.snaps.length]? = some a.threads := by
              show (a.snaps ++ [a.threads])[s.sw.snaps.length]? = _
              rw [hs.r.snapLen]
              simp
            rw [hsn]
            exact (Configurator.who_iff hs.r tid t).2 ⟨y', hs.at_, by simp [TraceState.Spec.Thread.listed, hu, he], hs.id⟩
        · exact .inr ⟨hu, .inl ((List.mem_erase_of_ne (Ne.symm e)).2 hh)⟩
      · rw [hw] at hw'; cases hw'
      · exact .inr ⟨hu, .inr (.inr hh)⟩
  | store w z zs sw hw hz hstep =>
    obtain ⟨cfg, hcfg, hkind⟩ := stores_kind (h.base.todo w hw z (by rw [hz]; exact List.mem_cons_self ..))
    have hno := h.others w.call (.inr ⟨w, hw, rfl⟩) cfg hcfg
    obtain ⟨y', r1, r2, r3, r4, r5, r6, r7, r8⟩ := spot_sw hs hstep
    refine ⟨hb', h.known, ?_, h.mine, _, y', r1, r2, r3, r4, ?_⟩
    · intro i hi c hc
      refine h.others i ?_ c hc
      rcases hi with hi | ⟨w', hw', rfl⟩
      · exact .inl hi
      · cases hw'; exact .inr ⟨w, hw, rfl⟩
    · rcases hs.here with hh | ⟨hu, hh | ⟨w', hw', hc, hm, hwho⟩ | hh⟩
      · exact .inl (r5 hh)
      · exact .inr ⟨r6 hu, .inl hh⟩
      · rw [hw] at hw'
        cases hw'
        rw [hz] at hm
        rcases List.mem_cons.1 hm with hm | hm
        · refine .inr ⟨r6 hu, .inr (.inr (r8 ?_))⟩
          rw [← hm]
          simp [C22.sets, hwho]
        · refine .inr ⟨r6 hu, .inr (.inl ⟨_, rfl, hc, hm, ?_⟩)⟩
          cases ho : a.snaps[w.h]? with
          | none => simp [ho] at hwho
          | some old => simp only []; rw [spec_snaps a z w.h old ho, ← ho]; exact hwho
      · rcases hno with hno | ⟨e1, _⟩
        · refine .inr ⟨r6 hu, .inr (.inr (r7 ?_ ?_ hh))⟩
          · rintro rfl; rcases hkind with ⟨e, _⟩ | ⟨_, _, e, _⟩ <;> cases e
          · rintro i rfl; rcases hkind with ⟨e, _⟩ | ⟨_, _, e, hm⟩ <;> cases e; exact hno hm
        · exact .inr ⟨r6 hu, .inl e1⟩
  | process w hw hy hp =>
    refine ⟨hb', h.known, ?_, h.mine, a, y, hs.r, hs.snap, hs.at_, hs.id, ?_⟩
    · intro i hi c hc
      refine h.others i ?_ c hc
      rcases hi with hi | ⟨w', hw', rfl⟩
      · exact .inl hi
      · cases hw'; exact .inr ⟨w, hw, rfl⟩
    · rcases hs.here with hh | ⟨hu, hh | ⟨w', hw', hc, hm, _⟩ | hh⟩
      · exact .inl hh
      · exact .inr ⟨hu, .inl hh⟩
      · rw [hw] at hw'; cases hw'; rw [hy] at hm; cases hm
      · exact .inr ⟨hu, .inr (.inr hh)⟩
  | load w p tid' c l y' hw hy hp hl hc =>
    refine ⟨hb', h.known, ?_, h.mine, a, y, hs.r, hs.snap, hs.at_, hs.id, ?_⟩
    · intro i hi c hc
      refine h.others i ?_ c hc
      rcases hi with hi | ⟨w', hw', rfl⟩
      · exact .inl hi
      · cases hw'; exact .inr ⟨w, hw, rfl⟩
    · rcases hs.here with hh | ⟨hu, hh | ⟨w', hw', hc, hm, _⟩ | hh⟩
      · exact .inl hh
      · exact .inr ⟨hu, .inl hh⟩
      · rw [hw] at hw'; cases hw'; rw [hy] at hm; cases hm
      · exact .inr ⟨hu, .inr (.inr hh)⟩
  | answer w p hw hy hp hl =>
    have hcmd : ∀ j, ((s.calls.modify w.call fun k => if k.out = .waiting then { k with out := .returned { process := p, threads := w.got, success := true } } else k)[j]?).bind (·.cfg) = cmd s j :=
      fun j => cmd_modify w.call _ (by intro c; split <;> rfl) j
    have hconn : ∀ j, ((s.calls.modify w.call fun k => if k.out = .waiting then { k with out := .returned { process := p, threads := w.got, success := true } } else k)[j]?).map (·.conn) = connOf s j :=
      fun j => conn_modify w.call _ (by intro c; split <;> rfl) j
    refine ⟨hb', by simp only [List.length_modify]; exact h.known, ?_, ?_, a, y, hs.r, hs.snap, hs.at_, hs.id, ?_⟩
    · intro i hi c hc
      simp only [cmd] at hc
      rw [hcmd] at hc
      simp only [connOf]
      rw [hconn, hconn]
      refine h.others i ?_ c hc
      rcases hi with hi | ⟨w', hw', _⟩
      · exact .inl hi
      · cases hw'
    · obtain ⟨c, hc, hm⟩ := h.mine
      exact ⟨c, by simp only [cmd]; rw [hcmd]; exact hc, hm⟩
    · rcases hs.here with hh | ⟨hu, hh | ⟨w', hw', hc, hm, _⟩ | hh⟩
      · exact .inl hh
      · exact .inr ⟨hu, .inl hh⟩
      · rw [hw] at hw'; cases hw'; rw [hy] at hm; cases hm
      · exact .inr ⟨hu, .inr (.inr hh)⟩
  | giveUp j =>
    have hcmd : ∀ i, ((s.calls.modify j fun c => if c.out = .waiting then { c with out := .failed } else c)[i]?).bind (·.cfg) = cmd s i :=
      fun i => cmd_modify j _ (by intro c; split <;> rfl) i
    have hconn : ∀ i, ((s.calls.modify j fun c => if c.out = .waiting then { c with out := .failed } else c)[i]?).map (·.conn) = connOf s i :=
      fun i => conn_modify j _ (by intro c; split <;> rfl) i
    refine ⟨hb', by simp only [List.length_modify]; exact h.known, ?_, ?_, a, y, hs.r, hs.snap, hs.at_, hs.id, hs.here⟩
    · intro i hi c hc
      simp only [cmd] at hc
      rw [hcmd] at hc
      simp only [connOf]
      rw [hconn, hconn]
      exact h.others i hi c hc
    · obtain ⟨c, hc, hm⟩ := h.mine
      exact ⟨c, by simp only [cmd]; rw [hcmd]; exact hc, hm⟩
  | idle => exact h

/-- The copies of every history list threads under their own ids. -/
theorem snapTid_run (as : List Act) (s : State) (h : run {} as = .ok s) : ∃ a, R s.sw a ∧ SnapTid a := by
  refine run_inv (ok := fun _ => True) (P := fun s => ∃ a, R s.sw a ∧ SnapTid a) ?_ as {} s ⟨{}, TraceState.R_init, by intro h old hh; simp at hh⟩ (fun _ _ => trivial) h
  intro s x s' ⟨a, hR, hS⟩ _ ht
  rcases sw_step ht with e | ⟨y, hy, _⟩
  · rw [e]; exact ⟨a, hR, hS⟩
  · exact ⟨_, TraceState.R_step hR y hy, snapTid_step a y hS⟩

/-- The thread exists, it has this id, and `getThreadMap` lists it: it has passed a tracepoint, or read or set its switch. -/
def Listed (s : State) (t tid : Nat) : Prop := ∃ th, s.sw.threads[t]? = some th ∧ th.tid = tid ∧ th.ended = false ∧ (s.sw.map.lookup tid).isSome = true

/-- The switch of thread `t`. -/
def switch (s : State) (t : Nat) : Option Bool := (s.sw.cells.find? (·.owner == t)).map (·.val)

theorem K_call {as : List Act} {s0 s1 : State} (h0 : run {} as = .ok s0) (conn : Nat) (c : Config) (t tid : Nat) (b : Bool) (hn : (c.threads.map (·.1)).Nodup) (hc : (tid, b) ∈ c.threads)
    (hl : Listed s0 t tid) (hs : step s0 (.call conn (some c)) = .ok s1)
    (ho : ∀ j, Pending s0 j → ∀ cfg, cmd s0 j = some cfg → (tid, !b) ∉ cfg.threads ∨ connOf s0 j = some conn) : K t tid s0.calls.length b s1 := by
  have hb := base_step s0 _ s1 (base_run as s0 h0) trivial (trans hs)
  obtain ⟨a, hR, hS⟩ := snapTid_run as s0 h0
  cases hs
  have hmine : cmd { s0 with calls := s0.calls ++ [{ conn := conn, cfg := some c }], queue := s0.queue ++ [s0.calls.length] } s0.calls.length = some c := by simp [cmd]
  obtain ⟨th, ht, htid, hend, hmap⟩ := hl
  obtain ⟨y, hy, y1, y2, y3, y4⟩ := hR.getA ht
  refine ⟨hb, by simp, ?_, ⟨c, hmine, hc⟩, a, y, hR, hS, hy, y1.symm.trans htid, .inr ⟨?_, .inl (by simp)⟩⟩
  · intro j hj cfg hcfg
    by_cases hlt : j < s0.calls.length
    · simp only [cmd] at hcfg
      rw [cmd_append hlt] at hcfg
      have hp : Pending s0 j := by
        rcases hj with hj | hj
        · simp only [List.mem_append, List.mem_singleton] at hj
          rcases hj with hj | hj
          · exact .inl hj
          · omega
        · exact .inr hj
      rcases ho j hp cfg hcfg with e | e
      · exact .inl e
      · refine .inr ⟨by simp, hlt, ?_⟩
        simp only [connOf] at e ⊢
        rw [conn_append hlt, e]
        simp
    · have := hb.lt j hj
      simp only [List.length_append, List.length_singleton] at this
      have e : j = s0.calls.length := by omega
      subst e
      rw [hmine] at hcfg
      cases hcfg
      refine .inl fun hm => ?_
      have : ∀ (l : List (Nat × Bool)), (l.map (·.1)).Nodup → (tid, b) ∈ l → (tid, !b) ∈ l → False := by
        intro l
        induction l with
        | nil => intro _ h; cases h
        | cons e l ih =>
          intro hn h1 h2
          simp only [List.map_cons, List.nodup_cons, List.mem_map, not_exists, not_and] at hn
          rcases List.mem_cons.1 h1 with e1 | e1 <;> rcases List.mem_cons.1 h2 with e2 | e2
          · rw [← e1] at e2; cases b <;> cases e2
          · subst e1; exact hn.1 _ e2 rfl
          · subst e2; exact hn.1 _ e1 rfl
          · exact ih hn.2 e1 e2
      exact this c.threads hn hc hm
  · cases hm : s0.sw.map.lookup tid with
    | none => simp [hm] at hmap
    | some cell =>
      obtain ⟨z, x, hz, hx, hxt, hxl⟩ := hR.map tid cell hm
      simp only [TraceState.Spec.Thread.listed, Bool.and_eq_true, Bool.not_eq_true'] at hxl
      have := hR.distinct _ _ _ _ hx hy hxl.2 (y3 ▸ hend) (by rw [hxt, ← y1, htid])
      rw [this, hy] at hx
      cases hx
      exact hxl.1

/-- **The switch of a thread is as the command set it**, from the moment on at which the process has done with the command, until the thread ends or somebody sets it otherwise. -/
theorem thread_holds (as : List Act) (s0 : State) (h0 : run {} as = .ok s0) (conn : Nat) (c : Config) (t tid : Nat) (b : Bool) (hn : (c.threads.map (·.1)).Nodup) (hc : (tid, b) ∈ c.threads)
    (hl : Listed s0 t tid) (ho : ∀ j, Pending s0 j → ∀ cfg, cmd s0 j = some cfg → (tid, !b) ∉ cfg.threads ∨ connOf s0 j = some conn)
    (bs : List Act) (hb : ∀ x ∈ bs, ¬ SetsThread t tid (!b) x) (s : State) (hs : run s0 (.call conn (some c) :: bs) = .ok s) (hd : ¬ Pending s s0.calls.length) :
    (∃ th, s.sw.threads[t]? = some th ∧ th.ended = true) ∨ switch s t = some b := by
  obtain ⟨s1, h1, h2⟩ := bind_ok hs
  have hK := run_inv (K_step t tid s0.calls.length b) bs s1 s (K_call h0 conn c t tid b hn hc hl h1 ho) hb h2
  obtain ⟨a, y, hs⟩ := hK.spot
  have hlt : t < s.sw.threads.length := by rw [hs.r.len]; exact (List.getElem?_eq_some_iff.1 hs.at_).1
  have ht : s.sw.threads[t]? = some s.sw.threads[t] := List.getElem?_eq_getElem hlt
  have hth := hs.r.thread t _ y ht hs.at_
  rcases hs.here with hh | ⟨hu, hh | ⟨w, hw, hwc, _⟩ | hh⟩
  · exact .inl ⟨_, ht, by rw [hth.2.2.1, hh]⟩
  · exact absurd (.inl hh) hd
  · exact absurd (.inr ⟨w, hw, hwc⟩) hd
  · cases he : y.ended with
    | true => exact .inl ⟨_, ht, by rw [hth.2.2.1, he]⟩
    | false =>
      obtain ⟨cell, z, _, hz, hzo⟩ := hs.r.mapBack t y hs.at_ (by simp [TraceState.Spec.Thread.listed, hu, he])
      refine .inr ?_
      unfold switch
      cases hf : s.sw.cells.find? (·.owner == t) with
      | none =>
        have := List.find?_eq_none.1 hf z (List.mem_of_getElem? hz)
        simp [hzo] at this
      | some z' =>
        have h1 : z'.owner = t := by simpa using List.find?_some hf
        obtain ⟨i, hi⟩ := List.getElem?_of_mem (List.mem_of_find?_eq_some hf)
        obtain ⟨y', hy', ho', _⟩ := hs.r.cell i z' hi
        rw [h1, hs.at_] at hy'
        cases hy'
        simp [← ho', hh]

/-- **A thread that was switched off is silent**, from the moment on at which the process has done with the command. -/
theorem thread_off_silent (as : List Act) (s0 : State) (h0 : run {} as = .ok s0) (conn : Nat) (c : Config) (t tid : Nat) (hn : (c.threads.map (·.1)).Nodup) (hc : (tid, false) ∈ c.threads)
    (hl : Listed s0 t tid) (ho : ∀ j, Pending s0 j → ∀ cfg, cmd s0 j = some cfg → (tid, true) ∉ cfg.threads ∨ connOf s0 j = some conn)
    (bs : List Act) (hb : ∀ x ∈ bs, ¬ SetsThread t tid true x) (s1 : State) (hs1 : run s0 (.call conn (some c) :: bs) = .ok s1) (hd : ¬ Pending s1 s0.calls.length)
    (cs : List Act) (hcs : ∀ x ∈ cs, ¬ SetsThread t tid true x) (s2 : State) (hs2 : run s1 cs = .ok s2) : eventsOf t s2.sw.log = eventsOf t s1.sw.log := by
  obtain ⟨s', h1, h2⟩ := bind_ok hs1
  have hK := run_inv (K_step t tid s0.calls.length false) bs s' s1 (K_call h0 conn c t tid false hn hc hl h1 ho) hb h2
  refine (run_inv (ok := fun x => ¬ SetsThread t tid true x)
    (P := fun s => K t tid s0.calls.length false s ∧ ¬ Pending s s0.calls.length ∧ eventsOf t s.sw.log = eventsOf t s1.sw.log) ?_ cs s1 s2 ⟨hK, hd, rfl⟩ hcs hs2).2.2
  intro s x s'' ⟨hk, hnp, he⟩ hx ht
  refine ⟨K_step t tid _ false s x s'' hk hx ht, fun hp => hnp (pending_step ht _ hk.known hp), ?_⟩
  rw [← he]
  rcases sw_step ht with e | ⟨y, hy, _⟩
  · rw [e]
  · obtain ⟨a, z, hs⟩ := hk.spot
    rw [hs.r.log, (TraceState.R_step hs.r y hy).log]
    rcases spec_events a y t with e | ⟨_, th, be, p, h3, h4, h5, _⟩
    · exact e
    · exfalso
      rw [hs.at_] at h3
      cases h3
      have hlt : t < s.sw.threads.length := by rw [hs.r.len]; exact (List.getElem?_eq_some_iff.1 hs.at_).1
      have ht : s.sw.threads[t]? = some s.sw.threads[t] := List.getElem?_eq_getElem hlt
      have hth := hs.r.thread t _ z ht hs.at_
      rcases hs.here with hh | ⟨hu, hh | ⟨w, hw, hwc, _⟩ | hh⟩
      · have := (hs.r.pc t _ be p ht (.inr (hth.2.1.trans h4))).1
        rw [hth.2.2.1, hh] at this
        cases this
      · exact hnp (.inl hh)
      · exact hnp (.inr ⟨w, hw, hwc⟩)
      · rw [h5] at hh; cases hh

/-! ## Every command is answered -/

theorem waits_step (s : State) (x : Act) (s' : State) (h : Base s ∧ ∀ k c, s.calls[k]? = some c → c.out = .waiting → Pending s k) (_ : True) (ht : Trans s x s') :
    Base s' ∧ ∀ k c, s'.calls[k]? = some c → c.out = .waiting → Pending s' k := by
  refine ⟨base_step s x s' h.1 trivial ht, ?_⟩
  intro k c hk hc
  have same : s'.calls = s.calls → Pending s k := fun e => h.2 k c (e ▸ hk) hc
  cases ht with
  | thread => exact same rfl
  | call conn cfg =>
    by_cases hl : k < s.calls.length
    · simp only [List.getElem?_append_left hl] at hk
      rcases h.2 k c hk hc with hp | hp
      · exact .inl (List.mem_append_left _ hp)
      · exact .inr hp
    · have hlt := (List.getElem?_eq_some_iff.1 hk).1
      simp only [List.length_append, List.length_singleton] at hlt
      exact .inl (by simp; omega)
  | take conn j hw hj hf =>
    rcases same rfl with hp | ⟨w, hw', _⟩
    · by_cases e : j = k
      · exact .inr ⟨_, rfl, e⟩
      · exact .inl ((List.mem_erase_of_ne (Ne.symm e)).2 hp)
    · rw [hw] at hw'; cases hw'
  | store w y ys sw hw hy hs =>
    rcases same rfl with hp | ⟨w', hw', rfl⟩
    · exact .inl hp
    · rw [hw] at hw'; cases hw'; exact .inr ⟨_, rfl, rfl⟩
  | process w hw hy hq =>
    rcases same rfl with hp | ⟨w', hw', rfl⟩
    · exact .inl hp
    · rw [hw] at hw'; cases hw'; exact .inr ⟨_, rfl, rfl⟩
  | load w p tid c l y hw hy hq hl hcell =>
    rcases same rfl with hp | ⟨w', hw', rfl⟩
    · exact .inl hp
    · rw [hw] at hw'; cases hw'; exact .inr ⟨_, rfl, rfl⟩
  | answer w p hw hy hq hl =>
    rw [List.getElem?_modify] at hk
    cases ho : s.calls[k]? with
    | none => simp [ho] at hk
    | some c' =>
      by_cases e : w.call = k
      · simp only [ho, e, if_true, Option.map_eq_map, Option.map_some, Option.some.injEq] at hk
        subst hk
        split at hc
        · cases hc
        · rename_i hn; exact absurd hc hn
      · simp only [ho, e, if_false, Option.map_eq_map, Option.map_some, Option.some.injEq, id] at hk
        subst hk
        rcases h.2 k _ ho hc with hp | ⟨w', hw', rfl⟩
        · exact .inl hp
        · rw [hw] at hw'; cases hw'; exact absurd rfl e
  | giveUp j =>
    rw [List.getElem?_modify] at hk
    cases ho : s.calls[k]? with
    | none => simp [ho] at hk
    | some c' =>
      by_cases e : j = k
      · simp only [ho, e, if_true, Option.map_eq_map, Option.map_some, Option.some.injEq] at hk
        subst hk
        split at hc
        · cases hc
        · rename_i hn; exact absurd hc hn
      · simp only [ho, e, if_false, Option.map_eq_map, Option.map_some, Option.some.injEq, id] at hk
        subst hk
        exact h.2 k _ ho hc
  | idle => exact same rfl

/-- **No command is lost.** A call that waits has its command in the queue or with the worker. -/
theorem never_lost (as : List Act) (s : State) (h : run {} as = .ok s) (k : Nat) (c : Call) (hk : s.calls[k]? = some c) (hc : c.out = .waiting) : Pending s k :=
  (run_inv (ok := fun _ => True) waits_step as {} s ⟨base_run [] {} rfl, by intro k c hk; simp at hk⟩ (fun _ _ => trivial) h).2 k c hk hc

theorem store_ok {s : TraceState.State} {h : Nat} {c : Option Config} {a : TraceState.Act} (ha : a ∈ stores h c) : ∃ s', TraceState.step s a = .ok s' := by
  obtain ⟨cfg, _, ⟨rfl, _⟩ | ⟨tid, v, rfl, _⟩⟩ := stores_kind ha
  · exact ⟨_, rfl⟩
  · simp only [TraceState.step]
    repeat' split
    all_goals exact ⟨_, rfl⟩

/-- The worker gets to the end of a command, whatever it is, whatever the other threads have done. -/
theorem handler_ends : ∀ (n : Nat) (s : State) (w : Work), Base s → s.work = some w → w.todo.length + (if w.process = none then 1 else 0) + w.left.length = n →
    ∃ s', run s (List.replicate (n + 1) .handle) = .ok s' ∧ s'.work = none ∧ s'.queue = s.queue := by
  intro n
  induction n with
  | zero =>
    intro s w hb hw hn
    have h1 : w.todo = [] := List.length_eq_zero_iff.1 (by omega)
    have h2 : w.left = [] := List.length_eq_zero_iff.1 (by omega)
    cases hp : w.process with
    | none => simp [hp] at hn
    | some p =>
      refine ⟨{ s with
          work := none
          calls := s.calls.modify w.call fun k => if k.out = .waiting then { k with out := .returned { process := p, threads := w.got, success := true } } else k }, ?_, rfl, rfl⟩
      simp [run, step, hw, handleStep, h1, hp, h2, Res.bind]
  | succ n ih =>
    intro s w hb hw hn
    have next : ∀ s1, step s .handle = .ok s1 → ∀ w', s1.work = some w' → s1.queue = s.queue → w'.todo.length + (if w'.process = none then 1 else 0) + w'.left.length = n →
        ∃ s', run s (List.replicate (n + 1 + 1) .handle) = .ok s' ∧ s'.work = none ∧ s'.queue = s.queue := by
      intro s1 h1 w' hw' hq hn'
      obtain ⟨s', h2, h3, h4⟩ := ih s1 w' (base_step s _ s1 hb trivial (trans h1)) hw' hn'
      refine ⟨s', ?_, h3, h4.trans hq⟩
      rw [List.replicate_succ]
      simp only [run, h1, Res.bind]
      exact h2
    cases ht : w.todo with
    | cons a as =>
      obtain ⟨sw, hsw⟩ := store_ok (s := s.sw) (hb.todo w hw a (by rw [ht]; exact List.mem_cons_self ..))
      refine next { s with sw := sw, work := some { w with todo := as } } (by simp [step, hw, handleStep, ht, hsw, Res.bind]) _ rfl rfl ?_
      simp only [ht, List.length_cons] at hn ⊢
      omega
    | nil =>
      cases hp : w.process with
      | none =>
        refine next { s with work := some { w with process := some s.sw.process } } (by simp [step, hw, handleStep, ht, hp]) _ rfl rfl ?_
        simp only [ht, hp, List.length_nil, if_true] at hn ⊢
        simp
        omega
      | some p =>
        cases hl : w.left with
        | nil => simp [ht, hp, hl] at hn
        | cons e l =>
          obtain ⟨tid, c⟩ := e
          have hlt := hb.cells w hw (tid, c) (by rw [hl]; exact List.mem_cons_self ..)
          refine next { s with work := some { w with left := l, got := w.got ++ [(tid, s.sw.cells[c].val)] } } ?_ _ rfl rfl ?_
          · simp [step, hw, handleStep, ht, hp, hl, List.getElem?_eq_getElem hlt]
          · simp only [ht, hp, hl, List.length_cons, List.length_nil] at hn ⊢
            simp at hn ⊢
            omega

/-- **Every command gets its answer**: from any moment on, the worker can do with all commands, without the help of any other thread; then no call waits. -/
theorem all_answered (as : List Act) (s : State) (h : run {} as = .ok s) : ∃ xs s', (∀ x ∈ xs, x = .handle ∨ ∃ c, x = .take c) ∧ run s xs = .ok s' ∧ ∀ k, ¬ Pending s' k := by
  have first : ∀ (as : List Act) (s : State), run {} as = .ok s → ∃ n s', run s (List.replicate n .handle) = .ok s' ∧ s'.work = none ∧ s'.queue = s.queue := by
    intro as s h
    cases hw : s.work with
    | none => exact ⟨0, s, rfl, hw, rfl⟩
    | some w => obtain ⟨s', h1, h2⟩ := handler_ends _ s w (base_run as s h) hw rfl; exact ⟨_, s', h1, h2⟩
  suffices key : ∀ (n : Nat) (as : List Act) (s : State), run {} as = .ok s → s.work = none → s.queue.length = n →
      ∃ xs s', (∀ x ∈ xs, x = .handle ∨ ∃ c, x = .take c) ∧ run s xs = .ok s' ∧ ∀ k, ¬ Pending s' k by
    obtain ⟨n, s1, h1, h2, _⟩ := first as s h
    obtain ⟨xs, s', h3, h4, h5⟩ := key _ (as ++ List.replicate n .handle) s1 (run_join _ _ h h1) h2 rfl
    refine ⟨List.replicate n .handle ++ xs, s', ?_, run_join _ _ h1 h4, h5⟩
    intro x hx
    rcases List.mem_append.1 hx with hx | hx
    · exact .inl (List.eq_of_mem_replicate hx)
    · exact h3 x hx
  intro n
  induction n with
  | zero =>
    intro as s h hw hq
    refine ⟨[], s, by simp, rfl, ?_⟩
    intro k hk
    rcases hk with hk | ⟨w, hw', _⟩
    · rw [List.length_eq_zero_iff.1 hq] at hk; cases hk
    · rw [hw] at hw'; cases hw'
  | succ n ih =>
    intro as s h hw hq
    cases hqq : s.queue with
    | nil => rw [hqq] at hq; cases hq
    | cons k q =>
      have hlt := (base_run as s h).lt k (.inl (by rw [hqq]; exact List.mem_cons_self ..))
      obtain ⟨s1, h1, h2⟩ : ∃ s1, step s (.take s.calls[k].conn) = .ok s1 ∧ s1.queue = q := by
        refine ⟨_, by simp [step, hw, hqq, List.find?_cons, List.getElem?_eq_getElem hlt, TraceState.step, Res.bind]; rfl, by simp⟩
      have r1 : run {} (as ++ [.take s.calls[k].conn]) = .ok s1 := run_join _ _ h (by simp [run, h1, Res.bind])
      obtain ⟨m, s2, h3, h4, h5⟩ := first _ s1 r1
      have r2 := run_join _ _ r1 h3
      obtain ⟨xs, s', h6, h7, h8⟩ := ih _ s2 r2 h4 (by rw [h5, h2]; rw [hqq] at hq; simpa using hq)
      refine ⟨.take s.calls[k].conn :: (List.replicate m .handle ++ xs), s', ?_, ?_, h8⟩
      · intro x hx
        rcases List.mem_cons.1 hx with hx | hx
        · exact .inr ⟨_, hx⟩
        · rcases List.mem_append.1 hx with hx | hx
          · exact .inl (List.eq_of_mem_replicate hx)
          · exact h6 x hx
      · simp only [run, h1, Res.bind]
        exact run_join _ _ h3 h7

/-! ## What an answer tells -/

/-- `x` is the state at some moment of the history `ds` that began in `s`. -/
def During (s : State) (ds : List Act) (x : State) : Prop := ∃ es fs, ds = es ++ fs ∧ run s es = .ok x

theorem During.more {s x : State} {ds : List Act} (h : During s ds x) (y : Act) : During s (ds ++ [y]) x := by
  obtain ⟨es, fs, h1, h2⟩ := h
  exact ⟨es, fs ++ [y], by rw [h1]; simp, h2⟩

/-- These values were read during `ds`: the process switch at one moment, the threads listed at one moment, and the switch of each of them at one moment. -/
structure ReadDuring (s : State) (ds : List Act) (p : Option Bool) (got : List (Nat × Bool)) (left : List (Nat × Nat)) : Prop where
  process : ∀ b, p = some b → ∃ x, During s ds x ∧ x.sw.process = b
  threads : ∃ m, During s ds m ∧ got.map (·.1) ++ left.map (·.1) = m.sw.map.map (·.1) ∧ (∀ e ∈ left, e ∈ m.sw.map) ∧
    ∀ tid b, (tid, b) ∈ got → ∃ x cell y, During s ds x ∧ (tid, cell) ∈ m.sw.map ∧ x.sw.cells[cell]? = some y ∧ y.val = b

theorem ReadDuring.more {s : State} {ds : List Act} {p : Option Bool} {got : List (Nat × Bool)} {left : List (Nat × Nat)} (h : ReadDuring s ds p got left) (y : Act) : ReadDuring s (ds ++ [y]) p got left := by
  obtain ⟨h1, m, h2, h3, h4, h5⟩ := h
  refine ⟨fun b hb => (h1 b hb).imp fun x hx => ⟨hx.1.more y, hx.2⟩, m, h2.more y, h3, h4, ?_⟩
  intro tid b hb
  obtain ⟨x, cell, z, hx, hr⟩ := h5 tid b hb
  exact ⟨x, cell, z, hx.more y, hr⟩

structure T (s1 : State) (k : Nat) (ds : List Act) (s : State) : Prop where
  base : Base s
  now : run s1 ds = .ok s
  work : ∀ w, s.work = some w → w.call = k → ReadDuring s1 ds w.process w.got w.left
  done : ∀ c r, s.calls[k]? = some c → c.out = .returned r → r.success = true ∧ ReadDuring s1 ds (some r.process) r.threads []

theorem T_step {s1 : State} {k : Nat} {ds : List Act} {s s' : State} {x : Act} (h : T s1 k ds s) (hk : k < s.calls.length) (hx : step s x = .ok s') : T s1 k (ds ++ [x]) s' := by
  have ht := trans hx
  have hnow : run s1 (ds ++ [x]) = .ok s' := run_join _ _ h.now (by simp [run, hx, Res.bind])
  have hb' := base_step s x s' h.base trivial ht
  have here : During s1 (ds ++ [x]) s := ⟨ds, [x], rfl, h.now⟩
  have oldWork : ∀ w, s.work = some w → w.call = k → ReadDuring s1 (ds ++ [x]) w.process w.got w.left := fun w hw hc => (h.work w hw hc).more x
  have oldDone : ∀ c r, s.calls[k]? = some c → c.out = .returned r → r.success = true ∧ ReadDuring s1 (ds ++ [x]) (some r.process) r.threads [] := fun c r hc hr => ⟨(h.done c r hc hr).1, (h.done c r hc hr).2.more x⟩
  cases ht with
  | thread => exact ⟨hb', hnow, oldWork, oldDone⟩
  | call conn cfg =>
    refine ⟨hb', hnow, oldWork, ?_⟩
    intro c r hc
    simp only [List.getElem?_append_left hk] at hc
    exact oldDone c r hc
  | take conn j hw hj hf =>
    refine ⟨hb', hnow, ?_, oldDone⟩
    intro w hw' hc
    cases hw'
    refine ⟨(by intro b e; cases e), s, here, by simp, fun e he => he, ?_⟩
    intro tid b hm
    cases hm
  | store w y ys sw hw hy hs =>
    refine ⟨hb', hnow, ?_, oldDone⟩
    intro w' hw' hc
    cases hw'
    exact oldWork w hw hc
  | process w hw hy hq =>
    refine ⟨hb', hnow, ?_, oldDone⟩
    intro w' hw' hc
    cases hw'
    have := oldWork w hw hc
    exact ⟨fun b e => by cases e; exact ⟨s, here, rfl⟩, this.threads⟩
  | load w p tid c l y hw hy hq hl hcell =>
    refine ⟨hb', hnow, ?_, oldDone⟩
    intro w' hw' hc
    cases hw'
    obtain ⟨h1, m, h2, h3, h4, h5⟩ := oldWork w hw hc
    refine ⟨h1, m, h2, ?_, ?_, ?_⟩
    · rw [← h3, hl]; simp
    · intro e he; exact h4 e (by rw [hl]; exact List.mem_cons_of_mem _ he)
    · intro tid' b hm
      rcases List.mem_append.1 hm with hm | hm
      · exact h5 tid' b hm
      · simp only [List.mem_singleton, Prod.mk.injEq] at hm
        obtain ⟨rfl, rfl⟩ := hm
        exact ⟨s, c, y, here, h4 _ (by rw [hl]; exact List.mem_cons_self ..), hcell, rfl⟩
  | answer w p hw hy hq hl =>
    refine ⟨hb', hnow, (by intro w' hw'; cases hw'), ?_⟩
    intro c r hc hr
    rw [List.getElem?_modify] at hc
    cases ho : s.calls[k]? with
    | none => simp [ho] at hc
    | some c' =>
      simp only [ho, Option.map_eq_map, Option.map_some, Option.some.injEq] at hc
      by_cases e : w.call = k
      · simp only [e, if_true] at hc
        by_cases hwt : c'.out = .waiting
        · simp only [hwt, if_true] at hc
          subst hc
          cases hr
          have := oldWork w hw e
          rw [hq, hl] at this
          exact ⟨rfl, this⟩
        · simp only [hwt, if_false] at hc
          subst hc
          exact oldDone _ r ho hr
      · simp only [e, if_false, id] at hc
        subst hc
        exact oldDone _ r ho hr
  | giveUp j =>
    refine ⟨hb', hnow, oldWork, ?_⟩
    intro c r hc hr
    rw [List.getElem?_modify] at hc
    cases ho : s.calls[k]? with
    | none => simp [ho] at hc
    | some c' =>
      simp only [ho, Option.map_eq_map, Option.map_some, Option.some.injEq] at hc
      have : c'.out = .returned r := by
        subst hc
        split at hr
        · split at hr
          · cases hr
          · exact hr
        · exact hr
      exact oldDone c' r ho this
  | idle => exact ⟨hb', hnow, oldWork, oldDone⟩

theorem calls_grow {s s' : State} {x : Act} (h : Trans s x s') : s.calls.length ≤ s'.calls.length := by
  cases h <;> simp

theorem T_run {s1 : State} {k : Nat} : ∀ (xs ds : List Act) (s s' : State), T s1 k ds s → k < s.calls.length → run s xs = .ok s' → T s1 k (ds ++ xs) s'
  | [], ds, s, s', h, _, hr => by cases hr; rw [List.append_nil]; exact h
  | x :: xs, ds, s, s', h, hk, hr => by
    obtain ⟨s2, h1, h2⟩ := bind_ok hr
    have := T_run xs (ds ++ [x]) s2 s' (T_step h hk h1) (Nat.lt_of_lt_of_le hk (calls_grow (trans h1))) h2
    simpa using this

/-- **What a call returns was so while it waited**: the switch of the process at some moment of the call, exactly the threads that had a switch at some moment of it, and the switch of each of them at some
    moment of it. -/
theorem answer_tells (as : List Act) (s0 : State) (h0 : run {} as = .ok s0) (conn : Nat) (cfg : Option Config) (bs : List Act) (s1 s : State) (h1 : step s0 (.call conn cfg) = .ok s1) (hs : run s1 bs = .ok s)
    (c : Call) (r : Config) (hc : s.calls[s0.calls.length]? = some c) (hr : c.out = .returned r) :
    r.success = true ∧ (∃ x, During s1 bs x ∧ x.sw.process = r.process) ∧
    ∃ m, During s1 bs m ∧ r.threads.map (·.1) = m.sw.map.map (·.1) ∧
      ∀ tid b, (tid, b) ∈ r.threads → ∃ x cell y, During s1 bs x ∧ (tid, cell) ∈ m.sw.map ∧ x.sw.cells[cell]? = some y ∧ y.val = b := by
  have hb := base_step s0 _ s1 (base_run as s0 h0) trivial (trans h1)
  have hp : Pending s1 s0.calls.length := by cases h1; exact .inl (by simp)
  have hT : T s1 s0.calls.length [] s1 := by
    refine ⟨hb, rfl, ?_, ?_⟩
    · intro w hw e
      exfalso
      have := hb.apart w hw
      cases h1
      exact this (by simp [e])
    · intro c r hc hr
      exact absurd hp (hb.waits _ c r hc hr)
  have := T_run bs [] s1 s hT (by cases h1; simp) hs
  simp only [List.nil_append] at this
  obtain ⟨h2, h3⟩ := this.done c r hc hr
  obtain ⟨m, h4, h5, _, h6⟩ := h3.threads
  exact ⟨h2, h3.process _ rfl, m, h4, by simpa using h5, h6⟩

theorem confirm_step (k : Nat) (b : Bool) (s : State) (x : Act) (s' : State)
    (h : J k b s ∧ (∀ w p, s.work = some w → w.call = k → w.process = some p → p = b) ∧ ∀ c r, s.calls[k]? = some c → c.out = .returned r → r.process = b)
    (hx : ¬ SetsProcess (!b) x) (ht : Trans s x s') :
    J k b s' ∧ (∀ w p, s'.work = some w → w.call = k → w.process = some p → p = b) ∧ ∀ c r, s'.calls[k]? = some c → c.out = .returned r → r.process = b := by
  obtain ⟨hJ, h1, h2⟩ := h
  refine ⟨J_step k b s x s' hJ hx ht, ?_⟩
  cases ht with
  | thread => exact ⟨h1, h2⟩
  | call conn cfg =>
    refine ⟨h1, ?_⟩
    intro c r hc
    simp only [List.getElem?_append_left hJ.known] at hc
    exact h2 c r hc
  | take conn j hw hj hf => exact ⟨(by intro w p hw' _ hp; cases hw'; cases hp), h2⟩
  | store w y ys sw hw hy hs => exact ⟨(by intro w' p hw' hc hp; cases hw'; exact h1 w p hw hc hp), h2⟩
  | process w hw hy hq =>
    refine ⟨?_, h2⟩
    intro w' p hw' hc hp
    cases hw'
    cases hp
    rcases hJ.here with hh | ⟨w', hw', _, hm⟩ | hh
    · have hc' : w.call = k := hc
      exact absurd (hc' ▸ hh) (hJ.base.apart w hw)
    · rw [hw] at hw'; cases hw'; rw [hy] at hm; cases hm
    · exact hh
  | load w p tid c l y hw hy hq hl hcell => exact ⟨(by intro w' p hw' hc hp; cases hw'; exact h1 w p hw hc hp), h2⟩
  | answer w p hw hy hq hl =>
    refine ⟨(by intro w' p hw'; cases hw'), ?_⟩
    intro c r hc hr
    rw [List.getElem?_modify] at hc
    cases ho : s.calls[k]? with
    | none => simp [ho] at hc
    | some c' =>
      simp only [ho, Option.map_eq_map, Option.map_some, Option.some.injEq] at hc
      by_cases e : w.call = k
      · simp only [e, if_true] at hc
        by_cases hwt : c'.out = .waiting
        · simp only [hwt, if_true] at hc
          subst hc
          cases hr
          exact h1 w p hw e hq
        · simp only [hwt, if_false] at hc
          subst hc
          exact h2 _ r ho hr
      · simp only [e, if_false, id] at hc
        subst hc
        exact h2 _ r ho hr
  | giveUp j =>
    refine ⟨h1, ?_⟩
    intro c r hc hr
    rw [List.getElem?_modify] at hc
    cases ho : s.calls[k]? with
    | none => simp [ho] at hc
    | some c' =>
      simp only [ho, Option.map_eq_map, Option.map_some, Option.some.injEq] at hc
      have : c'.out = .returned r := by
        subst hc
        split at hr
        · split at hr
          · cases hr
          · exact hr
        · exact hr
      exact h2 c' r ho this
  | idle => exact ⟨h1, h2⟩

/-- **The answer confirms it**: unless somebody sets it otherwise meanwhile, what `setTraceState` returns has the process switch as it was asked for. -/
theorem answer_confirms (as : List Act) (s0 : State) (h0 : run {} as = .ok s0) (conn : Nat) (c : Config) (hc : c.setProcess = true)
    (ho : ∀ j, Pending s0 j → ∀ cfg, cmd s0 j = some cfg → cfg.setProcess = true → cfg.process = c.process ∨ connOf s0 j = some conn)
    (bs : List Act) (hb : ∀ x ∈ bs, ¬ SetsProcess (!c.process) x) (s : State) (hs : run s0 (.call conn (some c) :: bs) = .ok s) (k : Call) (r : Config)
    (hk : s.calls[s0.calls.length]? = some k) (hr : k.out = .returned r) : r.process = c.process ∧ s.sw.process = c.process := by
  obtain ⟨s1, h1, h2⟩ := bind_ok hs
  have hJ := J_call (base_run as s0 h0) conn c hc h1 ho
  have hp : Pending s1 s0.calls.length := by cases h1; exact .inl (by simp)
  have start : (∀ w p, s1.work = some w → w.call = s0.calls.length → w.process = some p → p = c.process) ∧ ∀ k r, s1.calls[s0.calls.length]? = some k → k.out = .returned r → r.process = c.process := by
    refine ⟨?_, fun k r hk hr => absurd hp (hJ.base.waits _ k r hk hr)⟩
    intro w p hw e _
    exfalso
    have := hJ.base.apart w hw
    cases h1
    exact this (by simp [e])
  have := run_inv (confirm_step s0.calls.length c.process) bs s1 s ⟨hJ, start⟩ hb h2
  exact ⟨this.2.2 k r hk hr, process_holds as s0 h0 conn c hc ho bs hb s hs (this.1.base.waits _ k r hk hr)⟩

/-- A switch belongs to one thread for ever. -/
theorem cells_owner {s s' : TraceState.State} {x : TraceState.Act} (h : TraceState.step s x = .ok s') {c : Nat} {z : TraceState.Cell} (hz : s.cells[c]? = some z) : ∃ z', s'.cells[c]? = some z' ∧ z'.owner = z.owner := by
  have ptr : ∀ (s : TraceState.State) (t : Nat) (th : TraceState.Thread), s.cells[c]? = some z → (TraceState.threadStatePtr s t th).1.cells[c]? = some z := by
    intro s t th hz
    unfold TraceState.threadStatePtr
    simp only
    split
    · exact hz
    · simp only
      rw [List.getElem?_append_left (List.getElem?_eq_some_iff.1 hz).1]
      exact hz
  have sto : ∀ (s : TraceState.State) (d : Nat) (b : Bool) (l : List TraceState.Obs), s.cells[c]? = some z → ∃ z', ({ TraceState.store s d b with log := l } : TraceState.State).cells[c]? = some z' ∧ z'.owner = z.owner := by
    intro s d b l hz
    simp only [TraceState.store, List.getElem?_modify, hz]
    by_cases e : d = c <;> simp [e]
  cases x with
  | getThread t =>
    simp only [TraceState.step] at h
    repeat' split at h
    all_goals first
      | (cases h; done)
      | (cases h; exact ⟨z, hz, rfl⟩)
      | (cases h; exact ⟨z, ptr _ _ _ hz, rfl⟩)
  | setThread t b =>
    simp only [TraceState.step] at h
    repeat' split at h
    all_goals first
      | (cases h; done)
      | (cases h; exact ⟨z, hz, rfl⟩)
      | (cases h; exact sto _ _ _ _ (ptr _ _ _ hz))
  | reach t be p =>
    simp only [TraceState.step] at h
    repeat' split at h
    all_goals first
      | (cases h; done)
      | (cases h; exact ⟨z, hz, rfl⟩)
      | (cases h; exact ⟨z, ptr s t _ hz, rfl⟩)
  | _ =>
    simp only [TraceState.step] at h
    repeat' split at h
    all_goals first
      | (cases h; done)
      | (cases h; exact ⟨z, hz, rfl⟩)
      | (cases h; exact sto _ _ _ s.log hz)

/-- The thread has ended. -/
def Ended (s : State) (t : Nat) : Prop := ∃ th, s.sw.threads[t]? = some th ∧ th.ended = true

/-- The answer that is made, or was given, has the thread as it was asked for. -/
structure Q (t tid k : Nat) (b : Bool) (s : State) : Prop where
  work : ∀ w, s.work = some w → w.call = k → (tid, b) ∈ w.got ∨ ∃ c z, (tid, c) ∈ w.left ∧ s.sw.cells[c]? = some z ∧ z.owner = t
  out : ∀ c r, s.calls[k]? = some c → c.out = .returned r → (tid, b) ∈ r.threads

theorem ended_iff {t tid k : Nat} {b : Bool} {s : State} {a : TraceState.Spec.State} {y : TraceState.Spec.Thread} (h : Spot s t tid k b a y) : Ended s t ↔ y.ended = true := by
  have hlt : t < s.sw.threads.length := by rw [h.r.len]; exact (List.getElem?_eq_some_iff.1 h.at_).1
  have ht : s.sw.threads[t]? = some s.sw.threads[t] := List.getElem?_eq_getElem hlt
  have hth := h.r.thread t _ y ht h.at_
  constructor
  · rintro ⟨th, h1, h2⟩
    rw [ht] at h1
    cases h1
    rw [← hth.2.2.1]; exact h2
  · intro e
    exact ⟨_, ht, by rw [hth.2.2.1, e]⟩

theorem ended_sw {t tid k : Nat} {b : Bool} {s : State} (h : K t tid k b s) {x : TraceState.Act} {sw : TraceState.State} (hx : TraceState.step s.sw x = .ok sw) (he : Ended s t) : ∃ th, sw.threads[t]? = some th ∧ th.ended = true := by
  obtain ⟨a, y, hs⟩ := h.spot
  obtain ⟨z, r1, _, r3, _, r5, _⟩ := spot_sw hs hx
  have hlt : t < sw.threads.length := by rw [r1.len]; exact (List.getElem?_eq_some_iff.1 r3).1
  have ht : sw.threads[t]? = some sw.threads[t] := List.getElem?_eq_getElem hlt
  exact ⟨_, ht, by rw [(r1.thread t _ z ht r3).2.2.1]; exact r5 ((ended_iff hs).1 he)⟩

theorem lookup_mem {l : List (Nat × Nat)} {k c : Nat} (h : l.lookup k = some c) : (k, c) ∈ l := by
  induction l with
  | nil => cases h
  | cons x l ih =>
    obtain ⟨a, b⟩ := x
    rw [List.lookup_cons] at h
    split at h
    · next e =>
      cases h
      have : k = a := by simpa using e
      subst this
      exact List.mem_cons_self
    · exact List.mem_cons_of_mem _ (ih h)

theorem confirm_thread_step (t tid k : Nat) (b : Bool) (s : State) (x : Act) (s' : State) (h : K t tid k b s ∧ (Ended s t ∨ Q t tid k b s)) (hx : ¬ SetsThread t tid (!b) x) (ht : Trans s x s') :
    K t tid k b s' ∧ (Ended s' t ∨ Q t tid k b s') := by
  obtain ⟨hK, h⟩ := h
  refine ⟨K_step t tid k b s x s' hK hx ht, ?_⟩
  have keep : ∀ (y : TraceState.Act) (sw : TraceState.State), TraceState.step s.sw y = .ok sw → ∀ l : List (Nat × Nat), (∃ c z, (tid, c) ∈ l ∧ s.sw.cells[c]? = some z ∧ z.owner = t) → ∃ c z, (tid, c) ∈ l ∧ sw.cells[c]? = some z ∧ z.owner = t := by
    rintro y sw hy l ⟨c, z, h1, h2, h3⟩
    obtain ⟨z', h4, h5⟩ := cells_owner hy h2
    exact ⟨c, z', h1, h4, h5.trans h3⟩
  cases ht with
  | thread y sw hy =>
    rcases h with h | h
    · exact .inl (ended_sw hK hy h)
    · exact .inr ⟨fun w hw hc => (h.work w hw hc).imp id (keep y sw hy _), h.out⟩
  | call conn cfg =>
    refine h.imp id fun h => ⟨h.work, ?_⟩
    intro c r hc
    simp only [List.getElem?_append_left hK.known] at hc
    exact h.out c r hc
  | take conn j hw hj hf =>
    rcases h with h | h
    · exact .inl h
    · obtain ⟨a, y, hs⟩ := hK.spot
      cases he : y.ended with
      | true => exact .inl ((ended_iff hs).2 he)
      | false =>
        refine .inr ⟨?_, h.out⟩
        intro w hw' hc
        cases hw'
        refine .inr ?_
        have hu : y.used = true := by
          rcases hs.here with e | e
          · rw [he] at e; cases e
          · exact e.1
        obtain ⟨c, z, h1, h2, h3⟩ := hs.r.mapBack t y hs.at_ (by simp [TraceState.Spec.Thread.listed, hu, he])
        rw [hs.id] at h1
        exact ⟨c, z, lookup_mem h1, h2, h3⟩
  | store w y ys sw hw hy hstep =>
    rcases h with h | h
    · exact .inl (ended_sw hK hstep h)
    · refine .inr ⟨?_, h.out⟩
      intro w' hw' hc
      cases hw'
      exact (h.work w hw hc).imp id (keep y sw hstep _)
  | process w hw hy hq =>
    refine h.imp id fun h => ⟨?_, h.out⟩
    intro w' hw' hc
    cases hw'
    exact h.work w hw hc
  | load w p tid' c l y hw hy hq hl hcell =>
    rcases h with h | h
    · exact .inl h
    · obtain ⟨a, z, hs⟩ := hK.spot
      cases he : z.ended with
      | true => exact .inl ((ended_iff hs).2 he)
      | false =>
        refine .inr ⟨?_, h.out⟩
        intro w' hw' hc
        cases hw'
        rcases h.work w hw hc with hg | ⟨d, zd, h1, h2, h3⟩
        · exact .inl (List.mem_append_left _ hg)
        · rw [hl] at h1
          rcases List.mem_cons.1 h1 with e | h1
          · cases e
            rw [hcell] at h2
            cases h2
            refine .inl (List.mem_append_right _ ?_)
            obtain ⟨x, hx1, hx2, _⟩ := hs.r.cell c y hcell
            rw [h3, hs.at_] at hx1
            cases hx1
            have hon : z.on = b := by
              rcases hs.here with e | ⟨_, e | ⟨w', hw', _, hm, _⟩ | e⟩
              · rw [he] at e; cases e
              · have hc' : w.call = k := hc
                exact absurd (hc' ▸ e) (hK.base.apart w hw)
              · rw [hw] at hw'; cases hw'; rw [hy] at hm; cases hm
              · exact e
            rw [← hx2, hon]
            exact List.mem_singleton.2 rfl
          · exact .inr ⟨d, zd, h1, h2, h3⟩
  | answer w p hw hy hq hl =>
    refine h.imp id fun h => ⟨(by intro w' hw'; cases hw'), ?_⟩
    intro c r hc hr
    rw [List.getElem?_modify] at hc
    cases ho : s.calls[k]? with
    | none => simp [ho] at hc
    | some c' =>
      simp only [ho, Option.map_eq_map, Option.map_some, Option.some.injEq] at hc
      by_cases e : w.call = k
      · simp only [e, if_true] at hc
        by_cases hwt : c'.out = .waiting
        · simp only [hwt, if_true] at hc
          subst hc
          cases hr
          rcases h.work w hw e with hg | ⟨d, zd, h1, _⟩
          · exact hg
          · rw [hl] at h1; cases h1
        · simp only [hwt, if_false] at hc
          subst hc
          exact h.out _ r ho hr
      · simp only [e, if_false, id] at hc
        subst hc
        exact h.out _ r ho hr
  | giveUp j =>
    refine h.imp id fun h => ⟨h.work, ?_⟩
    intro c r hc hr
    rw [List.getElem?_modify] at hc
    cases ho : s.calls[k]? with
    | none => simp [ho] at hc
    | some c' =>
      simp only [ho, Option.map_eq_map, Option.map_some, Option.some.injEq] at hc
      have : c'.out = .returned r := by
        subst hc
        split at hr
        · split at hr
          · cases hr
          · exact hr
        · exact hr
      exact h.out c' r ho this
  | idle => exact h

/-- The answer confirms the threads too: unless the thread has ended or somebody sets it otherwise meanwhile, what `setTraceState` returns lists the thread as it was asked for. -/
theorem answer_confirms_thread (as : List Act) (s0 : State) (h0 : run {} as = .ok s0) (conn : Nat) (c : Config) (t tid : Nat) (b : Bool) (hn : (c.threads.map (·.1)).Nodup) (hc : (tid, b) ∈ c.threads)
    (hl : Listed s0 t tid) (ho : ∀ j, Pending s0 j → ∀ cfg, cmd s0 j = some cfg → (tid, !b) ∉ cfg.threads ∨ connOf s0 j = some conn)
    (bs : List Act) (hb : ∀ x ∈ bs, ¬ SetsThread t tid (!b) x) (s : State) (hs : run s0 (.call conn (some c) :: bs) = .ok s) (k : Call) (r : Config)
    (hk : s.calls[s0.calls.length]? = some k) (hr : k.out = .returned r) : (∃ th, s.sw.threads[t]? = some th ∧ th.ended = true) ∨ (tid, b) ∈ r.threads ∧ switch s t = some b := by
  obtain ⟨s1, h1, h2⟩ := bind_ok hs
  have hK := K_call h0 conn c t tid b hn hc hl h1 ho
  have hp : Pending s1 s0.calls.length := by cases h1; exact .inl (by simp)
  have start : Q t tid s0.calls.length b s1 := by
    refine ⟨?_, fun k r hk hr => absurd hp (hK.base.waits _ k r hk hr)⟩
    intro w hw e
    exfalso
    have := hK.base.apart w hw
    cases h1
    exact this (by simp [e])
  have := run_inv (confirm_thread_step t tid s0.calls.length b) bs s1 s ⟨hK, .inr start⟩ hb h2
  rcases this.2 with h | h
  · exact .inl h
  · rcases thread_holds as s0 h0 conn c t tid b hn hc hl ho bs hb s hs (this.1.base.waits _ k r hk hr) with h' | h'
    · exact .inl h'
    · exact .inr ⟨h.out k r hk hr, h'⟩

/-! ## What does not hold -/

/-- A call that has failed has changed nothing. -/
def FailedChangesNothing : Prop := ∀ (as : List Act) (s0 : State) (conn : Nat) (c : Config) (bs : List Act) (s : State) (k : Call), run {} as = .ok s0 → s0.queue = [] → s0.work = none →
  run s0 (.call conn (some c) :: bs) = .ok s → (∀ x ∈ bs, ¬ SetsProcess true x ∧ ¬ SetsProcess false x) → s.calls[s0.calls.length]? = some k → k.out = .failed → s.sw.process = s0.sw.process

/-- A command that was not answered in time is done all the same (`process_holds` says so of every such command that is taken). -/
theorem not_FailedChangesNothing : ¬ FailedChangesNothing := by
  intro h
  have := h [] {} 0 { setProcess := true, process := false } [.giveUp 0, .take 0, .handle]
    { sw := { process := false, snaps := [[]] }, calls := [{ conn := 0, cfg := some { setProcess := true, process := false }, out := .failed }], work := some { call := 0, h := 0, todo := [], left := [] } }
    { conn := 0, cfg := some { setProcess := true, process := false }, out := .failed } rfl rfl rfl (by decide +kernel) (by simp [SetsProcess]) rfl rfl
  exact absurd this (by decide)

/-- An answer tells what all switches were at one moment. -/
def OneMoment : Prop := ∀ (as : List Act) (s0 : State) (conn : Nat) (cfg : Option Config) (bs : List Act) (s1 s : State) (c : Call) (r : Config), run {} as = .ok s0 → step s0 (.call conn cfg) = .ok s1 → run s1 bs = .ok s →
  s.calls[s0.calls.length]? = some c → c.out = .returned r →
  ∃ x, During s1 bs x ∧ x.sw.process = r.process ∧ ∀ tid b, (tid, b) ∈ r.threads → ∃ cell y, (tid, cell) ∈ x.sw.map ∧ x.sw.cells[cell]? = some y ∧ y.val = b

/-- The prefixes of a list. -/
theorem prefixes {ds es fs : List Act} (h : ds = es ++ fs) : ∃ n, n ≤ ds.length ∧ es = ds.take n := ⟨es.length, by rw [h]; simp, by rw [h]; simp⟩

/-- The switches are read one after the other: between, the thread switches the process off and then itself; the answer says that the process is on and the thread off, which never was so. -/
theorem not_OneMoment : ¬ OneMoment := by
  intro h
  let bs : List Act := [.take 0, .handle, .thread (.setProcess false), .thread (.setThread 0 false), .handle, .handle]
  have e0 : ∃ s0, run {} [.thread (.start 5), .thread (.getThread 0)] = .ok s0 := ⟨_, rfl⟩
  obtain ⟨s0, h0⟩ := e0
  have e1 : ∃ s1, step s0 (.call 0 none) = .ok s1 := ⟨_, rfl⟩
  obtain ⟨s1, h1⟩ := e1
  have hs0 : s0 = { sw := { cells := [{ owner := 0, val := true }], map := [(5, 0)], threads := [{ tid := 5, cleanup := true }], log := [.threadIs 0 true] } } := by
    have : run {} [.thread (.start 5), .thread (.getThread 0)] = .ok { sw := { cells := [{ owner := 0, val := true }], map := [(5, 0)], threads := [{ tid := 5, cleanup := true }], log := [.threadIs 0 true] } } := by decide +kernel
    rw [this] at h0
    cases h0
    rfl
  subst hs0
  cases h1
  obtain ⟨s, hs⟩ : ∃ s, run { sw := { cells := [{ owner := 0, val := true }], map := [(5, 0)], threads := [{ tid := 5, cleanup := true }], log := [.threadIs 0 true] }, calls := [{ conn := 0, cfg := none }], queue := [0] } bs = .ok s := ⟨_, rfl⟩
  have hc : s.calls[0]? = some { conn := 0, cfg := none, out := .returned { process := true, threads := [(5, false)], success := true } } := by
    have : (match run { sw := { cells := [{ owner := 0, val := true }], map := [(5, 0)], threads := [{ tid := 5, cleanup := true }], log := [.threadIs 0 true] }, calls := [{ conn := 0, cfg := none }], queue := [0] } bs with
        | .ok s => s.calls[0]?
        | _ => none) = some { conn := 0, cfg := none, out := .returned { process := true, threads := [(5, false)], success := true } } := by decide +kernel
    rw [hs] at this
    exact this
  obtain ⟨x, ⟨es, fs, hd, hx⟩, hp, ht⟩ := h _ _ 0 none bs _ s _ _ h0 rfl hs hc rfl
  obtain ⟨cell, y, hm, hy, hv⟩ := ht 5 false (by simp)
  obtain ⟨n, hn, rfl⟩ := prefixes hd
  have all : ∀ n, n ≤ 6 → (match run { sw := { cells := [{ owner := 0, val := true }], map := [(5, 0)], threads := [{ tid := 5, cleanup := true }], log := [.threadIs 0 true] }, calls := [{ conn := 0, cfg := none }], queue := [0] } (bs.take n) with
        | .ok s => (s.sw.process && (s.sw.cells[0]?).any (fun z => !z.val)) || decide (s.sw.map ≠ [(5, 0)])
        | _ => false) = false := by decide +kernel
  have := all n hn
  simp only [List.nil_append, List.length_nil] at hx
  rw [hx] at this
  simp only [Bool.or_eq_false_iff, decide_eq_false_iff_not, ne_eq, Classical.not_not] at this
  rw [this.2] at hm
  simp only [List.mem_singleton, Prod.mk.injEq, true_and] at hm
  subst hm
  simp [hp, hy, hv] at this

/-- A command changes only threads that existed when it was given. -/
def OnlyThoseNamed : Prop := ∀ (as : List Act) (s0 : State) (conn : Nat) (c : Config) (bs : List Act) (s : State) (t : Nat), run {} as = .ok s0 → s0.queue = [] → s0.work = none →
  run s0 (.call conn (some c) :: bs) = .ok s → (∀ x ∈ bs, ∀ tid b, ¬ SetsThread t tid b x) → s0.sw.threads[t]? = none → switch s t ≠ some false

/-- The id of a thread that has ended may be used again: the new thread is switched off in its place. -/
theorem not_OnlyThoseNamed : ¬ OnlyThoseNamed := by
  intro h
  let c : Config := { threads := [(5, false)] }
  let bs : List Act := [.thread (.exit 0), .thread (.start 5), .thread (.getThread 1), .take 0, .handle]
  obtain ⟨s0, h0⟩ : ∃ s0, run {} [.thread (.start 5), .thread (.getThread 0)] = .ok s0 := ⟨_, rfl⟩
  have hs0 : s0 = { sw := { cells := [{ owner := 0, val := true }], map := [(5, 0)], threads := [{ tid := 5, cleanup := true }], log := [.threadIs 0 true] } } := by
    have : run {} [.thread (.start 5), .thread (.getThread 0)] = .ok { sw := { cells := [{ owner := 0, val := true }], map := [(5, 0)], threads := [{ tid := 5, cleanup := true }], log := [.threadIs 0 true] } } := by decide +kernel
    rw [this] at h0
    cases h0
    rfl
  subst hs0
  obtain ⟨s, hs⟩ : ∃ s, run { sw := { cells := [{ owner := 0, val := true }], map := [(5, 0)], threads := [{ tid := 5, cleanup := true }], log := [.threadIs 0 true] } } (.call 0 (some c) :: bs) = .ok s := ⟨_, rfl⟩
  refine h _ _ 0 c bs s 1 h0 rfl rfl hs (by simp [bs, SetsThread]) rfl ?_
  have : (match run { sw := { cells := [{ owner := 0, val := true }], map := [(5, 0)], threads := [{ tid := 5, cleanup := true }], log := [.threadIs 0 true] } } (.call 0 (some c) :: bs) with
      | .ok s => switch s 1
      | _ => none) = some false := by decide +kernel
  rw [hs] at this
  exact this

/-- After a command, every thread that it names and that exists is as it says. -/
def AllNamed : Prop := ∀ (as : List Act) (s0 : State) (conn : Nat) (c : Config) (bs : List Act) (s : State) (k : Call) (r : Config) (t tid : Nat) (th : TraceState.Thread), run {} as = .ok s0 → s0.queue = [] → s0.work = none →
  s0.sw.threads[t]? = some th → th.tid = tid → th.ended = false → (tid, false) ∈ c.threads → run s0 (.call conn (some c) :: bs) = .ok s → (∀ x ∈ bs, ¬ SetsThread t tid true x) →
  s.calls[s0.calls.length]? = some k → k.out = .returned r → ∀ s2 cs, run s cs = .ok s2 → (∀ x ∈ cs, ¬ SetsThread t tid true x) → eventsOf t s2.sw.log = eventsOf t s.sw.log

/-- A thread that has not traced yet is not switched off: it records its first tracepoint. -/
theorem not_AllNamed : ¬ AllNamed := by
  intro h
  let c : Config := { threads := [(5, false)] }
  let bs : List Act := [.take 0, .handle, .handle, .handle]
  let cs : List Act := [.thread (.reach 0 .native (.entry 7)), .thread (.loadProcess 0), .thread (.loadThread 0)]
  obtain ⟨s, hs⟩ : ∃ s, run { sw := { threads := [{ tid := 5 }] } } (.call 0 (some c) :: bs) = .ok s := ⟨_, rfl⟩
  have hk : s.calls[0]? = some { conn := 0, cfg := some c, out := .returned { process := true, threads := [], success := true } } ∧ s.sw.log = [] ∧ s = { sw := { threads := [{ tid := 5 }], snaps := [[]] }, calls := [{ conn := 0, cfg := some c, out := .returned { process := true, threads := [], success := true } }] } := by
    have : run { sw := { threads := [{ tid := 5 }] } } (.call 0 (some c) :: bs) = .ok { sw := { threads := [{ tid := 5 }], snaps := [[]] }, calls := [{ conn := 0, cfg := some c, out := .returned { process := true, threads := [], success := true } }] } := by decide +kernel
    rw [this] at hs
    cases hs
    exact ⟨rfl, rfl, rfl⟩
  obtain ⟨s2, hs2⟩ : ∃ s2, run { sw := { threads := [{ tid := 5 }], snaps := [[]] }, calls := [{ conn := 0, cfg := some c, out := .returned { process := true, threads := [], success := true } }] } cs = .ok s2 := ⟨_, rfl⟩
  have := h [.thread (.start 5)] { sw := { threads := [{ tid := 5 }] } } 0 c bs s _ _ 0 5 { tid := 5 } (by decide +kernel) rfl rfl rfl rfl rfl (by simp [c]) hs (by simp [bs, SetsThread]) hk.1 rfl s2 cs (by rw [hk.2.2]; exact hs2) (by simp [cs, SetsThread])
  have h2 : (match run { sw := { threads := [{ tid := 5 }], snaps := [[]] }, calls := [{ conn := 0, cfg := some c, out := .returned { process := true, threads := [], success := true } }] } cs with
      | .ok s => s.sw.log
      | _ => []) = [.event 0 5 (.native 1 7 none)] := by decide +kernel
  rw [hs2] at h2
  simp only at h2
  rw [hk.2.1, h2] at this
  exact absurd this (by decide)

/-! ## Histories that meet the hypotheses -/

/-- A thread traces, a client switches the process off, the call returns, another thread passes a tracepoint. -/
example : ∃ s, run {} [.thread (.start 5), .thread (.start 6), .thread (.reach 0 .native (.entry 1)), .thread (.loadProcess 0), .call 0 (some { setProcess := true, process := false }), .take 0, .handle, .handle,
    .thread (.loadThread 0), .handle, .handle, .thread (.reach 1 .native (.entry 2)), .thread (.loadProcess 1)] = .ok s ∧
    s.sw.log = [.event 0 5 (.native 1 1 none)] ∧ s.calls.map (·.out) = [.returned { process := false, threads := [(5, true)], success := true }] := ⟨_, rfl, by decide +kernel, by decide +kernel⟩

/-- A client switches one of two threads off. -/
example : ∃ s, run {} [.thread (.start 5), .thread (.start 6), .thread (.getThread 0), .thread (.getThread 1), .call 3 (some { threads := [(6, false)] }), .take 3, .handle, .handle, .handle, .handle, .handle] = .ok s ∧
    switch s 0 = some true ∧ switch s 1 = some false ∧ s.calls.map (·.out) = [.returned { process := true, threads := [(5, true), (6, false)], success := true }] := ⟨_, rfl, by decide +kernel, by decide +kernel, by decide +kernel⟩

/-- A client gives up after it has asked to switch the process off, and asks to switch it on: the first command is still waiting, and is done first. -/
example : ∃ s0 s, run {} [.call 0 (some { setProcess := true, process := false }), .giveUp 0] = .ok s0 ∧ Pending s0 0 ∧ connOf s0 0 = some 0 ∧
    run s0 [.call 0 (some { setProcess := true, process := true }), .take 0, .handle, .handle, .handle, .take 0, .handle, .handle, .handle] = .ok s ∧ (∀ k, ¬ Pending s k) ∧ s.sw.process = true :=
  ⟨_, _, rfl, .inl (by decide), rfl, rfl, by rintro k (h | ⟨w, h, _⟩) <;> simp at h, rfl⟩

end Scalopus.C141
