import Verif.Model.PyConfig
import Verif.Props.C25_Configurator

/-!
# C131: a configuration that was built in Python is the one that is sent
-/

namespace Scalopus.C131

open PyConfig
open Configurator (Config)

/-! ### What the statements say, in Python -/

/-- A configuration as Python code describes it: three flags and a dict. -/
structure Plain where
  process : Bool := false
  setProcess : Bool := false
  success : Bool := false
  threads : Int → Option Bool := fun _ => none

/-- `bool(v)` -/
def truth : Val → Bool
  | .none => false
  | .bool b => b
  | .int n => decide (n ≠ 0)
  | .str => true

/-- The objects of a Python program, and those it has sent. -/
structure World where
  confs : List Plain := []
  sent : List Plain := []

/-- A statement changes the object that it names. -/
def change (w : World) (c : Nat) (f : Plain → Plain) : World :=
  match w.confs[c]? with
  | some x => { w with confs := w.confs.set c (f x) }
  | none => w

/-- What a configuration of the library holds. -/
def plain (x : Config) : Plain :=
  { process := x.process, setProcess := x.setProcess, success := x.success, threads := fun k => if 0 ≤ k then x.threads.lookup k.toNat else none }

/-- What each statement means for objects whose attribute `thread_state` is a dict. -/
def says (w : World) : Stmt → World
  | .new => { w with confs := w.confs ++ [{}] }
  | .process c v => change w c fun x => { x with process := truth v }
  | .setProcess c v => change w c fun x => { x with setProcess := truth v }
  | .success c v => change w c fun x => { x with success := truth v }
  | .entry c k v => change w c fun x => { x with threads := fun j => if j = k then some (truth v) else x.threads j }
  | .item c k v => change w c fun x => { x with threads := fun j => if j = k then some (truth v) else x.threads j }
  | .del c k => change w c fun x => { x with threads := fun j => if j = k then none else x.threads j }
  | .assign c d => change w c fun x => { x with threads := fun j => (d.lookup j).map truth }
  | .copy c d => match w.confs[d]? with
    | some y => change w c fun x => { x with threads := y.threads }
    | none => w
  | .send c answer => match w.confs[c]? with
    | some x => { confs := w.confs ++ [plain answer], sent := w.sent ++ [x] }
    | none => w

def world (p : List Stmt) : World := p.foldl says {}

/-- Values that are not strings, and identifiers of threads. -/
def Value (v : Val) : Prop := v ≠ .str
def Id (k : Int) : Prop := 0 ≤ k ∧ k < 2 ^ 63

/-- The map of an answer: sorted, with identifiers. -/
def IsMap (m : List (Nat × Bool)) : Prop := m.Pairwise (fun x y => x.1 < y.1) ∧ ∀ x ∈ m, x.1 < 2 ^ 63

/-- Statements that give flags where flags are wanted, and identifiers where identifiers are. -/
def Proper : Stmt → Prop
  | .process _ v | .setProcess _ v | .success _ v => Value v
  | .entry _ k v | .item _ k v => Id k ∧ Value v
  | .del _ k => Id k
  | .assign _ d => ∀ x ∈ d, Id x.1 ∧ Value x.2
  | .send _ a => IsMap a.threads
  | _ => True

/-- Statements that change the dict that reading `thread_state` gives. -/
def Item : Stmt → Prop
  | .item _ _ _ | .del _ _ => True
  | _ => False

/-- **C131** in full: what is sent is what the program says. -/
def AsWritten : Prop := ∀ p : List Stmt, (∀ x ∈ p, Proper x) → (run {} p).sent.map plain = (world p).sent

/-! ### Maps -/

theorem lookup_cons (x : Nat × Bool) (m : List (Nat × Bool)) (j : Nat) : (x :: m).lookup j = if j = x.1 then some x.2 else m.lookup j := by
  obtain ⟨k, v⟩ := x
  rw [List.lookup_cons]
  by_cases h : j = k
  · simp [h]
  · have : (j == k) = false := by simp [h]
    rw [this]
    simp [h]

theorem lookup_put (m : List (Nat × Bool)) (k : Nat) (v : Bool) (h : m.Pairwise fun x y => x.1 < y.1) (j : Nat) :
    (put m k v).lookup j = if j = k then some v else m.lookup j := by
  induction m with
  | nil => simp [put, lookup_cons]
  | cons x m ih =>
    obtain ⟨h1, h2⟩ := List.pairwise_cons.1 h
    simp only [put]
    split
    · rw [lookup_cons]
    · split
      · rename_i e
        rw [lookup_cons, lookup_cons, e]
        simp only
        split <;> rfl
      · rename_i e
        rw [lookup_cons, ih h2, lookup_cons]
        by_cases hj : j = x.1
        · have : ¬ j = k := fun e' => e (e'.symm.trans hj)
          simp [hj]
          exact fun e' => absurd e'.symm e
        · simp [hj]

theorem put_mem {m : List (Nat × Bool)} {k : Nat} {v : Bool} {x : Nat × Bool} (h : x ∈ put m k v) : x = (k, v) ∨ x ∈ m := by
  induction m with
  | nil => simpa [put] using h
  | cons y m ih =>
    simp only [put] at h
    split at h
    · simpa using h
    · split at h
      · rcases List.mem_cons.1 h with h | h
        · exact .inl h
        · exact .inr (by simp [h])
      · rcases List.mem_cons.1 h with h | h
        · exact .inr (by simp [h])
        · rcases ih h with h | h
          · exact .inl h
          · exact .inr (by simp [h])

theorem put_map {m : List (Nat × Bool)} {k : Nat} {v : Bool} (h : IsMap m) (hk : k < 2 ^ 63) : IsMap (put m k v) := by
  refine ⟨?_, ?_⟩
  · have hp := h.1
    clear h hk
    induction m with
    | nil => simp [put]
    | cons x m ih =>
      obtain ⟨h1, h2⟩ := List.pairwise_cons.1 hp
      simp only [put]
      split
      · rename_i hlt
        refine List.pairwise_cons.2 ⟨?_, hp⟩
        intro y hy
        rcases List.mem_cons.1 hy with rfl | hy
        · exact hlt
        · exact Nat.lt_trans hlt (h1 y hy)
      · split
        · rename_i e
          refine List.pairwise_cons.2 ⟨?_, h2⟩
          intro y hy
          rw [e]
          exact h1 y hy
        · rename_i hn hne
          refine List.pairwise_cons.2 ⟨?_, ih h2⟩
          intro y hy
          rcases put_mem hy with rfl | hy
          · simp only; omega
          · exact h1 y hy
  · intro x hx
    rcases put_mem hx with rfl | hx
    · exact hk
    · exact h.2 x hx

theorem toBool_truth {v : Val} (h : Value v) : toBool v = some (truth v) := by
  cases v with
  | none => rfl
  | bool b => rfl
  | int n => by_cases e : n = 0 <;> simp [PyConfig.toBool, truth, e]
  | str => exact absurd rfl h

theorem toULong_id {k : Int} (h : Id k) : toULong k = some k.toNat := by
  have := h.1
  have := h.2
  have : k < 2 ^ 64 := by omega
  simp only [toULong, *, and_self, if_true]

theorem toMap_ok (d : List (Int × Val)) (h : ∀ x ∈ d, Id x.1 ∧ Value x.2) :
    ∃ m, toMap d = some m ∧ IsMap m ∧ ∀ j : Int, (if 0 ≤ j then m.lookup j.toNat else none) = (d.lookup j).map truth := by
  induction d with
  | nil => exact ⟨[], rfl, ⟨by simp, by simp⟩, fun j => by simp⟩
  | cons x d ih =>
    obtain ⟨k, v⟩ := x
    obtain ⟨m, hm, hi, hl⟩ := ih (fun x hx => h x (by simp [hx]))
    obtain ⟨hk, hv⟩ := h (k, v) (by simp)
    have hk' : k.toNat < 2 ^ 63 := by have := hk.1; have := hk.2; omega
    refine ⟨put m k.toNat (truth v), by simp [toMap, toULong_id hk, toBool_truth hv, hm], put_map hi hk', ?_⟩
    intro j
    rw [List.lookup_cons]
    by_cases e : j = k
    · subst e
      simp [hk.1, lookup_put _ _ _ hi.1]
    · have e' : (j == k) = false := by simp [e]
      rw [e']
      simp only
      rw [← hl j]
      by_cases hj : 0 ≤ j
      · have : ¬ j.toNat = k.toNat := by have := hk.1; omega
        simp [hj, lookup_put _ _ _ hi.1, this]
      · simp [hj]

theorem toDict_ok (m : List (Nat × Bool)) (h : IsMap m) : (∀ x ∈ toDict m, Id x.1 ∧ Value x.2) ∧ ∀ j : Int, ((toDict m).lookup j).map truth = if 0 ≤ j then m.lookup j.toNat else none := by
  constructor
  · intro x hx
    simp only [toDict, List.mem_map] at hx
    obtain ⟨y, hy, rfl⟩ := hx
    have := h.2 y hy
    exact ⟨⟨by simp, by simp only; omega⟩, by simp [Value]⟩
  · intro j
    have h2 := h.2
    clear h
    induction m with
    | nil => simp [toDict]
    | cons x m ih =>
      have ih := ih (fun y hy => h2 y (by simp [hy]))
      simp only [toDict, List.map_cons, List.lookup_cons] at ih ⊢
      by_cases e : j = (x.1 : Int)
      · have e' : (j == (x.1 : Int)) = true := by simp [e]
        rw [e']
        subst e
        simp [truth, lookup_cons]
      · have e' : (j == (x.1 : Int)) = false := by simp [e]
        rw [e']
        simp only
        rw [ih]
        by_cases hj : 0 ≤ j
        · have : ¬ j.toNat = x.1 := by omega
          simp [hj, this, lookup_cons]
        · simp [hj]

/-! ### The statements -/

/-- The program and what its statements say agree. -/
structure Agree (s : State) (w : World) : Prop where
  confs : s.confs.map plain = w.confs
  sent : s.sent.map plain = w.sent
  maps : ∀ x ∈ s.confs, IsMap x.threads
  maps' : ∀ x ∈ s.sent, IsMap x.threads

theorem agree_on {s : State} {w : World} (h : Agree s w) (c : Nat) (f : Config → Option Config) (g : Plain → Plain)
    (hf : ∀ x, IsMap x.threads → ∃ y, f x = some y ∧ IsMap y.threads ∧ plain y = g (plain x)) : Agree (on s c f).1 (change w c g) := by
  have hw : w.confs[c]? = (s.confs[c]?).map plain := by rw [← h.confs, List.getElem?_map]
  simp only [on, change, hw]
  cases hc : s.confs[c]? with
  | none => simpa using h
  | some x =>
    obtain ⟨y, e1, e2, e3⟩ := hf x (h.maps x (List.mem_of_getElem? hc))
    simp only [e1, Option.map_some]
    refine ⟨?_, h.sent, ?_, h.maps'⟩
    · simp only [List.map_set, h.confs, e3]
    · intro z hz
      rcases List.mem_or_eq_of_mem_set hz with hz | rfl
      · exact h.maps z hz
      · exact e2

theorem agree_step {s : State} {w : World} (h : Agree s w) (x : Stmt) (hp : Proper x) (hi : ¬ Item x) : Agree (step s x).1 (says w x) := by
  cases x with
  | new =>
    refine ⟨?_, h.sent, ?_, h.maps'⟩
    · simp only [step, says, List.map_append, h.confs]
      congr 1
      simp [plain]
    · intro z hz
      rcases List.mem_append.1 hz with hz | hz
      · exact h.maps z hz
      · simp only [List.mem_singleton] at hz
        subst hz
        exact ⟨by simp, by simp⟩
  | process c v => exact agree_on h c _ _ fun x hx => ⟨{ x with process := truth v }, by simp [toBool_truth hp], hx, rfl⟩
  | setProcess c v => exact agree_on h c _ _ fun x hx => ⟨{ x with setProcess := truth v }, by simp [toBool_truth hp], hx, rfl⟩
  | success c v => exact agree_on h c _ _ fun x hx => ⟨{ x with success := truth v }, by simp [toBool_truth hp], hx, rfl⟩
  | entry c k v =>
    obtain ⟨hk, hv⟩ := hp
    have hk' : k.toNat < 2 ^ 63 := by have := hk.1; have := hk.2; omega
    refine agree_on h c _ _ fun x hx => ⟨{ x with threads := put x.threads k.toNat (truth v) }, by simp [toULong_id hk, toBool_truth hv], put_map hx hk', ?_⟩
    simp only [plain, Plain.mk.injEq, true_and]
    funext j
    rw [lookup_put _ _ _ hx.1]
    by_cases e : j = k
    · subst e; simp [hk.1]
    · by_cases hj : 0 ≤ j
      · have : ¬ j.toNat = k.toNat := by have := hk.1; omega
        simp [hj, e, this]
      · simp [hj, e]
  | assign c d =>
    obtain ⟨m, hm, him, hl⟩ := toMap_ok d hp
    refine agree_on h c _ _ fun x hx => ⟨{ x with threads := m }, by simp [hm], him, ?_⟩
    simp only [plain, Plain.mk.injEq, true_and]
    funext j
    exact hl j
  | copy c d =>
    have hw : w.confs[d]? = (s.confs[d]?).map plain := by rw [← h.confs, List.getElem?_map]
    simp only [step, says, hw]
    cases hd : s.confs[d]? with
    | none =>
      simp only [Option.map_none, Option.bind_none]
      have : (on s c fun _ => none).1 = s := by simp only [on]; cases s.confs[c]? <;> rfl
      rw [this]
      exact h
    | some y =>
      have hy := h.maps y (List.mem_of_getElem? hd)
      obtain ⟨h1, h2⟩ := toDict_ok y.threads hy
      obtain ⟨m, hm, him, hl⟩ := toMap_ok (toDict y.threads) h1
      simp only [Option.map_some, Option.bind_some]
      refine agree_on h c _ _ fun x hx => ⟨{ x with threads := m }, by simp [hm], him, ?_⟩
      simp only [plain, Plain.mk.injEq, true_and]
      funext j
      rw [hl j, h2 j]
  | item c k v => exact absurd trivial hi
  | del c k => exact absurd trivial hi
  | send c a =>
    have hw : w.confs[c]? = (s.confs[c]?).map plain := by rw [← h.confs, List.getElem?_map]
    simp only [step, says, hw]
    cases hc : s.confs[c]? with
    | none => simpa using h
    | some x =>
      have hx := h.maps x (List.mem_of_getElem? hc)
      have hno : x.threads.any (fun y => decide (2 ^ 63 ≤ y.1)) = false := by
        rw [List.any_eq_false]
        intro y hy
        have := hx.2 y hy
        simp only [decide_eq_true_eq]
        omega
      simp only [hno, Option.map_some, Bool.false_eq_true, if_false]
      refine ⟨?_, ?_, ?_, ?_⟩
      · simp [h.confs]
      · simp [h.sent]
      · intro z hz
        rcases List.mem_append.1 hz with hz | hz
        · exact h.maps z hz
        · simp only [List.mem_singleton] at hz; subst hz; exact hp
      · intro z hz
        rcases List.mem_append.1 hz with hz | hz
        · exact h.maps' z hz
        · simp only [List.mem_singleton] at hz; subst hz; exact hx

theorem agree_run (p : List Stmt) (s : State) (w : World) (h : Agree s w) (hp : ∀ x ∈ p, Proper x) (hi : ∀ x ∈ p, ¬ Item x) : Agree (run s p) (p.foldl says w) := by
  induction p generalizing s w with
  | nil => exact h
  | cons x p ih =>
    exact ih _ _ (agree_step h x (hp x (by simp)) (hi x (by simp))) (fun y hy => hp y (by simp [hy])) (fun y hy => hi y (by simp [hy]))

theorem agree_init : Agree {} {} := ⟨rfl, rfl, by simp, by simp⟩

/-- **C131, partial.** A program that does not assign to single entries of `thread_state`, nor deletes them, sends what it says, and its configurations are what it says: with attributes, with whole dicts,
with `add_thread_entry`, with configurations that were answers, and with copies from one configuration to another. What is missing is `not_AsWritten`. -/
theorem as_written_partial (p : List Stmt) (hp : ∀ x ∈ p, Proper x) (hi : ∀ x ∈ p, ¬ Item x) :
    (run {} p).sent.map plain = (world p).sent ∧ (run {} p).confs.map plain = (world p).confs :=
  have h := agree_run p {} {} agree_init hp hi
  ⟨h.sent, h.confs⟩

/-- A program that copies from an answer, changes the copy, and sends both. -/
example : ∃ p : List Stmt, (∀ x ∈ p, Proper x) ∧ (∀ x ∈ p, ¬ Item x) ∧
    (run {} p).sent = [{ setProcess := true, process := true, threads := [(3, true), (7, false)] }, { process := true, threads := [(3, true), (7, true), (9, false)] }] :=
  ⟨[.new, .setProcess 0 (.bool true), .process 0 (.int 2), .assign 0 [(7, .none), (3, .bool true)], .send 0 { process := true, threads := [(3, true), (7, false)], success := true },
    .new, .copy 2 1, .process 2 (.bool true), .entry 2 9 (.bool false), .entry 2 7 (.bool true), .send 2 {}],
   by
    simp [Proper, Value, Id, IsMap]
    refine ⟨?_, fun a => ⟨by omega, by omega⟩⟩
    rintro a b (⟨rfl, rfl⟩ | ⟨rfl, rfl⟩) <;> simp, by simp [Item], by decide +kernel⟩

/-- **C131, what is lost.** Assigning to a single entry of `thread_state`, or deleting one, has no effect at all, wherever it stands in a program. -/
theorem items_lost (p q : List Stmt) (x : Stmt) (hx : Item x) : run {} (p ++ x :: q) = run {} (p ++ q) := by
  have h : ∀ s, (step s x).1 = s := by
    intro s
    have same : ∀ c : Nat, ∀ y, s.confs[c]? = some y → s.confs.set c y = s.confs := by
      intro c y hy
      apply List.ext_getElem?
      intro i
      rw [List.getElem?_set]
      split
      · rename_i e
        subst e
        have := (List.getElem?_eq_some_iff.1 hy).1
        simp only [this, if_true, hy]
      · rfl
    cases x with
    | item c k v =>
      simp only [step, on]
      cases hc : s.confs[c]? with
      | none => rfl
      | some y => simp only [same c y hc]
    | del c k =>
      simp only [step, on]
      cases hc : s.confs[c]? with
      | none => rfl
      | some y =>
        simp only
        split
        · rename_i e
          split at e
          · injection e with e; subst e; simp only [same c y hc]
          · cases e
        · rfl
    | _ => exact absurd hx (by simp [Item])
  simp only [run, List.foldl_append, List.foldl_cons, h]

/-- So for each entry there is a program that sends something else than it says. -/
theorem item_not_sent (k : Int) (v : Val) (a : Config) : (run {} [.new, .item 0 k v, .send 0 a]).sent = [{}] ∧
    ∃ x, (world [.new, .item 0 k v, .send 0 a]).sent = [x] ∧ x.threads k = some (truth v) := by
  refine ⟨?_, _, rfl, ?_⟩
  · have := items_lost [.new] [.send 0 a] (.item 0 k v) trivial
    simp only [List.cons_append, List.nil_append] at this
    rw [this]
    rfl
  · simp

theorem not_AsWritten : ¬ AsWritten := by
  intro h
  have := h [.new, .item 0 5 (.bool true), .send 0 {}] (by simp [Proper, Value, Id, IsMap])
  obtain ⟨h1, x, h2, h3⟩ := item_not_sent 5 (.bool true) {}
  rw [h1, h2] at this
  simp only [List.map_cons, List.map_nil, List.cons.injEq, and_true] at this
  rw [← this] at h3
  simp [plain] at h3

/-- **C131, exceptions.** A statement that raises has no effect. It raises exactly if it names no configuration, if a value cannot be converted, if an entry that is to be deleted is not there, or if
an identifier is too large to be sent. -/
theorem raises (s : State) (x : Stmt) :
    ((step s x).2 = true → (step s x).1 = s) ∧
    ((step s x).2 = true ↔ match x with
      | .new => False
      | .process c v | .setProcess c v | .success c v => s.confs.length ≤ c ∨ v = .str
      | .entry c k v => s.confs.length ≤ c ∨ ¬ (0 ≤ k ∧ k < 2 ^ 64) ∨ v = .str
      | .assign c d => s.confs.length ≤ c ∨ ∃ y ∈ d, ¬ (0 ≤ y.1 ∧ y.1 < 2 ^ 64) ∨ y.2 = .str
      | .copy c d => s.confs.length ≤ c ∨ s.confs.length ≤ d ∨ ∃ y, s.confs[d]? = some y ∧ ∃ z ∈ y.threads, 2 ^ 64 ≤ z.1
      | .item c _ _ => s.confs.length ≤ c
      | .del c k => s.confs.length ≤ c ∨ ∃ y, s.confs[c]? = some y ∧ ∀ z ∈ y.threads, (z.1 : Int) ≠ k
      | .send c _ => s.confs.length ≤ c ∨ ∃ y, s.confs[c]? = some y ∧ ∃ z ∈ y.threads, 2 ^ 63 ≤ z.1) := by
  have ho : ∀ (c : Nat) (f : Config → Option Config), ((on s c f).2 = true → (on s c f).1 = s) ∧
      ((on s c f).2 = true ↔ s.confs.length ≤ c ∨ ∃ y, s.confs[c]? = some y ∧ f y = none) := by
    intro c f
    simp only [on]
    cases hc : s.confs[c]? with
    | none => simp [List.getElem?_eq_none_iff.1 hc]
    | some y =>
      have hlt := (List.getElem?_eq_some_iff.1 hc).1
      have : ¬ s.confs.length ≤ c := by omega
      cases hf : f y <;> simp [this, hf]
  have hb : ∀ v : Val, toBool v = none ↔ v = .str := by intro v; cases v <;> simp [PyConfig.toBool]
  have hu : ∀ k : Int, toULong k = none ↔ ¬ (0 ≤ k ∧ k < 2 ^ 64) := by intro k; simp only [toULong]; split <;> simp_all
  have some_at : ∀ (c : Nat) (P : Prop), (s.confs.length ≤ c ∨ ∃ y, s.confs[c]? = some y ∧ P) ↔ s.confs.length ≤ c ∨ P := by
    intro c P
    constructor
    · rintro (h | ⟨_, _, h⟩)
      · exact .inl h
      · exact .inr h
    · rintro (h | h)
      · exact .inl h
      · by_cases hl : s.confs.length ≤ c
        · exact .inl hl
        · exact .inr ⟨s.confs[c]'(by omega), by simp, h⟩
  have hm : ∀ d : List (Int × Val), toMap d = none ↔ ∃ y ∈ d, ¬ (0 ≤ y.1 ∧ y.1 < 2 ^ 64) ∨ y.2 = .str := by
    intro d
    induction d with
    | nil => simp [toMap]
    | cons y d ih =>
      obtain ⟨k, v⟩ := y
      simp only [List.mem_cons, exists_eq_or_imp]
      rw [← ih, ← hu, ← hb]
      simp only [toMap]
      cases toULong k <;> cases PyConfig.toBool v <;> cases toMap d <;> simp
  cases x with
  | new => exact ⟨by simp [step], by simp [step]⟩
  | process c v => exact ⟨(ho c _).1, by simp only [step, (ho c _).2, Option.map_eq_none_iff, hb, some_at]⟩
  | setProcess c v => exact ⟨(ho c _).1, by simp only [step, (ho c _).2, Option.map_eq_none_iff, hb, some_at]⟩
  | success c v => exact ⟨(ho c _).1, by simp only [step, (ho c _).2, Option.map_eq_none_iff, hb, some_at]⟩
  | entry c k v =>
    refine ⟨(ho c _).1, ?_⟩
    have : ∀ x : Config, ((toULong k).bind fun k => (toBool v).map fun b => ({ x with threads := put x.threads k b } : Config)) = none ↔ ¬ (0 ≤ k ∧ k < 2 ^ 64) ∨ v = .str := by
      intro x
      rw [← hu, ← hb]
      cases toULong k <;> cases toBool v <;> simp
    simp only [step, (ho c _).2, this, some_at]
  | assign c d => exact ⟨(ho c _).1, by simp only [step, (ho c _).2, Option.map_eq_none_iff, hm, some_at]⟩
  | copy c d =>
    refine ⟨(ho c _).1, ?_⟩
    simp only [step, (ho c _).2]
    have : ∀ x : Config, ((s.confs[d]?).bind fun y => (toMap (toDict y.threads)).map fun m => ({ x with threads := m } : Config)) = none ↔
        s.confs.length ≤ d ∨ ∃ y, s.confs[d]? = some y ∧ ∃ z ∈ y.threads, 2 ^ 64 ≤ z.1 := by
      intro x
      cases hd : s.confs[d]? with
      | none => simp [List.getElem?_eq_none_iff.1 hd]
      | some y =>
        have hlt := (List.getElem?_eq_some_iff.1 hd).1
        have hn : ¬ s.confs.length ≤ d := by omega
        simp only [Option.bind_some, Option.map_eq_none_iff, hm, hn, false_or, Option.some.injEq, exists_eq_left', toDict, List.mem_map]
        constructor
        · rintro ⟨_, ⟨z, hz, rfl⟩, h⟩
          refine ⟨z, hz, ?_⟩
          rcases h with h | h
          · simp only at h; omega
          · cases h
        · rintro ⟨z, hz, h⟩
          exact ⟨_, ⟨z, hz, rfl⟩, .inl (by simp only; omega)⟩
    simp only [this, some_at]
  | item c k v => exact ⟨(ho c _).1, by simp [step, (ho c _).2]⟩
  | del c k =>
    refine ⟨(ho c _).1, ?_⟩
    simp only [step, (ho c _).2]
    have : ∀ y : Config, (if ((toDict y.threads).any fun y => decide (y.1 = k)) = true then some y else none) = none ↔ ∀ z ∈ y.threads, (z.1 : Int) ≠ k := by
      intro y
      split
      · rename_i h
        simp only [toDict, List.any_map, List.any_eq_true, Function.comp_apply, decide_eq_true_eq] at h
        obtain ⟨z, h1, h2⟩ := h
        exact ⟨fun e => (by cases e), fun e => absurd h2 (e z h1)⟩
      · rename_i h
        refine ⟨fun _ z hz e => h ?_, fun _ => rfl⟩
        simp only [toDict, List.any_map, List.any_eq_true, Function.comp_apply, decide_eq_true_eq]
        exact ⟨z, hz, e⟩
    simp only [this]
  | send c a =>
    simp only [step]
    cases hc : s.confs[c]? with
    | none => simp [List.getElem?_eq_none_iff.1 hc]
    | some y =>
      have hlt := (List.getElem?_eq_some_iff.1 hc).1
      have hn : ¬ s.confs.length ≤ c := by omega
      simp only [hn, false_or, Option.some.injEq, exists_eq_left']
      split
      · rename_i h
        refine ⟨fun _ => rfl, ?_⟩
        simp only [List.any_eq_true, decide_eq_true_eq] at h
        obtain ⟨z, h1, h2⟩ := h
        exact ⟨fun _ => ⟨z, h1, h2⟩, fun _ => rfl⟩
      · rename_i h
        refine ⟨fun e => (by cases e), ?_⟩
        simp only [Bool.false_eq_true, false_iff]
        rintro ⟨z, h1, h2⟩
        exact h (List.any_eq_true.2 ⟨z, h1, by simpa using h2⟩)

/-- **C131, with the process.** Sending a configuration sets exactly the switches that the program named: the process switch if `set_process_state` is set, and the switches of the threads that have an entry. -/
theorem switches_partial (p : List Stmt) (hp : ∀ x ∈ p, Proper x) (hi : ∀ x ∈ p, ¬ Item x) (c : Nat) (a : Config) (x : Plain) (hx : (world p).confs[c]? = some x)
    (acts : List TraceState.Act) (s : TraceState.State) (hs : TraceState.run {} acts = .ok s) :
    ∃ y s' xs reply, (run {} (p ++ [.send c a])).sent = (run {} p).sent ++ [y] ∧ Configurator.handle s (some (Configurator.setRequest y)) = .ok (s', .obj [("state", Configurator.toJson reply)]) ∧
      TraceState.run {} (acts ++ xs) = .ok s' ∧
      (TraceState.Spec.run {} (acts ++ xs)).process = (if x.setProcess then x.process else (TraceState.Spec.run {} acts).process) ∧
      (TraceState.Spec.run {} (acts ++ xs)).threads = (TraceState.Spec.run {} acts).threads.map (fun th => { th with on := if th.used ∧ th.ended = false then (x.threads th.tid).getD th.on else th.on }) ∧
      C25.Tells reply (TraceState.Spec.run {} (acts ++ xs)) := by
  have h := agree_run p {} {} agree_init hp hi
  have hc : (run {} p).confs.map plain = (world p).confs := h.confs
  rw [← hc, List.getElem?_map] at hx
  cases e : (run {} p).confs[c]? with
  | none => rw [e] at hx; cases hx
  | some y =>
    rw [e] at hx
    simp only [Option.map_some, Option.some.injEq] at hx
    have hy := h.maps y (List.mem_of_getElem? e)
    have hno : y.threads.any (fun z => decide (2 ^ 63 ≤ z.1)) = false := by
      rw [List.any_eq_false]
      intro z hz
      have := hy.2 z hz
      simp only [decide_eq_true_eq]
      omega
    have hsent : (run {} (p ++ [.send c a])).sent = (run {} p).sent ++ [y] := by
      have : run {} (p ++ [.send c a]) = (step (run {} p) (.send c a)).1 := by simp [run]
      rw [this]
      simp only [step, e, hno, Bool.false_eq_true, if_false]
    have hn : (y.threads.map (·.1)).Nodup := by
      have := hy.1
      rw [List.Nodup, List.pairwise_map]
      exact this.imp fun h => by omega
    obtain ⟨s', xs, a', reply, g1, g2, rfl, g4, g5, _, _, g8⟩ := C25.set_exact acts s hs y hn (fun z hz => by have := hy.2 z hz; omega)
    subst hx
    refine ⟨y, s', xs, reply, hsent, g1, g2, g4, ?_, g8⟩
    rw [g5]
    apply List.map_congr_left
    intro th _
    simp [C25.applied, plain]

/-- The process has two threads that trace; the program switches one off. -/
example : ∃ (p : List Stmt) (x : Plain), (∀ x ∈ p, Proper x) ∧ (∀ x ∈ p, ¬ Item x) ∧ (world p).confs[0]? = some x ∧ x.threads 12 = some false ∧ x.setProcess = false :=
  ⟨[.new, .entry 0 12 (.bool false)], _, by simp [Proper, Value, Id], by simp [Item], rfl, by simp [truth], rfl⟩

end Scalopus.C131
