import Verif.Model.PyClass

/-!
# C132: endpoint classes written in Python may leave out methods
-/

namespace Scalopus.C132

open PyClass Protocol
open PyData (Obj PyResult)

/-- The class gives its objects this name. -/
def Named (c : Class) (n : Bytes) : Prop := (∃ s, c.getName = some (.returns (.str s)) ∧ n = PyData.utf8 s) ∨ c.getName = some (.returns (.bytes n))

/-- The endpoint is there after the call, under its name, it knows the transport, and all else is as before. -/
structure Added (s s' : Registry.State) (t e : Nat) (n : Bytes) : Prop where
  found : Registry.getEndpoint s' t n = some e
  knows : s'.transport e = some t
  others : ∀ t' m, (t' ≠ t ∨ m ≠ n) → Registry.getEndpoint s' t' m = Registry.getEndpoint s t' m
  rest : ∀ e', e' ≠ e → s'.transport e' = s.transport e'

/-- **C132** in full, for `addEndpoint`: it raises and has no effect, or the endpoint is added. -/
def AllOrNothing : Prop := ∀ (classOf : Nat → Class) (h : List (Nat × Nat)) (t e : Nat),
  let s := PyClass.run classOf h
  let r := add classOf s t e
  (r.2 = true ∧ r.1 = s) ∨ (r.2 = false ∧ ∃ n, Named (classOf e) n ∧ Added s r.1 t e n)

theorem nameOf_iff (c : Class) (n : Bytes) : nameOf c = .ok n ↔ Named c n := by
  unfold nameOf Named
  cases hg : c.getName with
  | none => simp
  | some r =>
    cases r with
    | raises => simp
    | returns o => cases o <;> simp [eq_comm]

theorem named_unique {c : Class} {n m : Bytes} (h1 : Named c n) (h2 : Named c m) : n = m := by
  rw [← nameOf_iff] at h1 h2
  rw [h1] at h2
  exact Res.ok.inj h2

theorem find_filter (l : List (Bytes × Nat)) (n m : Bytes) (h : m ≠ n) : (l.filter (fun e => e.1 ≠ n)).find? (fun e => e.1 = m) = l.find? (fun e => e.1 = m) := by
  induction l with
  | nil => rfl
  | cons x l ih =>
    simp only [List.filter_cons]
    by_cases hx : x.1 = n
    · have : ¬ x.1 = m := fun e => h (e.symm.trans hx)
      simp only [hx, ne_eq, not_true_eq_false, decide_false, Bool.false_eq_true, if_false, List.find?_cons]
      have h2 : decide (n = m) = false := by simpa using fun e : n = m => h e.symm
      rw [h2]
      exact ih
    · simp only [ne_eq, hx, not_false_eq_true, decide_true, if_true, List.find?_cons]
      split
      · rfl
      · exact ih

/-- The registry after an entry was made. -/
theorem get_entered (s : Registry.State) (t e : Nat) (n : Bytes) (tr : Nat → Option Nat) (t' : Nat) (m : Bytes) :
    Registry.getEndpoint { endpoints := fun t' => if t' = t then Registry.assign (s.endpoints t) n e else s.endpoints t', transport := tr } t' m =
      if t' = t ∧ m = n then some e else Registry.getEndpoint s t' m := by
  simp only [Registry.getEndpoint]
  by_cases ht : t' = t
  · subst ht
    simp only [if_true, Registry.assign, List.find?_cons, true_and]
    by_cases hm : m = n
    · subst hm; simp
    · have : decide (n = m) = false := by simpa using fun e : n = m => hm e.symm
      rw [this]
      simp only [hm, if_false, find_filter _ _ _ hm]
  · simp [ht]

/-- **C132, partial: adding.** For a class that does not define `setTransport`: the call raises exactly if the class gives no name, and then it has no effect; otherwise the endpoint is added. -/
theorem add_partial (classOf : Nat → Class) (s : Registry.State) (t e : Nat) (hs : (classOf e).setTransport = none) :
    ((add classOf s t e).2 = true ∧ (add classOf s t e).1 = s ∧ ∀ n, ¬ Named (classOf e) n) ∨
    ((add classOf s t e).2 = false ∧ ∃ n, Named (classOf e) n ∧ Added s (add classOf s t e).1 t e n) := by
  cases hn : nameOf (classOf e) with
  | ok n =>
    right
    simp only [add, hn, hs]
    refine ⟨trivial, n, (nameOf_iff _ _).1 hn, ?_, ?_, ?_, ?_⟩
    · rw [get_entered]; simp
    · simp
    · intro t' m h
      rw [get_entered]
      have : ¬ (t' = t ∧ m = n) := by
        rintro ⟨rfl, rfl⟩
        rcases h with h | h <;> exact h rfl
      simp [this]
    · intro e' he
      simp [he]
  | throws w =>
    left
    simp only [add, hn, true_and]
    intro n h
    rw [← nameOf_iff, hn] at h
    cases h
  | ub =>
    left
    simp only [add, hn, true_and]
    intro n h
    rw [← nameOf_iff, hn] at h
    cases h
  | terminate =>
    left
    simp only [add, hn, true_and]
    intro n h
    rw [← nameOf_iff, hn] at h
    cases h

/-- A class that defines only its name, and one that does not. -/
example : Named { getName := some (.returns (.str "a")) } [97] ∧ ∀ n, ¬ Named {} n := ⟨.inl ⟨"a", rfl, by decide +kernel⟩, by simp [Named]⟩

/-- **C132, classes with `setTransport`.** Such a class never learns its transport: `getTransport` gives what it gave before. The endpoint is registered, also if the method raises. -/
theorem own_setTransport (classOf : Nat → Class) (s : Registry.State) (t e : Nat) (n : Bytes) (hn : Named (classOf e) n) (b : Bool) (hs : (classOf e).setTransport = some b) :
    (add classOf s t e).2 = !b ∧ Registry.getEndpoint (add classOf s t e).1 t n = some e ∧ (add classOf s t e).1.transport = s.transport := by
  rw [← nameOf_iff] at hn
  cases b <;> simp only [add, hn, hs] <;> refine ⟨by simp, ?_, trivial⟩ <;> rw [get_entered] <;> simp

theorem not_AllOrNothing : ¬ AllOrNothing := by
  intro h
  let c : Class := { getName := some (.returns (.bytes [1])), setTransport := some false }
  have hc : Named c [1] := .inr rfl
  obtain ⟨h1, h2, h3⟩ := own_setTransport (fun _ => c) (PyClass.run (fun _ => c) []) 0 0 [1] hc false rfl
  rcases h (fun _ => c) [] 0 0 with ⟨_, h5⟩ | ⟨h5, _⟩
  · rw [h5] at h2
    simp [PyClass.run, Registry.getEndpoint] at h2
  · rw [h1] at h5
    cases h5

/-- The name of an endpoint, as a boolean test. -/
def named (c : Class) (n : Bytes) : Bool := nameOf c = .ok n

/-- **C132, messages.** A message reaches the endpoint that was last given to the transport among those with the name of the message; endpoints without a name do not matter. -/
theorem message_to_last (classOf : Nat → Class) (h : List (Nat × Nat)) (t : Nat) (n d : Bytes) :
    deliver classOf (PyClass.run classOf h) t n d = (h.reverse.find? fun a => decide (a.1 = t) && named (classOf a.2) n).map fun a => (a.2, answer (classOf a.2) d) := by
  have key : ∀ (s : Registry.State) (t' e : Nat), Registry.getEndpoint (add classOf s t' e).1 t n = if t' = t ∧ nameOf (classOf e) = .ok n then some e else Registry.getEndpoint s t n := by
    intro s t' e
    cases hn : nameOf (classOf e) with
    | ok m =>
      have e1 : Registry.getEndpoint (add classOf s t' e).1 t n = if t = t' ∧ n = m then some e else Registry.getEndpoint s t n := by
        simp only [add, hn]
        split <;> rw [get_entered]
      rw [e1]
      by_cases h1 : t' = t
      · by_cases h2 : n = m
        · simp [h1, h2]
        · have : ¬ m = n := fun e => h2 e.symm
          simp [h1, h2, this]
      · have : ¬ t = t' := fun e => h1 e.symm
        simp [h1, this]
    | throws w => simp [add, hn]
    | ub => simp [add, hn]
    | terminate => simp [add, hn]
  have key2 : ∀ h : List (Nat × Nat), Registry.getEndpoint (PyClass.run classOf h) t n = (h.reverse.find? fun a => decide (a.1 = t) && named (classOf a.2) n).map (·.2) := by
    intro h
    have hrev : ∀ l : List (Nat × Nat), Registry.getEndpoint (PyClass.run classOf l.reverse) t n = (l.find? fun a => decide (a.1 = t) && named (classOf a.2) n).map (·.2) := by
      intro l
      induction l with
      | nil => rfl
      | cons a l ih =>
        have e1 : PyClass.run classOf (a :: l).reverse = (add classOf (PyClass.run classOf l.reverse) a.1 a.2).1 := by
          simp [PyClass.run]
        rw [e1, key, ih, List.find?_cons]
        by_cases h1 : a.1 = t
        · by_cases h2 : nameOf (classOf a.2) = .ok n
          · simp [h1, h2, named]
          · simp [h1, h2, named]
        · simp [h1]
    have := hrev h.reverse
    rw [List.reverse_reverse] at this
    exact this
  simp only [deliver, key2, Option.map_map]
  rfl

/-- The test is the property. -/
theorem named_iff (c : Class) (n : Bytes) : named c n = true ↔ Named c n := by
  rw [← nameOf_iff]
  simp [named]

/-- **C132, defaults.** A class that leaves out `handle` answers no request, and one that leaves out `unsolicited` answers no other message; nothing is raised. A class that defines a method gets the message as
bytes, and answers exactly if it returns data, with this data; it fails exactly if it raises, or returns data that has no bytes. -/
theorem defaults (c : Class) (d : Bytes) :
    (c.handle = none → answer c d = .declines) ∧ (c.unsolicited = none → answerUnsolicited c d = .declines) ∧
    (∀ f, c.handle = some f → answer c d = PyData.handle (some f) d) ∧ (∀ f, c.unsolicited = some f → answerUnsolicited c d = PyData.handle (some f) d) := by
  refine ⟨?_, ?_, ?_, ?_⟩
  · intro h
    cases hp : c.python <;> simp [answer, handleOf, h, hp, PyData.handle, PyData.pyToData]
  · intro h; simp [answerUnsolicited, h, PyData.handle]
  · intro f h; simp [answer, handleOf, h]
  · intro f h; simp [answerUnsolicited, h]

/-- What a method gives, spelled out. -/
theorem method_gives (f : Obj → PyResult) (d : Bytes) :
    (∀ b, f (.bytes d) = .returns (.bytes b) → PyData.handle (some f) d = .answers b) ∧ (∀ s, f (.bytes d) = .returns (.str s) → PyData.handle (some f) d = .answers (PyData.utf8 s)) ∧
    (f (.bytes d) = .returns .none → PyData.handle (some f) d = .declines) ∧ (f (.bytes d) = .raises → PyData.handle (some f) d = .throws) := by
  refine ⟨?_, ?_, ?_, ?_⟩
  · intro b h; simp [PyData.handle, h, PyData.pyToData]
  · intro s h; simp [PyData.handle, h, PyData.pyToData]
  · intro h; simp [PyData.handle, h, PyData.pyToData]
  · intro h; simp [PyData.handle, h]

/-- Two endpoints with the same name and one without: the later of the two gets the message. -/
example : ∃ (classOf : Nat → Class), deliver classOf (PyClass.run classOf [(0, 0), (0, 1), (0, 2)]) 0 [1] [5] = some (1, .answers [5]) ∧ (add classOf (PyClass.run classOf [(0, 0), (0, 1)]) 0 2).2 = true :=
  ⟨fun e => if e = 2 then {} else if e = 1 then { getName := some (.returns (.bytes [1])), handle := some fun o => .returns o } else { getName := some (.returns (.bytes [1])) },
   by
    rw [message_to_last]
    simp [named, nameOf, answer, handleOf, PyData.handle, PyData.pyToData],
   by simp [add, nameOf]⟩

end Scalopus.C132
