import Verif.Spec.PyGraph

/-!
# C158: whatever an event written in Python is made of, it is converted or an exception is raised

False: `pyToJson` calls itself for every element, so that a list that contains itself, and one that is nested deeper than the stack has room for, end the process.
-/

namespace Scalopus.C158

open PyJson PyGraph

theorem andThen_ok {α β : Type} (a : α) (f : α → Out β) : andThen (some (.ok a)) f = f a := rfl

theorem andThen_bind {α β : Type} (r : Res α) (f : α → Res β) (g : α → Out β) (h : ∀ a, r = .ok a → g a = some (f a)) : andThen (some r) g = some (r.bind f) := by
  cases r with
  | ok a => exact h a rfl
  | _ => rfl

theorem bind_ok {α β : Type} {r : Res α} {f : α → Res β} {b : β} (h : r.bind f = .ok b) : ∃ a, r = .ok a ∧ f a = .ok b := by
  cases r with
  | ok a => exact ⟨a, rfl, h⟩
  | throws w => cases h
  | ub => cases h
  | terminate => cases h

/-- What is known of the elements. -/
structure Elem (f : Nat → Out Json) (n x : Nat) (v : Py) : Prop where
  room : nesting v ≤ n → f x = some (pyToJson v)
  none : n < nesting v → ∀ j, pyToJson v = .ok j → f x = none

theorem convList_room {f : Nat → Out Json} {n : Nat} : ∀ (l : List Nat) (vs : List Py), l.length = vs.length → (∀ (i x : Nat) (v : Py), l[i]? = some x → vs[i]? = some v → Elem f n x v) →
    nestingList vs ≤ n → convList f l = some (pyToJsonList vs) := by
  intro l
  induction l with
  | nil =>
    intro vs hl _ _
    cases vs with
    | nil => rfl
    | cons v vs => simp at hl
  | cons x l ih =>
    intro vs hl he hn
    cases vs with
    | nil => simp at hl
    | cons v vs =>
      simp only [nestingList] at hn
      have h1 := (he 0 x v rfl rfl).room (by omega)
      have h2 := ih vs (by simpa using hl) (fun i x v hx hv => he (i + 1) x v (by simpa using hx) (by simpa using hv)) (by omega)
      simp only [convList, pyToJsonList, h1, h2]
      exact andThen_bind _ _ _ fun j _ => andThen_bind _ _ _ fun js _ => rfl

theorem convList_none {f : Nat → Out Json} {n : Nat} : ∀ (l : List Nat) (vs : List Py) (js : List Json), l.length = vs.length →
    (∀ (i x : Nat) (v : Py), l[i]? = some x → vs[i]? = some v → Elem f n x v) → n < nestingList vs → pyToJsonList vs = .ok js → convList f l = none := by
  intro l
  induction l with
  | nil =>
    intro vs js hl _ hn
    cases vs with
    | nil => simp [nestingList] at hn
    | cons v vs => simp at hl
  | cons x l ih =>
    intro vs js hl he hn hj
    cases vs with
    | nil => simp at hl
    | cons v vs =>
      simp only [pyToJsonList] at hj
      obtain ⟨j, h1, hj⟩ := bind_ok hj
      obtain ⟨js', h2, _⟩ := bind_ok hj
      simp only [nestingList] at hn
      have e := he 0 x v rfl rfl
      have e' : ∀ (i x : Nat) (v : Py), l[i]? = some x → vs[i]? = some v → Elem f n x v := fun i x v hx hv => he (i + 1) x v (by simpa using hx) (by simpa using hv)
      simp only [convList]
      by_cases hv : n < nesting v
      · rw [e.none hv j h1]; rfl
      · rw [e.room (by omega), h1, andThen_ok, ih vs js' (by simpa using hl) e' (by omega) h2]; rfl

theorem convItems_room {f : Nat → Out Json} {n : Nat} : ∀ (l : List (Py × Nat)) (vs : List (Py × Py)) (a : List (String × Json)), l.map Prod.fst = vs.map Prod.fst →
    (∀ (i : Nat) (x : Py × Nat) (v : Py × Py), l[i]? = some x → vs[i]? = some v → Elem f n x.2 v.2) → nestingItems vs ≤ n → convItems f l a = some (pyToJsonItems vs a) := by
  intro l
  induction l with
  | nil =>
    intro vs a hl _ _
    cases vs with
    | nil => rfl
    | cons v vs => simp at hl
  | cons x l ih =>
    intro vs a hl he hn
    cases vs with
    | nil => simp at hl
    | cons v vs =>
      obtain ⟨k, x⟩ := x
      obtain ⟨k', v⟩ := v
      simp only [List.map_cons, List.cons.injEq] at hl
      obtain ⟨rfl, hl⟩ := hl
      simp only [nestingItems] at hn
      have h1 := (he 0 _ _ rfl rfl).room (by simp only; omega)
      have e' : ∀ (i : Nat) (x : Py × Nat) (v : Py × Py), l[i]? = some x → vs[i]? = some v → Elem f n x.2 v.2 := fun i x v hx hv => he (i + 1) x v (by simpa using hx) (by simpa using hv)
      cases k with
      | str k =>
        simp only [convItems, pyToJsonItems, h1]
        exact andThen_bind _ _ _ fun j _ => ih vs _ hl e' (by omega)
      | surrogates =>
        simp only [convItems, pyToJsonItems, h1]
        exact andThen_bind _ _ _ fun j _ => rfl
      | _ => rfl

theorem convItems_none {f : Nat → Out Json} {n : Nat} : ∀ (l : List (Py × Nat)) (vs : List (Py × Py)) (a : List (String × Json)) (r : Json), l.map Prod.fst = vs.map Prod.fst →
    (∀ (i : Nat) (x : Py × Nat) (v : Py × Py), l[i]? = some x → vs[i]? = some v → Elem f n x.2 v.2) → n < nestingItems vs → pyToJsonItems vs a = .ok r → convItems f l a = none := by
  intro l
  induction l with
  | nil =>
    intro vs a r hl _ hn
    cases vs with
    | nil => simp [nestingItems] at hn
    | cons v vs => simp at hl
  | cons x l ih =>
    intro vs a r hl he hn hj
    cases vs with
    | nil => simp at hl
    | cons v vs =>
      obtain ⟨k, x⟩ := x
      obtain ⟨k', v⟩ := v
      simp only [List.map_cons, List.cons.injEq] at hl
      obtain ⟨rfl, hl⟩ := hl
      simp only [nestingItems] at hn
      have e := he 0 _ _ rfl rfl
      have e' : ∀ (i : Nat) (x : Py × Nat) (v : Py × Py), l[i]? = some x → vs[i]? = some v → Elem f n x.2 v.2 := fun i x v hx hv => he (i + 1) x v (by simpa using hx) (by simpa using hv)
      cases k with
      | str k =>
        simp only [pyToJsonItems] at hj
        obtain ⟨j, h1, hj⟩ := bind_ok hj
        simp only [convItems]
        by_cases hv : n < nesting v
        · rw [e.none hv j h1]; rfl
        · rw [e.room (by simp only; omega), h1, andThen_ok]
          exact ih vs _ r hl e' (by omega) hj
      | surrogates =>
        simp only [pyToJsonItems] at hj
        obtain ⟨j, _, hj⟩ := bind_ok hj
        cases hj
      | _ => simp [pyToJsonItems] at hj

theorem plain_nesting {v : Py} (h : Plain v) : nesting v = 1 := by
  cases v <;> simp only [Plain] at h <;> simp [nesting]

theorem elem (m : Mem) {o : Nat} {v : Py} (h : Unfolds m o v) : ∀ n, Elem (conv m n) n o v := by
  induction h with
  | leaf o v hm hp =>
    intro n
    constructor
    · intro hn
      rw [plain_nesting hp] at hn
      obtain ⟨k, rfl⟩ : ∃ k, n = k + 1 := ⟨n - 1, by omega⟩
      simp only [conv, hm]
    · intro hn j _
      rw [plain_nesting hp] at hn
      obtain rfl : n = 0 := by omega
      rfl
  | list o l vs hm hl _ ih =>
    intro n
    cases n with
    | zero => exact ⟨fun hn => by simp [nesting] at hn, fun _ _ _ => rfl⟩
    | succ n =>
      constructor
      · intro hn
        simp only [nesting] at hn
        simp only [conv, hm, convList_room l vs hl (fun i x v hx hv => ih i x v hx hv n) (by omega), pyToJson]
        exact andThen_bind _ _ _ fun _ _ => rfl
      · intro hn j hj
        simp only [nesting] at hn
        simp only [pyToJson] at hj
        obtain ⟨js, h1, _⟩ := bind_ok hj
        simp only [conv, hm, convList_none l vs js hl (fun i x v hx hv => ih i x v hx hv n) (by omega) h1, andThen]
  | tuple o l vs hm hl _ ih =>
    intro n
    cases n with
    | zero => exact ⟨fun hn => by simp [nesting] at hn, fun _ _ _ => rfl⟩
    | succ n =>
      constructor
      · intro hn
        simp only [nesting] at hn
        simp only [conv, hm, convList_room l vs hl (fun i x v hx hv => ih i x v hx hv n) (by omega), pyToJson]
        exact andThen_bind _ _ _ fun _ _ => rfl
      · intro hn j hj
        simp only [nesting] at hn
        simp only [pyToJson] at hj
        obtain ⟨js, h1, _⟩ := bind_ok hj
        simp only [conv, hm, convList_none l vs js hl (fun i x v hx hv => ih i x v hx hv n) (by omega) h1, andThen]
  | set o l vs hm hl _ ih =>
    intro n
    cases n with
    | zero => exact ⟨fun hn => by simp [nesting] at hn, fun _ _ _ => rfl⟩
    | succ n =>
      constructor
      · intro hn
        simp only [nesting] at hn
        simp only [conv, hm, convList_room l vs hl (fun i x v hx hv => ih i x v hx hv n) (by omega), pyToJson]
        exact andThen_bind _ _ _ fun _ _ => rfl
      · intro hn j hj
        simp only [nesting] at hn
        simp only [pyToJson] at hj
        obtain ⟨js, h1, _⟩ := bind_ok hj
        simp only [conv, hm, convList_none l vs js hl (fun i x v hx hv => ih i x v hx hv n) (by omega) h1, andThen]
  | dict o l vs hm hl _ ih =>
    intro n
    cases n with
    | zero => exact ⟨fun hn => by simp [nesting] at hn, fun _ _ _ => rfl⟩
    | succ n =>
      constructor
      · intro hn
        simp only [nesting] at hn
        simp only [conv, hm, pyToJson]
        exact convItems_room l vs [] hl (fun i x v hx hv => ih i x v hx hv n) (by omega)
      · intro hn j hj
        simp only [nesting] at hn
        simp only [pyToJson] at hj
        simp only [conv, hm]
        exact convItems_none l vs [] j hl (fun i x v hx hv => ih i x v hx hv n) (by omega) hj

/-- **C158** in full: for every object there is a size of the stack for which its conversion does not end the process. -/
def SomeStack : Prop := ∀ (m : Mem) (o : Nat), ∃ n, conv m n o ≠ none

/-- **C158, partial.** An object that is a value (nothing in it contains itself) that is nested at most as deep as the stack has room for is converted as that value, or raises as that value does, however many containers
its parts are in. Missing: objects that contain themselves, and deeper ones. -/
theorem converted_partial (m : Mem) (o : Nat) (v : Py) (h : Unfolds m o v) (n : Nat) (hn : nesting v ≤ n) : conv m n o = some (pyToJson v) := (elem m h n).room hn

/-- **C158 fails:** one that is nested deeper, and could be converted, ends the process. -/
theorem deep_ends (m : Mem) (o : Nat) (v : Py) (h : Unfolds m o v) (n : Nat) (hn : n < nesting v) (j : Json) (hj : pyToJson v = .ok j) : conv m n o = none := (elem m h n).none hn j hj

/-- The object can be converted as a value. -/
def Converts (m : Mem) (p : Nat) : Prop := ∃ v j, Unfolds m p v ∧ pyToJson v = .ok j

theorem converts_or {m : Mem} {p : Nat} (h : Converts m p) (n : Nat) : conv m n p = none ∨ ∃ j, conv m n p = some (.ok j) := by
  obtain ⟨v, j, h1, h2⟩ := h
  by_cases hn : nesting v ≤ n
  · exact .inr ⟨j, by rw [(elem m h1 n).room hn, h2]⟩
  · exact .inl ((elem m h1 n).none (by omega) j h2)

theorem list_before {f : Nat → Out Json} {x : Nat} {after : List Nat} (hx : f x = none) : ∀ (before : List Nat), (∀ p ∈ before, f p = none ∨ ∃ j, f p = some (.ok j)) → convList f (before ++ x :: after) = none := by
  intro before
  induction before with
  | nil => intro _; simp only [List.nil_append, convList, hx, andThen]
  | cons p before ih =>
    intro h
    simp only [List.cons_append, convList, ih (fun q hq => h q (List.mem_cons_of_mem _ hq))]
    rcases h p List.mem_cons_self with e | ⟨j, e⟩ <;> simp only [e, andThen]

theorem items_before {f : Nat → Out Json} {x : Nat} {k : String} {after : List (Py × Nat)} (hx : f x = none) : ∀ (before : List (String × Nat)) (a : List (String × Json)),
    (∀ p ∈ before.map Prod.snd, f p = none ∨ ∃ j, f p = some (.ok j)) → convItems f (before.map (fun e => (Py.str e.1, e.2)) ++ (Py.str k, x) :: after) a = none := by
  intro before
  induction before with
  | nil => intro a _; simp only [List.map_nil, List.nil_append, convItems, hx, andThen]
  | cons p before ih =>
    intro a h
    simp only [List.map_cons, List.cons_append, convItems]
    rcases h p.2 (by simp) with e | ⟨j, e⟩
    · simp only [e, andThen]
    · simp only [e, andThen]
      exact ih _ fun q hq => h q (by simp only [List.map_cons, List.mem_cons]; exact .inr hq)

/-- **C158 fails, every time:** if objects contain each other in a circle, or one contains itself, the conversion of each of them ends the process, however large the stack is, unless an element that comes before raises. -/
theorem circle_ends (m : Mem) (c : Nat → Prop) (h : ∀ o, c o → ∃ before x, Comes m o before x ∧ c x ∧ ∀ p ∈ before, Converts m p) (o : Nat) (ho : c o) (n : Nat) : conv m n o = none := by
  induction n generalizing o with
  | zero => rfl
  | succ n ih =>
    obtain ⟨before, x, hc, hx, hb⟩ := h o ho
    have hx' := ih x hx
    have hb' := fun p hp => converts_or (hb p hp) n
    cases hc with
    | list => rename_i hm; simp only [conv, hm, list_before hx' before hb', andThen]
    | tuple => rename_i hm; simp only [conv, hm, list_before hx' before hb', andThen]
    | set => rename_i hm; simp only [conv, hm, list_before hx' before hb', andThen]
    | dict => rename_i hm; simp only [conv, hm]; exact items_before hx' _ [] hb'

/-- So does whatever contains one of them, after elements that can be converted. -/
theorem inside_ends (m : Mem) (c : Nat → Prop) (h : ∀ o, c o → ∃ before x, Comes m o before x ∧ c x ∧ ∀ p ∈ before, Converts m p) (o x : Nat) (before : List Nat) (hc : Comes m o before x) (hx : c x)
    (hb : ∀ p ∈ before, Converts m p) (n : Nat) : conv m n o = none := by
  refine circle_ends m (fun y => y = o ∨ c y) (fun y hy => ?_) o (.inl rfl) n
  rcases hy with rfl | hy
  · exact ⟨before, x, hc, .inr hx, hb⟩
  · obtain ⟨b, x', h1, h2, h3⟩ := h y hy
    exact ⟨b, x', h1, .inr h2, h3⟩

/-- `l = [1]; l.append(l)`, and the event `{"name": l}`. -/
def loop : Mem := fun o => if o = 0 then .list [1, 0] else if o = 1 then .leaf (.int 1) else .dict [(.str "name", 0)]

theorem loop_circle : ∀ o, o = 0 → ∃ before x, Comes loop o before x ∧ x = 0 ∧ ∀ p ∈ before, Converts loop p := by
  rintro o rfl
  refine ⟨[1], 0, .list 0 0 [1] [] rfl, rfl, ?_⟩
  intro p hp
  rw [List.mem_singleton] at hp
  subst hp
  exact ⟨.int 1, .int 1, .leaf 1 _ rfl trivial, by rfl⟩

theorem not_SomeStack : ¬ SomeStack := fun h => by
  obtain ⟨n, hn⟩ := h loop 0
  exact hn (circle_ends loop (· = 0) loop_circle 0 rfl n)

example (n : Nat) : conv loop n 2 = none :=
  inside_ends loop (· = 0) loop_circle 2 0 [] (.dict 2 0 [] "name" [] rfl) rfl (by simp) n

/-- Lists in lists, `o + 1` of them. -/
def nested : Mem := fun o => match o with
  | 0 => .list []
  | o + 1 => .list [o]

def nestedValue : Nat → Py
  | 0 => .list []
  | o + 1 => .list [nestedValue o]

theorem nested_unfolds (o : Nat) : Unfolds nested o (nestedValue o) := by
  induction o with
  | zero => exact .list 0 [] [] rfl rfl (by simp)
  | succ o ih =>
    refine .list (o + 1) [o] [nestedValue o] rfl rfl ?_
    intro i x v hx hv
    cases i with
    | zero =>
      simp only [List.getElem?_cons_zero, Option.some.injEq] at hx hv
      subst hx; subst hv
      exact ih
    | succ i => simp at hx

theorem nested_nesting (o : Nat) : nesting (nestedValue o) = o + 1 := by
  induction o with
  | zero => rfl
  | succ o ih => simp only [nestedValue, nesting, nestingList, ih]; omega

theorem nested_converts (o : Nat) : ∃ j, pyToJson (nestedValue o) = .ok j := by
  induction o with
  | zero => exact ⟨.arr [], rfl⟩
  | succ o ih =>
    obtain ⟨j, hj⟩ := ih
    exact ⟨.arr [j], by simp only [nestedValue, pyToJson, pyToJsonList, hj, Res.bind]⟩

/-- **C158 fails for every stack:** there is a value that could be converted, and ends the process: lists in lists. -/
theorem every_stack_ends (n : Nat) : ∃ (m : Mem) (o : Nat), Converts m o ∧ conv m n o = none := by
  obtain ⟨j, hj⟩ := nested_converts n
  exact ⟨nested, n, ⟨_, j, nested_unfolds n, hj⟩, deep_ends nested n _ (nested_unfolds n) n (by rw [nested_nesting]; omega) j hj⟩

theorem then_ok {α β : Type} {r : Out α} {f : α → Out β} {b : β} (h : andThen r f = some (.ok b)) : ∃ a, r = some (.ok a) ∧ f a = some (.ok b) := by
  cases r with
  | none => simp [andThen] at h
  | some r =>
    cases r with
    | ok a => exact ⟨a, rfl, h⟩
    | _ => simp [andThen] at h

theorem list_back {m : Mem} {n : Nat} (ih : ∀ o j, conv m n o = some (.ok j) → ∃ v, Unfolds m o v ∧ nesting v ≤ n) : ∀ (l : List Nat) (js : List Json), convList (conv m n) l = some (.ok js) →
    ∃ vs : List Py, l.length = vs.length ∧ (∀ (i x : Nat) (v : Py), l[i]? = some x → vs[i]? = some v → Unfolds m x v) ∧ nestingList vs ≤ n := by
  intro l
  induction l with
  | nil => intro js _; exact ⟨[], rfl, by simp, by simp [nestingList]⟩
  | cons x l ihl =>
    intro js h
    simp only [convList] at h
    obtain ⟨j, h1, h⟩ := then_ok h
    obtain ⟨js', h2, _⟩ := then_ok h
    obtain ⟨v, h3, h4⟩ := ih x j h1
    obtain ⟨vs, h5, h6, h7⟩ := ihl js' h2
    refine ⟨v :: vs, by simp [h5], ?_, by simp only [nestingList]; omega⟩
    intro i y w hy hw
    cases i with
    | zero =>
      simp only [List.getElem?_cons_zero, Option.some.injEq] at hy hw
      subst hy; subst hw
      exact h3
    | succ i => exact h6 i y w (by simpa using hy) (by simpa using hw)

theorem items_back {m : Mem} {n : Nat} (ih : ∀ o j, conv m n o = some (.ok j) → ∃ v, Unfolds m o v ∧ nesting v ≤ n) : ∀ (l : List (Py × Nat)) (a : List (String × Json)) (j : Json),
    convItems (conv m n) l a = some (.ok j) →
    ∃ vs : List (Py × Py), l.map Prod.fst = vs.map Prod.fst ∧ (∀ (i : Nat) (x : Py × Nat) (v : Py × Py), l[i]? = some x → vs[i]? = some v → Unfolds m x.2 v.2) ∧ nestingItems vs ≤ n := by
  intro l
  induction l with
  | nil => intro a j _; exact ⟨[], rfl, by simp, by simp [nestingItems]⟩
  | cons x l ihl =>
    intro a j h
    obtain ⟨k, x⟩ := x
    cases k with
    | str k =>
      simp only [convItems] at h
      obtain ⟨j', h1, h⟩ := then_ok h
      obtain ⟨v, h3, h4⟩ := ih x j' h1
      obtain ⟨vs, h5, h6, h7⟩ := ihl _ j h
      refine ⟨(.str k, v) :: vs, by simp [h5], ?_, by simp only [nestingItems]; omega⟩
      intro i y w hy hw
      cases i with
      | zero =>
        simp only [List.getElem?_cons_zero, Option.some.injEq] at hy hw
        subst hy; subst hw
        exact h3
      | succ i => exact h6 i y w (by simpa using hy) (by simpa using hw)
    | surrogates =>
      simp only [convItems] at h
      obtain ⟨j', _, h⟩ := then_ok h
      cases h
    | _ => simp [convItems] at h

theorem conv_back {m : Mem} (hp : ∀ o v, m o = .leaf v → Plain v) (n : Nat) : ∀ o j, conv m n o = some (.ok j) → ∃ v, Unfolds m o v ∧ nesting v ≤ n := by
  induction n with
  | zero => intro o j h; simp [conv] at h
  | succ n ih =>
    intro o j h
    simp only [conv] at h
    split at h
    · rename_i v hm
      exact ⟨v, .leaf o v hm (hp o v hm), by rw [plain_nesting (hp o v hm)]; omega⟩
    · rename_i l hm
      obtain ⟨js, h1, _⟩ := then_ok h
      obtain ⟨vs, h2, h3, h4⟩ := list_back ih l js h1
      exact ⟨.list vs, .list o l vs hm h2 h3, by simp only [nesting]; omega⟩
    · rename_i l hm
      obtain ⟨js, h1, _⟩ := then_ok h
      obtain ⟨vs, h2, h3, h4⟩ := list_back ih l js h1
      exact ⟨.tuple vs, .tuple o l vs hm h2 h3, by simp only [nesting]; omega⟩
    · rename_i l hm
      obtain ⟨vs, h2, h3, h4⟩ := items_back ih l [] j h
      exact ⟨.dict vs, .dict o l vs hm h2 h3, by simp only [nesting]; omega⟩
    · rename_i l hm
      obtain ⟨js, h1, _⟩ := then_ok h
      obtain ⟨vs, h2, h3, h4⟩ := list_back ih l js h1
      exact ⟨.set vs, .set o l vs hm h2 h3, by simp only [nesting]; omega⟩

/-- **C158, exactly.** With room for `n` calls, an object is converted to `j` if and only if it is a value, nested at most `n` deep, that is converted to `j`. -/
theorem converted_iff (m : Mem) (hp : ∀ o v, m o = .leaf v → Plain v) (o n : Nat) (j : Json) : conv m n o = some (.ok j) ↔ ∃ v, Unfolds m o v ∧ nesting v ≤ n ∧ pyToJson v = .ok j := by
  constructor
  · intro h
    obtain ⟨v, h1, h2⟩ := conv_back hp n o j h
    refine ⟨v, h1, h2, ?_⟩
    have := converted_partial m o v h1 n h2
    rw [h] at this
    exact (Option.some.inj this).symm
  · rintro ⟨v, h1, h2, h3⟩
    rw [converted_partial m o v h1 n h2, h3]

/-- A list that is in another one twice. -/
def twice : Mem := fun o => if o = 0 then .list [1, 1] else if o = 1 then .list [2] else .leaf (.int 5)

example : (∀ o v, twice o = .leaf v → Plain v) ∧ conv twice 3 0 = some (.ok (.arr [.arr [.int 5], .arr [.int 5]])) ∧ conv twice 2 0 = none := by
  refine ⟨?_, by rfl, by rfl⟩
  intro o v h
  simp only [twice] at h
  split at h
  · cases h
  · split at h
    · cases h
    · cases h; trivial

end Scalopus.C158
