import Verif.Model.PyHandle

/-!
# C109: endpoints written in Python get their messages

`due` says which calls of Python methods a history should lead to: one for every message for an endpoint whose class has the method. The endpoints are those that were added, the last one for
each name.
-/

namespace Scalopus.C109

open PyHandle

/-- The calls that the messages of a history should lead to; `eps` gives the endpoint that has a name. -/
def due (eps : Nat → Option Kind) : List Act → List (Nat × Nat)
  | [] => []
  | .add name k :: as => due (fun n => if n = name then some k else eps n) as
  | .message name msg :: as => (if eps name = some (.python true) then [(name, msg)] else []) ++ due eps as
  | _ :: as => due eps as

/-- The program begins with `n` references to the Python object of a transport and always has at least one. -/
def Keeps (n : Nat) : List Act → Prop
  | [] => 0 < n
  | .ref :: as => 0 < n ∧ Keeps (n + 1) as
  | .getTransport :: as => 0 < n ∧ Keeps (n + 1) as
  | .unref :: as => 0 < n ∧ Keeps (n - 1) as
  | _ :: as => 0 < n ∧ Keeps n as

/-- How a transport comes about, and the endpoints it has then. -/
inductive Begin : State → (Nat → Option Kind) → Prop where
  | made : Begin made fun _ => none
  | managed (name : Nat) (k : Kind) (n : Nat) : Begin (managed name k n) fun m => if m = name then some k else none

/-- **C109** in full: every message leads to its call, the program goes on and never uses released memory. -/
def EveryMessage : Prop := ∀ s0 eps, Begin s0 eps → ∀ as s, run s0 as = some s → s.dead = false ∧ s.ub = false ∧ s.calls = due eps as

theorem run_cons (a : Act) (as : List Act) (s : State) : run s (a :: as) = (step s a).bind fun t => run t as := rfl

theorem run_append (as bs : List Act) (s : State) : run s (as ++ bs) = (run s as).bind fun t => run t bs := by
  induction as generalizing s with
  | nil => rfl
  | cons a as ih =>
    rw [List.cons_append, run_cons, run_cons]
    cases step s a with
    | none => rfl
    | some t => exact ih t

theorem lookup_filter (l : List (Nat × Kind)) (name n : Nat) (h : n ≠ name) : (l.filter fun p => p.1 != name).lookup n = l.lookup n := by
  induction l with
  | nil => rfl
  | cons p l ih =>
    obtain ⟨m, k⟩ := p
    by_cases hm : m = name
    · subst hm
      rw [List.filter_cons_of_neg (by simp), ih, List.lookup_cons]
      have : (n == m) = false := by simpa using h
      rw [this]
    · rw [List.filter_cons_of_pos (by simpa using hm), List.lookup_cons, List.lookup_cons, ih]

theorem lookup_add (l : List (Nat × Kind)) (name : Nat) (k : Kind) (n : Nat) :
    ((name, k) :: l.filter fun p => p.1 != name).lookup n = if n = name then some k else l.lookup n := by
  rw [List.lookup_cons]
  by_cases h : n = name
  · simp [h]
  · have : (n == name) = false := by simpa using h
    rw [this, if_neg h]
    exact lookup_filter l name n h

theorem settle_cases (s : State) : s.settle = s ∨ s.settle = { s with gone := true } := by
  unfold State.settle
  split
  · exact .inr rfl
  · exact .inl rfl

/-- While the program keeps a reference to a Python object that holds the transport. -/
theorem keeps_run {as : List Act} {s s' : State} {eps : Nat → Option Kind} (e : run s as = some s') (hk : Keeps s.vars as) (ho : s.owns = true) (hg : s.gone = false) (hd : s.dead = false)
    (hu : s.ub = false) (hl : ∀ n, s.eps.lookup n = eps n) : s'.dead = false ∧ s'.ub = false ∧ s'.gone = false ∧ s'.calls = s.calls ++ due eps as := by
  induction as generalizing s eps with
  | nil => obtain rfl := Option.some.inj e; exact ⟨hd, hu, hg, by simp [due]⟩
  | cons a as ih =>
    rw [run_cons] at e
    obtain ⟨t, ht, e⟩ := Option.bind_eq_some_iff.1 e
    cases a with
    | ref =>
      simp only [step] at ht
      rw [if_pos hk.1] at ht
      obtain rfl := Option.some.inj ht
      have := ih e hk.2 ho hg hd hu hl
      exact this
    | unref =>
      have hpos : 0 < s.vars - 1 := by
        have := hk.2
        revert this
        cases as with
        | nil => exact fun h => h
        | cons b bs => cases b <;> exact fun h => h.1
      simp only [step] at ht
      rw [if_pos hk.1] at ht
      obtain rfl := Option.some.inj ht
      have hset : State.settle { s with vars := s.vars - 1 } = { s with vars := s.vars - 1 } := by
        unfold State.settle
        rw [if_neg (fun h => h.2 ⟨hpos, ho⟩)]
      rw [hset] at e
      have := ih e hk.2 ho hg hd hu hl
      exact this
    | getTransport =>
      simp only [step] at ht
      split at ht
      · cases ht
      · rw [if_pos hk.1] at ht
        obtain rfl := Option.some.inj ht
        have := ih e hk.2 ho hg hd (by simp [hu, hg]) hl
        exact this
    | forget =>
      simp only [step] at ht
      split at ht
      · obtain rfl := Option.some.inj ht
        have hset : State.settle { s with cpp := false } = { s with cpp := false } := by
          unfold State.settle
          rw [if_neg (fun h => h.2 ⟨hk.1, ho⟩)]
        rw [hset] at e
        have := ih e hk.2 ho hg hd hu hl
        exact this
      · cases ht
    | add name k =>
      simp only [step] at ht
      split at ht
      · cases ht
      · obtain rfl := Option.some.inj ht
        have := ih (eps := fun n => if n = name then some k else eps n) e hk.2 ho hg hd hu fun n => by rw [lookup_add, hl]
        exact this
    | message name msg =>
      simp only [step] at ht
      split at ht
      · cases ht
      · obtain rfl := Option.some.inj ht
        by_cases hp : eps name = some (.python true)
        · have hdel : deliver s name msg = { s with calls := s.calls ++ [(name, msg)] } := by
            simp only [deliver, hl, hp]
            rw [if_pos hk.1]
          rw [hdel] at e
          have := ih e hk.2 ho hg hd hu hl
          refine ⟨this.1, this.2.1, this.2.2.1, ?_⟩
          rw [this.2.2.2]
          simp [due, hp]
        · have hdel : deliver s name msg = s := by
            unfold deliver
            rw [hl]
            split
            · rename_i h; exact absurd h hp
            · rfl
          rw [hdel] at e
          have := ih e hk.2 ho hg hd hu hl
          refine ⟨this.1, this.2.1, this.2.2.1, ?_⟩
          rw [this.2.2.2]
          simp [due, hp]
    | use =>
      simp only [step] at ht
      rw [if_pos hk.1, if_neg (by simp [hg])] at ht
      obtain rfl := Option.some.inj ht
      have := ih e hk.2 ho hg hd hu hl
      exact this

/-- **C109, partial: programs that keep the transport.** As long as the program has a reference to the Python object that it got for the transport, every message leads to its call, in order,
    nothing ends the program, and the object can be used. Missing: transports of a manager that the program does not keep. -/
theorem kept_partial (s0 : State) (eps : Nat → Option Kind) (h : Begin s0 eps) (as : List Act) (s : State) (e : run s0 as = some s) (hk : Keeps s0.vars as) :
    s.dead = false ∧ s.ub = false ∧ s.calls = due eps as := by
  have h0 : 0 < s0.vars := by
    revert hk
    cases as with
    | nil => exact fun h => h
    | cons b bs => cases b <;> exact fun h => h.1
  have : s.dead = false ∧ s.ub = false ∧ s.gone = false ∧ s.calls = s0.calls ++ due eps as := by
    cases h with
    | made => exact keeps_run e hk rfl rfl rfl rfl fun _ => rfl
    | managed name k n =>
      refine keeps_run e hk (decide_eq_true h0) rfl rfl rfl fun m => ?_
      have := lookup_add [] name k m
      simpa [managed] using this
  refine ⟨this.1, this.2.1, ?_⟩
  rw [this.2.2.2]
  cases h <;> rfl

/-- Without the Python object no method is ever called. -/
theorem none_called {as : List Act} {s s' : State} (e : run s as = some s') (hv : s.vars = 0) (hg : .getTransport ∉ as) : s'.vars = 0 ∧ s'.calls = s.calls ∧ (s.dead = true → s'.dead = true) := by
  induction as generalizing s with
  | nil => obtain rfl := Option.some.inj e; exact ⟨hv, rfl, id⟩
  | cons a as ih =>
    rw [run_cons] at e
    obtain ⟨t, ht, e⟩ := Option.bind_eq_some_iff.1 e
    have hg' : .getTransport ∉ as := fun h => hg (List.mem_cons_of_mem _ h)
    have key : t.vars = 0 ∧ t.calls = s.calls ∧ (s.dead = true → t.dead = true) := by
      cases a with
      | ref => simp only [step, hv] at ht; cases ht
      | unref => simp only [step, hv] at ht; cases ht
      | getTransport => exact absurd List.mem_cons_self hg
      | forget =>
        simp only [step] at ht
        split at ht
        · obtain rfl := Option.some.inj ht
          rcases settle_cases { s with cpp := false } with h | h <;> rw [h] <;> exact ⟨hv, rfl, id⟩
        · cases ht
      | add name k =>
        simp only [step] at ht
        split at ht
        · cases ht
        · obtain rfl := Option.some.inj ht; exact ⟨hv, rfl, id⟩
      | message name msg =>
        simp only [step] at ht
        split at ht
        · cases ht
        · obtain rfl := Option.some.inj ht
          unfold deliver
          split
          · rw [if_neg (by omega)]; exact ⟨hv, rfl, fun _ => rfl⟩
          · exact ⟨hv, rfl, id⟩
      | use => simp only [step, hv] at ht; cases ht
    have := ih e key.1 hg'
    exact ⟨this.1, this.2.1.trans key.2.1, fun h => this.2.2 (key.2.2 h)⟩

/-- **C109, the opposite for transports that are not kept.** A manager connects; the factory, written in Python, makes an endpoint whose class has the method and does not keep the transport,
    and nothing in the program asks for it. The first message for the endpoint ends the program, and its method is never called. -/
theorem not_kept_ends (name msg : Nat) (as : List Act) (s : State) (e : run (managed name (.python true) 0) as = some s) (hg : .getTransport ∉ as) (ha : ∀ k, .add name k ∉ as)
    (hm : .message name msg ∈ as) : s.dead = true ∧ s.calls = [] := by
  have key : ∀ (as : List Act) (t : State), run t as = some s → .getTransport ∉ as → (∀ k, .add name k ∉ as) → .message name msg ∈ as → t.vars = 0 →
      t.eps.lookup name = some (.python true) → s.dead = true := by
    intro as
    induction as with
    | nil => intro t _ _ _ hm; cases hm
    | cons a as ih =>
      intro t e hg ha hm hv hl
      rw [run_cons] at e
      obtain ⟨u, hu, e⟩ := Option.bind_eq_some_iff.1 e
      have hg' : .getTransport ∉ as := fun h => hg (List.mem_cons_of_mem _ h)
      have ha' : ∀ k, .add name k ∉ as := fun k h => ha k (List.mem_cons_of_mem _ h)
      by_cases heq : a = .message name msg
      · subst heq
        simp only [step] at hu
        split at hu
        · cases hu
        · obtain rfl := Option.some.inj hu
          have hdel : deliver t name msg = { t with dead := true } := by
            simp only [deliver, hl]
            rw [if_neg (by omega)]
          rw [hdel] at e
          exact (none_called e hv hg').2.2 rfl
      · have hm' : .message name msg ∈ as := by
          rcases List.mem_cons.1 hm with h | h
          · exact absurd h.symm heq
          · exact h
        have h1 := none_called (as := [a]) (s := t) (s' := u) (by rw [run_cons, hu]; rfl) hv (by
          simp only [List.mem_singleton]; intro h; exact hg (by rw [h]; exact List.mem_cons_self))
        refine ih u e hg' ha' hm' h1.1 ?_
        cases a with
        | ref => simp only [step, hv] at hu; cases hu
        | unref => simp only [step, hv] at hu; cases hu
        | getTransport => exact absurd List.mem_cons_self hg
        | forget =>
          simp only [step] at hu
          split at hu
          · obtain rfl := Option.some.inj hu
            rcases settle_cases { t with cpp := false } with h | h <;> rw [h] <;> exact hl
          · cases hu
        | add n k =>
          have hn : name ≠ n := fun h => ha k (by rw [h]; exact List.mem_cons_self)
          simp only [step] at hu
          split at hu
          · cases hu
          · obtain rfl := Option.some.inj hu
            simp only
            rw [lookup_add, if_neg hn]; exact hl
        | message n m =>
          simp only [step] at hu
          split at hu
          · cases hu
          · obtain rfl := Option.some.inj hu
            unfold deliver
            split
            · split <;> exact hl
            · exact hl
        | use => simp only [step, hv] at hu; cases hu
  exact ⟨key as _ e hg ha hm rfl (by simp [managed]), (none_called e rfl hg).2.1⟩

/-- **C109, objects that do not hold their transport.** The factory does not keep the transport, and the program later gets it from the endpoint. Once the manager has let go of the transport, every
    use of the object that the program still has is a use of released memory. -/
theorem dangling (name : Nat) (k : Kind) (as bs : List Act) (s : State) (hk : Keeps 1 (as ++ .forget :: bs))
    (e : run (managed name k 0) (.getTransport :: (as ++ .forget :: bs) ++ [.use]) = some s) : s.ub = true := by
  have key : ∀ (as : List Act) (t u : State), run t as = some u → Keeps t.vars as → t.owns = false → (t.cpp = false → t.gone = true) →
      u.owns = false ∧ 0 < u.vars ∧ (.forget ∈ as ∨ t.gone = true → u.gone = true) := by
    intro as
    induction as with
    | nil => intro t u e hk ho hc; obtain rfl := Option.some.inj e; exact ⟨ho, hk, fun h => h.resolve_left (by simp)⟩
    | cons a as ih =>
      intro t u e hk ho hc
      rw [run_cons] at e
      obtain ⟨v, hv, e⟩ := Option.bind_eq_some_iff.1 e
      have fin : ∀ (P : Prop), (.forget ∈ as ∨ v.gone = true → u.gone = true) → (P → v.gone = true) → (Act.forget = a → P) → (t.gone = true → P) →
          (.forget ∈ a :: as ∨ t.gone = true → u.gone = true) := by
        intro P h1 h2 h3 h4 h
        rcases h with h | h
        · rcases List.mem_cons.1 h with h | h
          · exact h1 (.inr (h2 (h3 h)))
          · exact h1 (.inl h)
        · exact h1 (.inr (h2 (h4 h)))
      cases a with
      | ref =>
        simp only [step] at hv
        rw [if_pos hk.1] at hv
        obtain rfl := Option.some.inj hv
        have := ih _ u e hk.2 ho hc
        exact ⟨this.1, this.2.1, fin _ this.2.2 id (fun h => by cases h) id⟩
      | unref =>
        simp only [step] at hv
        rw [if_pos hk.1] at hv
        obtain rfl := Option.some.inj hv
        by_cases hcpp : t.cpp = false
        · have hset : State.settle { t with vars := t.vars - 1 } = { t with vars := t.vars - 1, gone := true } := by
            unfold State.settle
            rw [if_pos ⟨hcpp, fun h => by rw [ho] at h; cases h.2⟩]
          rw [hset] at e fin
          have := ih _ u e hk.2 ho fun _ => rfl
          exact ⟨this.1, this.2.1, fun _ => this.2.2 (.inr rfl)⟩
        · have hset : State.settle { t with vars := t.vars - 1 } = { t with vars := t.vars - 1 } := by
            unfold State.settle
            rw [if_neg (fun h => hcpp h.1)]
          rw [hset] at e fin
          have := ih _ u e hk.2 ho hc
          exact ⟨this.1, this.2.1, fin _ this.2.2 id (fun h => by cases h) id⟩
      | getTransport =>
        simp only [step] at hv
        split at hv
        · cases hv
        · rw [if_pos hk.1] at hv
          obtain rfl := Option.some.inj hv
          have := ih _ u e hk.2 ho hc
          exact ⟨this.1, this.2.1, fin _ this.2.2 id (fun h => by cases h) id⟩
      | forget =>
        simp only [step] at hv
        split at hv
        · obtain rfl := Option.some.inj hv
          have hset : State.settle { t with cpp := false } = { t with cpp := false, gone := true } := by
            unfold State.settle
            rw [if_pos ⟨rfl, fun h => by rw [ho] at h; cases h.2⟩]
          rw [hset] at e
          have := ih _ u e hk.2 ho fun _ => rfl
          exact ⟨this.1, this.2.1, fun _ => this.2.2 (.inr rfl)⟩
        · cases hv
      | add n k =>
        simp only [step] at hv
        split at hv
        · cases hv
        · obtain rfl := Option.some.inj hv
          have := ih _ u e hk.2 ho hc
          exact ⟨this.1, this.2.1, fin _ this.2.2 id (fun h => by cases h) id⟩
      | message n m =>
        simp only [step] at hv
        split at hv
        · cases hv
        · obtain rfl := Option.some.inj hv
          have hd : (deliver t n m).vars = t.vars ∧ (deliver t n m).owns = t.owns ∧ (deliver t n m).cpp = t.cpp ∧ (deliver t n m).gone = t.gone := by
            unfold deliver
            split
            · split <;> exact ⟨rfl, rfl, rfl, rfl⟩
            · exact ⟨rfl, rfl, rfl, rfl⟩
          have := ih _ u e (by rw [hd.1]; exact hk.2) (by rw [hd.2.1]; exact ho) (by rw [hd.2.2.1, hd.2.2.2]; exact hc)
          exact ⟨this.1, this.2.1, fin _ this.2.2 id (fun h => by cases h) (by rw [hd.2.2.2]; exact id)⟩
      | use =>
        simp only [step] at hv
        rw [if_pos hk.1] at hv
        obtain rfl := Option.some.inj hv
        by_cases hg : t.gone = true
        · rw [if_pos hg] at e
          have := ih _ u e hk.2 ho fun _ => hg
          exact ⟨this.1, this.2.1, fun _ => this.2.2 (.inr hg)⟩
        · rw [if_neg hg] at e
          have := ih _ u e hk.2 ho hc
          exact ⟨this.1, this.2.1, fun h => this.2.2 (h.elim (fun h => .inl (by simpa using h)) .inr)⟩
  rw [List.cons_append, run_cons] at e
  obtain ⟨t, ht, e⟩ := Option.bind_eq_some_iff.1 e
  rw [run_append] at e
  obtain ⟨u, hu, e3⟩ := Option.bind_eq_some_iff.1 e
  have ht' : step (managed name k 0) .getTransport = some { managed name k 0 with vars := 1, owns := false } := by simp [step, managed]
  rw [ht'] at ht
  obtain rfl := Option.some.inj ht
  have h := key _ _ u hu hk rfl (fun h => by cases h)
  have hg := h.2.2 (.inl (by simp))
  rw [run_cons] at e3
  simp only [step] at e3
  rw [if_pos h.2.1, if_pos hg] at e3
  obtain rfl := Option.some.inj e3
  rfl

/-- A program that keeps its object can do all of this at any time: add endpoints, copy and drop references, use the object, and messages are delivered. -/
theorem always_possible (s0 : State) (eps : Nat → Option Kind) (h : Begin s0 eps) (as : List Act) (hk : Keeps s0.vars as) (hg : .getTransport ∉ as) (hf : .forget ∉ as) : ∃ s, run s0 as = some s := by
  have key : ∀ (as : List Act) (s : State), Keeps s.vars as → .getTransport ∉ as → .forget ∉ as → s.owns = true → s.gone = false → s.dead = false → ∃ s', run s as = some s' := by
    intro as
    induction as with
    | nil => intro s _ _ _ _ _ _; exact ⟨s, rfl⟩
    | cons a as ih =>
      intro s hk hg hf ho hgo hd
      have hg' : .getTransport ∉ as := fun e => hg (List.mem_cons_of_mem _ e)
      have hf' : .forget ∉ as := fun e => hf (List.mem_cons_of_mem _ e)
      have first : ∀ (as : List Act) n, Keeps n as → 0 < n := by
        intro as n h
        cases as with
        | nil => exact h
        | cons a as => cases a <;> exact h.1
      rw [run_cons]
      cases a with
      | getTransport => exact absurd List.mem_cons_self hg
      | forget => exact absurd List.mem_cons_self hf
      | ref =>
        simp only [step, if_pos hk.1, Option.bind_some]
        exact ih _ hk.2 hg' hf' ho hgo hd
      | unref =>
        have hp := first _ _ hk.2
        have hset : ({ s with vars := s.vars - 1 } : State).settle = { s with vars := s.vars - 1 } := by
          unfold State.settle
          rw [if_neg]
          exact fun q => q.2 ⟨hp, ho⟩
        simp only [step, if_pos hk.1, Option.bind_some, hset]
        exact ih _ hk.2 hg' hf' ho hgo hd
      | add name k =>
        simp only [step, hgo, Bool.false_eq_true, if_false, Option.bind_some]
        exact ih _ hk.2 hg' hf' ho rfl hd
      | message name msg =>
        simp only [step, hgo, hd, Bool.false_eq_true, or_self, if_false, Option.bind_some]
        simp only [deliver]
        split
        · rw [if_pos hk.1]; exact ih _ hk.2 hg' hf' ho hgo hd
        · exact ih _ hk.2 hg' hf' ho hgo hd
      | use =>
        simp only [step, if_pos hk.1, Option.bind_some, hgo, Bool.false_eq_true, if_false]
        exact ih _ hk.2 hg' hf' ho hgo hd
  have h0 : 0 < s0.vars := by
    cases as with
    | nil => exact hk
    | cons a as => cases a <;> exact hk.1
  cases h with
  | made => exact key as _ hk hg hf rfl rfl rfl
  | managed name k n => exact key as _ hk hg hf (by simp only [managed]; simpa [managed] using h0) rfl rfl

/-- A manager can let go of its transport at any time; the transport is destroyed if and only if the program has no object that holds it. -/
theorem let_go (name : Nat) (k : Kind) (n : Nat) (as : List Act) (s : State) (e : run (managed name k n) as = some s) (hf : .forget ∉ as) :
    ∃ s', step s .forget = some s' ∧ s.gone = false ∧ s'.cpp = false ∧ (s'.gone = true ↔ ¬ (0 < s.vars ∧ s.owns = true)) := by
  have key : ∀ (as : List Act) (t u : State), run t as = some u → .forget ∉ as → t.cpp = true → t.gone = false → u.cpp = true ∧ u.gone = false := by
    intro as
    induction as with
    | nil => intro t u e _ h1 h2; obtain rfl := Option.some.inj e; exact ⟨h1, h2⟩
    | cons a as ih =>
      intro t u e hf h1 h2
      rw [run_cons] at e
      obtain ⟨v, hv, e⟩ := Option.bind_eq_some_iff.1 e
      refine ih v u e (fun q => hf (List.mem_cons_of_mem _ q)) ?_ ?_ <;>
      · cases a <;> simp only [step, State.settle, deliver] at hv <;> (repeat' split at hv) <;> first | cases hv; done | (obtain rfl := Option.some.inj hv; simp_all)
  obtain ⟨h1, h2⟩ := key as _ s e hf rfl rfl
  refine ⟨({ s with cpp := false } : State).settle, by simp [step, h1], h2, ?_, ?_⟩
  · rcases settle_cases { s with cpp := false } with q | q <;> rw [q]
  · unfold State.settle
    by_cases q : 0 < s.vars ∧ s.owns = true
    · rw [if_neg (fun c => c.2 q)]
      simp [q, h2]
    · rw [if_pos (by exact ⟨rfl, q⟩)]
      simp [q]

/-- An object that `getTransport()` made, because there was none, does not hold the transport, whatever was before. -/
theorem get_transport_borrows (s s' : State) (hv : s.vars = 0) (h : step s .getTransport = some s') : s'.vars = 1 ∧ ∀ t, step s' .forget = some t → t.gone = true := by
  simp only [step, hv, Nat.lt_irrefl, if_false] at h
  split at h
  · cases h
  · obtain rfl := Option.some.inj h
    refine ⟨rfl, fun t ht => ?_⟩
    simp only [step] at ht
    split at ht
    · obtain rfl := Option.some.inj ht
      simp [State.settle]
    · cases ht

/-- A transport that the program made is destroyed with the last reference to its object, and nothing is delivered to it then, nor by a program that was ended. -/
theorem last_reference (l : List Act) (hl : ∀ a ∈ l, a ≠ .getTransport) (s : State) (e : run made l = some s) :
    (s.gone = true ↔ s.vars = 0) ∧ s.vars = 1 + l.count .ref - l.count .unref ∧ (s.gone = true ∨ s.dead = true → ∀ name msg, step s (.message name msg) = none) := by
  have key : ∀ (l : List Act) (s s' : State), (∀ a ∈ l, a ≠ .getTransport) → s.cpp = false → s.owns = true → (s.gone = true ↔ s.vars = 0) → run s l = some s' →
      (s'.gone = true ↔ s'.vars = 0) ∧ s'.vars + l.count .unref = s.vars + l.count .ref := by
    intro l
    induction l with
    | nil => intro s s' _ _ _ h e; obtain rfl := Option.some.inj e; exact ⟨h, rfl⟩
    | cons a l ih =>
      intro s s' hl hc ho hg e
      rw [run_cons] at e
      obtain ⟨v, hv, e⟩ := Option.bind_eq_some_iff.1 e
      have hl' : ∀ a ∈ l, a ≠ .getTransport := fun a ha => hl a (List.mem_cons_of_mem _ ha)
      cases a with
      | getTransport => exact absurd rfl (hl _ List.mem_cons_self)
      | forget => simp [step, hc] at hv
      | ref =>
        simp only [step] at hv
        split at hv
        · rename_i h0
          obtain rfl := Option.some.inj hv
          have := ih { s with vars := s.vars + 1 } s' hl' hc ho (by simp only [hg]; omega) e
          simp only [List.count_cons, BEq.rfl, if_true] at this ⊢
          simp only [show (Act.ref == Act.unref) = false from rfl, Bool.false_eq_true, if_false]
          exact ⟨this.1, by omega⟩
        · cases hv
      | unref =>
        simp only [step] at hv
        split at hv
        · rename_i h0
          obtain rfl := Option.some.inj hv
          have hgf : s.gone = false := by
            cases hq : s.gone
            · rfl
            · have := hg.1 hq; omega
          have hs : ({ s with vars := s.vars - 1 } : State).settle.cpp = false ∧ ({ s with vars := s.vars - 1 } : State).settle.owns = true ∧
              ({ s with vars := s.vars - 1 } : State).settle.vars = s.vars - 1 ∧ (({ s with vars := s.vars - 1 } : State).settle.gone = true ↔ s.vars - 1 = 0) := by
            unfold State.settle
            by_cases q : 0 < s.vars - 1
            · rw [if_neg (fun c => c.2 ⟨q, ho⟩)]
              exact ⟨hc, ho, rfl, by simp only [hgf]; constructor; · intro z; cases z
                                     · intro z; omega⟩
            · rw [if_pos ⟨hc, fun c => q c.1⟩]
              exact ⟨hc, ho, rfl, by simp only [true_iff]; omega⟩
          have := ih _ s' hl' hs.1 hs.2.1 (by rw [hs.2.2.1]; exact hs.2.2.2) e
          rw [hs.2.2.1] at this
          simp only [List.count_cons, BEq.rfl, if_true] at this ⊢
          simp only [show (Act.unref == Act.ref) = false from rfl, Bool.false_eq_true, if_false]
          exact ⟨this.1, by omega⟩
        · cases hv
      | add name k =>
        simp only [step] at hv
        split at hv
        · cases hv
        · obtain rfl := Option.some.inj hv
          have := ih { s with eps := (name, k) :: s.eps.filter fun p => p.1 != name } s' hl' hc ho hg e
          simpa [List.count_cons] using this
      | message name msg =>
        simp only [step] at hv
        split at hv
        · cases hv
        · obtain rfl := Option.some.inj hv
          have hd : (deliver s name msg).cpp = false ∧ (deliver s name msg).owns = true ∧ (deliver s name msg).vars = s.vars ∧ (deliver s name msg).gone = s.gone := by
            simp only [deliver]
            split
            · split <;> exact ⟨hc, ho, rfl, rfl⟩
            · exact ⟨hc, ho, rfl, rfl⟩
          have := ih _ s' hl' hd.1 hd.2.1 (by rw [hd.2.2.1, hd.2.2.2]; exact hg) e
          rw [hd.2.2.1] at this
          simpa [List.count_cons] using this
      | use =>
        simp only [step] at hv
        split at hv
        · obtain rfl := Option.some.inj hv
          have hu : ∀ c : Prop, [Decidable c] → (if c then { s with ub := true } else s).cpp = false ∧ (if c then { s with ub := true } else s).owns = true ∧
              (if c then { s with ub := true } else s).vars = s.vars ∧ (if c then { s with ub := true } else s).gone = s.gone := by
            intro c _
            by_cases q : c
            · rw [if_pos q]; exact ⟨hc, ho, rfl, rfl⟩
            · rw [if_neg q]; exact ⟨hc, ho, rfl, rfl⟩
          obtain ⟨u1, u2, u3, u4⟩ := hu (s.gone = true)
          have := ih _ s' hl' u1 u2 (by rw [u3, u4]; exact hg) e
          rw [u3] at this
          simpa [List.count_cons] using this
        · cases hv
  obtain ⟨h1, h2⟩ := key l made s hl rfl rfl (by decide) e
  refine ⟨h1, ?_, fun h name msg => ?_⟩
  · have : made.vars = 1 := rfl
    omega
  · simp only [step]
    rw [if_pos h]

/-- Two references, both dropped. -/
example : ∃ s, run made [.add 1 (.python true), .ref, .unref, .message 1 7, .unref] = some s ∧ s.gone = true ∧ s.calls = [(1, 7)] := ⟨_, rfl, rfl, rfl⟩

/-- **C109, negation: an endpoint that outlives its transport.** When the last reference to a transport that the program made is gone, an endpoint that was added to it still knows its address:
`getTransport()` of that endpoint uses memory that was released, whatever happened before. -/
theorem endpoint_outlives (l : List Act) (hl : .getTransport ∉ l) (s : State) (e : run made l = some s) (hlast : l.count .unref = 1 + l.count .ref) (hadd : ∃ name k, .add name k ∈ l) :
    ∃ s', run made (l ++ [.getTransport]) = some s' ∧ s'.ub = true := by
  have hg : s.gone = true := by
    have := last_reference l (fun a ha c => hl (c ▸ ha)) s e
    exact this.1.2 (by rw [this.2.1]; omega)
  have key : ∀ (l : List Act) (t u : State), run t l = some u → (t.eps ≠ [] ∨ ∃ name k, .add name k ∈ l) → u.eps ≠ [] := by
    intro l
    induction l with
    | nil =>
      intro t u e h
      obtain rfl := Option.some.inj e
      rcases h with h | ⟨_, _, h⟩
      · exact h
      · cases h
    | cons a l ih =>
      intro t u e h
      rw [run_cons] at e
      obtain ⟨v, hv, e⟩ := Option.bind_eq_some_iff.1 e
      refine ih v u e ?_
      have hset : ∀ q : State, q.settle.eps = q.eps := fun q => by rcases settle_cases q with c | c <;> rw [c]
      have keep : (∀ name k, a ≠ .add name k) → v.eps = t.eps → v.eps ≠ [] ∨ ∃ name k, .add name k ∈ l := by
        intro hn hq
        rcases h with h | ⟨n, k, h⟩
        · exact .inl (hq ▸ h)
        · rcases List.mem_cons.1 h with h | h
          · exact absurd h.symm (hn n k)
          · exact .inr ⟨n, k, h⟩
      cases a with
      | add n k =>
        simp only [step] at hv
        split at hv
        · cases hv
        · obtain rfl := Option.some.inj hv
          exact .inl (by simp)
      | ref =>
        simp only [step] at hv
        split at hv
        · obtain rfl := Option.some.inj hv
          exact keep (by simp) rfl
        · cases hv
      | unref =>
        simp only [step] at hv
        split at hv
        · obtain rfl := Option.some.inj hv
          exact keep (by simp) (hset _)
        · cases hv
      | getTransport =>
        simp only [step] at hv
        split at hv
        · cases hv
        · split at hv
          · obtain rfl := Option.some.inj hv
            exact keep (by simp) rfl
          · obtain rfl := Option.some.inj hv
            exact keep (by simp) rfl
      | forget =>
        simp only [step] at hv
        split at hv
        · obtain rfl := Option.some.inj hv
          exact keep (by simp) (hset _)
        · cases hv
      | message n m =>
        simp only [step] at hv
        split at hv
        · cases hv
        · obtain rfl := Option.some.inj hv
          refine keep (by simp) ?_
          unfold deliver
          split
          · split <;> rfl
          · rfl
      | use =>
        simp only [step] at hv
        split at hv
        · obtain rfl := Option.some.inj hv
          refine keep (by simp) ?_
          split <;> rfl
        · cases hv
  have he := key l made s e (.inr hadd)
  rw [run_append, e]
  have : ∃ s', step s .getTransport = some s' ∧ s'.ub = true := by
    simp only [step, if_neg he]
    split
    · exact ⟨_, rfl, by simp [hg]⟩
    · exact ⟨_, rfl, by simp [hg]⟩
  obtain ⟨s', h1, h2⟩ := this
  exact ⟨s', by simp [run, h1], h2⟩

/-- Two endpoints, a message, two references that go. -/
example : ∃ s, run made [.add 1 (.python true), .add 2 .cpp, .ref, .message 1 5, .unref, .unref] = some s ∧ s.gone = true := ⟨_, rfl, rfl⟩

/-- **C109 does not hold.** -/
theorem not_EveryMessage : ¬ EveryMessage := by
  intro h
  have := (h _ _ (.managed 1 (.python true) 0) [.message 1 5] _ rfl).1
  exact absurd this (by decide)

/-! ## Non-vacuity -/

/-- A server of a Python program with two endpoints, one of them replaced, that keeps the transport. -/
example : ∃ s, run made [.add 1 (.python true), .add 2 (.python false), .ref, .message 1 5, .unref, .message 2 6, .add 2 (.python true), .message 2 7, .message 3 8, .use] = some s ∧
    Keeps made.vars [.add 1 (.python true), .add 2 (.python false), .ref, .message 1 5, .unref, .message 2 6, .add 2 (.python true), .message 2 7, .message 3 8, .use] ∧
    s.calls = [(1, 5), (2, 7)] := ⟨_, rfl, by simp [Keeps, made], rfl⟩

/-- A transport of a manager whose factory keeps it in the endpoint: it gets messages, also after the manager has let go of the transport. -/
example : ∃ s, run (managed 1 (.python true) 1) [.message 1 5, .forget, .message 1 6, .use] = some s ∧ Keeps (managed 1 (.python true) 1).vars [.message 1 5, .forget, .message 1 6, .use] ∧
    s.calls = [(1, 5), (1, 6)] := ⟨_, rfl, by simp [Keeps, managed], rfl⟩

/-- Without that the first message ends the program. -/
example : ∃ s, run (managed 1 (.python true) 0) [.add 2 .cpp, .message 2 4, .message 1 5] = some s ∧ s.dead = true := ⟨_, rfl, rfl⟩

/-- An object that does not hold its transport. -/
example : ∃ s, run (managed 1 (.python true) 0) (.getTransport :: ([.message 1 5, .use] ++ .forget :: [.ref, .unref]) ++ [.use]) = some s ∧
    Keeps 1 ([.message 1 5, .use] ++ .forget :: [.ref, .unref]) ∧ s.calls = [(1, 5)] ∧ s.ub = true := ⟨_, rfl, by simp [Keeps], rfl, rfl⟩

end Scalopus.C109
