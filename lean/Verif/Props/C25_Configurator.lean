import Verif.Model.Configurator
import Verif.Props.C21_TraceState
import Verif.Proofs.Json

/-!
# C25, C63: remote configuration
-/

namespace Scalopus.Configurator

open TraceState Assoc

theorem fromJson_toJson (c : Config) (hn : (c.threads.map (·.1)).Nodup) (hb : ∀ x ∈ c.threads, x.1 < 2 ^ 64) :
    fromJson (toJson c) = .ok { c with success := false } := by
  have ht : Json.toMap Json.asULong Json.asBool (Json.ofMap (fun k : Nat => .int k) .bool c.threads) = .ok c.threads := by
    apply Json.map_round_trip
    · intro x hx
      have := hb x hx
      simp only [Json.asULong, Res.ok.injEq]
      omega
    · intro x hx; rfl
    · exact hn
  unfold fromJson toJson
  simp [Json.get, Json.asBool, ht, List.lookup]

/-- The effect of the stores of a set command, in the specification. -/
theorem stores_effect (h : Nat) (old : List Spec.Thread) (l : List (Nat × Bool)) (hn : (l.map (·.1)).Nodup) (a : Spec.State)
    (hs : a.snaps[h]? = some old) :
    let a' := Spec.run a (l.map fun x => .remoteStore h x.1 x.2)
    a'.process = a.process ∧ a'.log = a.log ∧ a'.threads.length = a.threads.length ∧
    ∀ (t : Nat) (th : Spec.Thread), a.threads[t]? = some th →
      a'.threads[t]? = some { th with on := ((l.find? fun x => Spec.who old x.1 = some t).map (·.2)).getD th.on } := by
  induction l generalizing a with
  | nil => exact ⟨rfl, rfl, rfl, fun t th ht => by simpa [Spec.run] using ht⟩
  | cons x l ih =>
    obtain ⟨k, b⟩ := x
    simp only [List.map_cons, List.nodup_cons] at hn
    simp only [List.map_cons, Spec.run]
    have hstep : (Spec.step a (.remoteStore h k b)).snaps = a.snaps ∧ (Spec.step a (.remoteStore h k b)).process = a.process ∧
        (Spec.step a (.remoteStore h k b)).log = a.log ∧
        (Spec.step a (.remoteStore h k b)).threads.length = a.threads.length ∧
        ∀ (t : Nat) (th : Spec.Thread), a.threads[t]? = some th →
          (Spec.step a (.remoteStore h k b)).threads[t]? = some { th with on := if Spec.who old k = some t then b else th.on } := by
      simp only [Spec.step, hs]
      cases hw : Spec.who old k with
      | none => refine ⟨rfl, rfl, rfl, rfl, ?_⟩; intro t th ht; simpa using ht
      | some j =>
        refine ⟨rfl, rfl, rfl, by simp [Spec.State.upd], ?_⟩
        intro t th ht
        simp only [Spec.State.upd, List.getElem?_modify, ht]
        by_cases hj : j = t <;> simp [hj]
    obtain ⟨h1, h2, h3, h4, h5⟩ := hstep
    obtain ⟨i1, i2, i3, i4⟩ := ih hn.2 (Spec.step a (.remoteStore h k b)) (by rw [h1]; exact hs)
    refine ⟨by rw [i1, h2], by rw [i2, h3], by rw [i3, h4], ?_⟩
    intro t th ht
    rw [i4 t _ (h5 t th ht)]
    simp only [List.find?_cons]
    by_cases hw : Spec.who old k = some t
    · simp only [hw, ↓reduceIte, decide_true]
      have : (l.find? fun x => Spec.who old x.1 = some t) = none := by
        rw [List.find?_eq_none]
        intro x hx
        simp only [decide_eq_true_eq]
        intro hw'
        obtain ⟨z, hz, _, hk⟩ := who_some hw
        obtain ⟨z', hz', _, hk'⟩ := who_some hw'
        rw [hz] at hz'
        cases hz'
        exact hn.1 (List.mem_map.mpr ⟨x, hx, by rw [← hk', hk]⟩)
      simp [this]
    · simp [hw]

theorem run_ok (s : State) (acts : List Act) (hs : ∀ x ∈ acts, ∀ s' : State, ∃ s'', step s' x = .ok s'') :
    ∃ s', run s acts = .ok s' := by
  induction acts generalizing s with
  | nil => exact ⟨s, rfl⟩
  | cons x xs ih =>
    obtain ⟨s1, h1⟩ := hs x (by simp) s
    obtain ⟨s2, h2⟩ := ih s1 (fun y hy => hs y (by simp [hy]))
    exact ⟨s2, by simp [run, h1, Res.bind, h2]⟩

theorem setActs_ok (h : Nat) (c : Config) (s : State) : ∃ s', run s (setActs h c) = .ok s' := by
  apply run_ok
  intro x hx s'
  unfold setActs at hx
  rw [List.mem_append] at hx
  rcases hx with hx | hx
  · split at hx
    · simp at hx; subst hx; exact ⟨_, rfl⟩
    · simp at hx
  · obtain ⟨y, _, rfl⟩ := List.mem_map.mp hx
    simp only [step]
    repeat' split
    all_goals exact ⟨_, rfl⟩

theorem run_snoc (acts xs : List Act) (s s' : State) (h : run {} acts = .ok s) (h' : run s xs = .ok s') :
    run {} (acts ++ xs) = .ok s' := by
  have : ∀ (s0 : State), run s0 acts = .ok s → run s0 (acts ++ xs) = .ok s' := by
    clear h
    induction acts with
    | nil => intro s0 h0; simp [run] at h0; subst h0; exact h'
    | cons x ys ih =>
      intro s0 h0
      simp only [List.cons_append, run] at h0 ⊢
      cases hx : step s0 x with
      | ok s1 => rw [hx] at h0; exact ih s1 h0
      | throws m => rw [hx] at h0; simp [Res.bind] at h0
      | ub => rw [hx] at h0; simp [Res.bind] at h0
      | terminate => rw [hx] at h0; simp [Res.bind] at h0
  exact this _ h

theorem loads_ok {s : State} {a : Spec.State} (hR : R s a) {h : Nat} {m : List (Nat × Nat)} {old : List Spec.Thread}
    (hm : s.snaps[h]? = some m) (ho : a.snaps[h]? = some old) (hn : (m.map (·.1)).Nodup) :
    ∃ ts, loads s m = .ok ts ∧ ts.map (·.1) = m.map (·.1) ∧
      ∀ k b, (k, b) ∈ ts ↔ ∃ t th, Spec.who old k = some t ∧ a.threads[t]? = some th ∧ th.on = b := by
  have hcell : ∀ k c, (k, c) ∈ m → ∃ y : Cell, s.cells[c]? = some y ∧ Spec.who old k = some y.owner ∧
      ∃ th : Spec.Thread, a.threads[y.owner]? = some th ∧ th.on = y.val := by
    intro k c hkc
    obtain ⟨h5, _⟩ := hR.snap h m old k hm ho
    obtain ⟨y, hy, hw⟩ := h5 c (mem_lookup hn hkc)
    obtain ⟨x, hx, hon, _⟩ := hR.cell c y hy
    exact ⟨y, hy, hw, x, hx, hon⟩
  have hl : ∀ l : List (Nat × Nat), (∀ x ∈ l, x ∈ m) →
      ∃ ts, loads s l = .ok ts ∧ ts.map (·.1) = l.map (·.1) ∧
        ∀ k b, (k, b) ∈ ts → ∃ t th, Spec.who old k = some t ∧ a.threads[t]? = some th ∧ th.on = b := by
    intro l
    induction l with
    | nil => intro _; exact ⟨[], rfl, rfl, by simp⟩
    | cons x l ih =>
      intro hx
      obtain ⟨k, c⟩ := x
      obtain ⟨ts, h1, h2, h3⟩ := ih (fun y hy => hx y (by simp [hy]))
      obtain ⟨y, hy, hw, th, hth, hon⟩ := hcell k c (hx (k, c) (by simp))
      refine ⟨(k, y.val) :: ts, ?_, by simp [h2], ?_⟩
      · unfold loads at h1 ⊢
        simp [Res.mapM, hy, Res.bind, h1]
      · intro k' b' hm'
        rcases List.mem_cons.mp hm' with hm' | hm'
        · obtain ⟨rfl, rfl⟩ := Prod.mk.inj hm'
          exact ⟨_, th, hw, hth, hon⟩
        · exact h3 k' b' hm'
  obtain ⟨ts, h1, h2, h3⟩ := hl m (fun x hx => hx)
  refine ⟨ts, h1, h2, fun k b => ⟨h3 k b, ?_⟩⟩
  rintro ⟨t, th, hw, hth, rfl⟩
  have hk : k ∈ ts.map (·.1) := by
    rw [h2]
    cases hlk : m.lookup k with
    | none =>
      have := (hR.snap h m old k hm ho).2 hlk
      rw [this] at hw; simp at hw
    | some c => exact List.mem_map.mpr ⟨_, lookup_mem hlk, rfl⟩
  obtain ⟨⟨k', b'⟩, hkb, rfl⟩ := List.mem_map.mp hk
  obtain ⟨t', th', hw', hth', hon'⟩ := h3 _ _ hkb
  simp only at hw
  rw [hw'] at hw
  cases hw
  rw [hth'] at hth
  cases hth
  rw [hon']
  exact hkb

/-- What the handler does in all cases where it gets as far as the reply. -/
theorem handle_effect (acts : List Act) (s : State) (h : run {} acts = .ok s) (xs : List Act) (s' : State)
    (hget : ∃ s1, step s .getMap = .ok s1 ∧ run s1 xs = .ok s') :
    R s' (Spec.run {} (acts ++ .getMap :: xs)) ∧ R s (Spec.run {} acts) ∧ run {} (acts ++ .getMap :: xs) = .ok s' := by
  obtain ⟨s1, h1, h2⟩ := hget
  have := run_snoc acts (.getMap :: xs) s s' h (by simp [run, h1, Res.bind, h2])
  exact ⟨R_run R_init _ this, R_run R_init _ h, this⟩

theorem who_iff {s : State} {a : Spec.State} (hR : R s a) (k t : Nat) :
    Spec.who a.threads k = some t ↔ ∃ th, a.threads[t]? = some th ∧ th.listed = true ∧ th.tid = k := by
  constructor
  · exact who_some
  · rintro ⟨th, ht, hl, rfl⟩
    cases hw : Spec.who a.threads th.tid with
    | none => exact absurd rfl (who_none hw t th ht hl)
    | some j =>
      obtain ⟨z, hz, hzl, hzk⟩ := who_some hw
      simp [Spec.Thread.listed] at hl hzl
      rw [hR.distinct _ _ _ _ hz ht hzl.2 hl.2 hzk]

end Scalopus.Configurator

namespace Scalopus.C25

open TraceState Configurator Assoc

/-- The threads of one state, with the changes that a command asks for: those that are listed and named get the new value. -/
def applied (c : Config) (th : Spec.Thread) : Spec.Thread :=
  { th with on := if th.used ∧ th.ended = false then (c.threads.lookup th.tid).getD th.on else th.on }

/-- A reply tells the state: the process switch and the switches of exactly the threads that exist and were used, each once. -/
def Tells (reply : Config) (a : Spec.State) : Prop :=
  reply.process = a.process ∧ (reply.threads.map (·.1)).Nodup ∧
  ∀ tid b, (tid, b) ∈ reply.threads ↔ ∃ th ∈ a.threads, th.tid = tid ∧ th.used = true ∧ th.ended = false ∧ th.on = b

theorem find_lookup {s : State} {a : Spec.State} (hR : R s a) (c : Config) (t : Nat) (th : Spec.Thread) (ht : a.threads[t]? = some th) :
    ({ th with on := ((c.threads.find? fun x => Spec.who a.threads x.1 = some t).map (·.2)).getD th.on } : Spec.Thread) = applied c th := by
  unfold applied
  by_cases hl : th.used = true ∧ th.ended = false
  · have hll : th.listed = true := by simp [Spec.Thread.listed, hl.1, hl.2]
    have : ∀ l : List (Nat × Bool), ((l.find? fun x => Spec.who a.threads x.1 = some t).map (·.2)) = l.lookup th.tid := by
      intro l
      induction l with
      | nil => rfl
      | cons x l ih =>
        obtain ⟨k, b⟩ := x
        rw [lookup_cons', List.find?_cons]
        by_cases hk : th.tid = k
        · have : Spec.who a.threads k = some t := (who_iff hR k t).mpr ⟨th, ht, hll, hk⟩
          simp [this, hk]
        · have : ¬ Spec.who a.threads k = some t := by
            intro hw
            obtain ⟨z, hz, _, hzk⟩ := who_some hw
            rw [ht] at hz; cases hz
            exact hk hzk
          simp only [this, decide_false, hk, ↓reduceIte]
          exact ih
    rw [this]
    simp [hl]
  · have : (c.threads.find? fun x => Spec.who a.threads x.1 = some t) = none := by
      rw [List.find?_eq_none]
      intro x _
      simp only [decide_eq_true_eq]
      intro hw
      obtain ⟨z, hz, hzl, _⟩ := who_some hw
      rw [ht] at hz; cases hz
      simp [Spec.Thread.listed] at hzl
      exact hl hzl
    simp [this, hl]

/-- **C25, set.** In every reachable state, a set command leads to a state in which the process switch has the new value iff the command
    asked for it, exactly the existing threads that it names have the new values, everything else is as before, and the reply tells that
    state. -/
theorem set_exact (acts : List Act) (s : State) (h : run {} acts = .ok s) (c : Config)
    (hn : (c.threads.map (·.1)).Nodup) (hb : ∀ x ∈ c.threads, x.1 < 2 ^ 64) :
    ∃ s' xs a' reply, handle s (some (setRequest c)) = .ok (s', .obj [("state", toJson reply)]) ∧
      run {} (acts ++ xs) = .ok s' ∧ a' = Spec.run {} (acts ++ xs) ∧
      a'.process = (if c.setProcess then c.process else (Spec.run {} acts).process) ∧
      a'.threads = (Spec.run {} acts).threads.map (applied c) ∧
      s'.log = s.log ∧
      reply.setProcess = false ∧ Tells reply a' := by
  obtain ⟨s', hs'⟩ := setActs_ok s.snaps.length c { s with snaps := s.snaps ++ [s.map] }
  obtain ⟨hR', hR, hrun⟩ := handle_effect acts s h (setActs s.snaps.length c) s' ⟨_, rfl, hs'⟩
  have hsl := hR.snapLen
  generalize hax : Spec.run {} (acts ++ .getMap :: setActs s.snaps.length c) = ax at hR'
  have hax' := hax
  rw [spec_run_append] at hax
  simp only [Spec.run, Spec.step] at hax
  generalize Spec.run {} acts = a at hR hax hsl ⊢
  have e : ∀ b : Spec.State, Spec.run b (setActs s.snaps.length c) =
      Spec.run (if c.setProcess then { b with process := c.process } else b) (c.threads.map fun x => .remoteStore s.snaps.length x.1 x.2) := by
    intro b
    unfold setActs
    rw [spec_run_append]
    split <;> rfl
  rw [e] at hax
  have hsn : ∀ b : Spec.State, b = (if c.setProcess then { ({ a with snaps := a.snaps ++ [a.threads] } : Spec.State) with process := c.process }
      else { a with snaps := a.snaps ++ [a.threads] }) → b.snaps[s.snaps.length]? = some a.threads ∧ b.threads = a.threads ∧ b.log = a.log ∧
        b.process = if c.setProcess then c.process else a.process := by
    rintro b rfl
    rw [hsl]
    split <;> simp
  generalize hb0 : (if c.setProcess then { ({ a with snaps := a.snaps ++ [a.threads] } : Spec.State) with process := c.process }
      else { a with snaps := a.snaps ++ [a.threads] }) = b0 at hax
  subst hax
  obtain ⟨g1, g2, g3, g4⟩ := hsn b0 hb0.symm
  obtain ⟨k1, k2, k3, k4⟩ := stores_effect s.snaps.length a.threads c.threads hn b0 g1
  have hsnapM : ∀ (xs : List (Nat × Bool)) (b : Spec.State), (Spec.run b (xs.map fun x => .remoteStore s.snaps.length x.1 x.2)).snaps = b.snaps := by
    intro xs
    induction xs with
    | nil => intro b; rfl
    | cons x xs ih =>
      intro b
      simp only [List.map_cons, Spec.run]
      rw [ih]
      simp only [Spec.step, Spec.State.upd]
      repeat' split
      all_goals rfl
  have hsnapS : ∀ (xs : List Act) (s0 s1 : State), (∀ x ∈ xs, (∃ b, x = .storeProcess b) ∨ ∃ i k b, x = .remoteStore i k b) →
      run s0 xs = .ok s1 → s1.snaps = s0.snaps := by
    intro xs
    induction xs with
    | nil => intro s0 s1 _ hr; simp [run] at hr; rw [hr]
    | cons x xs ih =>
      intro s0 s1 hx hr
      simp only [run] at hr
      cases h1 : step s0 x with
      | ok s2 =>
        rw [h1] at hr
        rw [ih s2 s1 (fun y hy => hx y (by simp [hy])) hr]
        rcases hx x (by simp) with ⟨b, rfl⟩ | ⟨i, k, b, rfl⟩
        · simp [step] at h1; rw [← h1]
        · simp only [step, store] at h1
          repeat' split at h1
          all_goals (simp at h1; rw [← h1])
      | throws m => rw [h1] at hr; simp [Res.bind] at hr
      | ub => rw [h1] at hr; simp [Res.bind] at hr
      | terminate => rw [h1] at hr; simp [Res.bind] at hr
  have hsm : s'.snaps[s.snaps.length]? = some s.map := by
    rw [hsnapS _ _ _ ?_ hs']
    · simp
    · intro x hx
      unfold setActs at hx
      rw [List.mem_append] at hx
      rcases hx with hx | hx
      · split at hx
        · simp at hx; exact .inl ⟨_, hx⟩
        · simp at hx
      · obtain ⟨y, _, rfl⟩ := List.mem_map.mp hx
        exact .inr ⟨_, _, _, rfl⟩
  obtain ⟨ts, l1, l2, l3⟩ := loads_ok hR' hsm (by rw [hsnapM]; exact g1) hR.keys
  have hthreads : (Spec.run b0 (c.threads.map fun x => .remoteStore s.snaps.length x.1 x.2)).threads = a.threads.map (applied c) := by
    apply List.ext_getElem?
    intro t
    rw [List.getElem?_map]
    cases ht : a.threads[t]? with
    | none =>
      simp only [Option.map_none, List.getElem?_eq_none_iff] at ht ⊢
      rw [k3, g2]; exact ht
    | some th =>
      rw [k4 t th (by rw [g2]; exact ht)]
      simp only [Option.map_some, Option.some.injEq]
      exact find_lookup hR c t th ht
  refine ⟨s', _, _, { process := s'.process, threads := ts }, ?_, hrun, hax'.symm, by rw [k1, g4], hthreads, ?_, rfl, hR'.process, ?_, ?_⟩
  · simp only [handle, setRequest]
    have h1 : (Json.obj [("cmd", .str "set"), ("state", toJson c)]).get "cmd" = .ok (.str "set") := rfl
    have h2 : (Json.obj [("cmd", .str "set"), ("state", toJson c)]).get "state" = .ok (toJson c) := rfl
    have h3 : step s .getMap = .ok { s with snaps := s.snaps ++ [s.map] } := rfl
    have h4 : setActs s.snaps.length { c with success := false } = setActs s.snaps.length c := rfl
    simp only [h1, h2, h3, Res.bind_ok, Json.asStr, ↓reduceIte, fromJson_toJson c hn hb, h4, hs', l1]
    rfl
  · rw [hR'.log, hR.log, k2, g3]
  · simp only
    rw [l2]; exact hR.keys
  · intro tid b
    rw [l3]
    constructor
    · rintro ⟨t, th, hw, hth, hon⟩
      obtain ⟨z, hz, hzl, hzk⟩ := who_some hw
      rw [hthreads, List.getElem?_map, hz] at hth
      simp only [Option.map_some, Option.some.injEq] at hth
      subst hth
      simp [Spec.Thread.listed] at hzl
      exact ⟨applied c z, List.mem_of_getElem? (by rw [hthreads, List.getElem?_map, hz]; rfl), hzk, hzl.1, hzl.2, hon⟩
    · rintro ⟨th, hth, rfl, hu, he, hon⟩
      obtain ⟨t, ht⟩ := List.getElem?_of_mem hth
      refine ⟨t, th, ?_, ht, hon⟩
      rw [hthreads, List.getElem?_map] at ht
      cases hz : a.threads[t]? with
      | none => rw [hz] at ht; simp at ht
      | some z =>
        rw [hz] at ht
        simp only [Option.map_some, Option.some.injEq] at ht
        subst ht
        exact (who_iff hR _ t).mpr ⟨z, hz, by simp only [applied] at hu he; simp [Spec.Thread.listed, hu, he], rfl⟩

/-- **C25, get.** In every reachable state, a get command (or any other command) changes no switch, and the reply tells the state. -/
theorem get_exact (acts : List Act) (s : State) (h : run {} acts = .ok s) (cmd : String) (hc : cmd ≠ "set")
    (rest : List (String × Json)) :
    ∃ s' xs a' reply, handle s (some (.obj (("cmd", .str cmd) :: rest))) = .ok (s', .obj [("state", toJson reply)]) ∧
      run {} (acts ++ xs) = .ok s' ∧ a' = Spec.run {} (acts ++ xs) ∧ a'.process = (Spec.run {} acts).process ∧ a'.threads = (Spec.run {} acts).threads ∧ s'.log = s.log ∧
      reply.setProcess = false ∧ Tells reply a' := by
  obtain ⟨hR', hR, hrun⟩ := handle_effect acts s h [] { s with snaps := s.snaps ++ [s.map] } ⟨_, rfl, rfl⟩
  have hax : Spec.run {} (acts ++ [.getMap]) = { Spec.run {} acts with snaps := (Spec.run {} acts).snaps ++ [(Spec.run {} acts).threads] } := by
    rw [spec_run_append]; rfl
  rw [hax] at hR'
  generalize Spec.run {} acts = a at hR hR' hax ⊢
  have hsl := hR.snapLen
  obtain ⟨ts, l1, l2, l3⟩ := loads_ok hR' (h := s.snaps.length) (m := s.map) (old := a.threads) (by simp) (by rw [hsl]; simp) hR.keys
  refine ⟨_, [.getMap], _, { process := s.process, threads := ts }, ?_, hrun, hax.symm, rfl, rfl, rfl, rfl, hR.process, ?_, ?_⟩
  · have h1 : (Json.obj (("cmd", .str cmd) :: rest)).get "cmd" = .ok (.str cmd) := by simp [Json.get, List.lookup]
    have h3 : step s .getMap = .ok { s with snaps := s.snaps ++ [s.map] } := rfl
    simp only [handle, h1, h3, Res.bind_ok, Json.asStr, hc, ↓reduceIte, l1]
    rfl
  · simp only
    rw [l2]; exact hR.keys
  · intro tid b
    rw [l3]
    constructor
    · rintro ⟨t, th, hw, hth, hon⟩
      obtain ⟨z, hz, hzl, hzk⟩ := who_some hw
      have hzt : z = th := by rw [hz] at hth; exact Option.some.inj hth
      subst hzt
      simp [Spec.Thread.listed] at hzl
      exact ⟨z, List.mem_of_getElem? hz, hzk, hzl.1, hzl.2, hon⟩
    · rintro ⟨th, hth, rfl, hu, he, hon⟩
      obtain ⟨t, ht⟩ := List.getElem?_of_mem hth
      exact ⟨t, th, (who_iff hR _ t).mpr ⟨th, ht, by simp [Spec.Thread.listed, hu, he], rfl⟩, ht, hon⟩

/-- **C25, client.** The client that gets such a reply returns exactly it, marked as successful; without an answer in time it returns a
    result that is not successful. -/
theorem client_result (reply : Config) (hn : (reply.threads.map (·.1)).Nodup) (hb : ∀ x ∈ reply.threads, x.1 < 2 ^ 64) :
    clientResult (some (some (.obj [("state", toJson reply)]))) = .ok { reply with success := true } ∧
    ∃ c, clientResult none = .ok c ∧ c.success = false := by
  refine ⟨?_, {}, rfl, rfl⟩
  have h1 : (Json.obj [("state", toJson reply)]).get "state" = .ok (toJson reply) := rfl
  simp only [clientResult, h1, Res.bind_ok, fromJson_toJson reply hn hb]
  rfl

/-- Two threads; the command switches one of them off, names one that does not exist, and leaves the process alone. -/
example : ∃ s s' j, run {} [.start 5, .start 6, .getThread 0, .getThread 1] = .ok s ∧
    handle s (some (setRequest { process := false, threads := [(6, false), (9, false)] })) = .ok (s', j) ∧
    clientResult (some (some j)) = .ok { process := true, threads := [(5, true), (6, false)], success := true } := by
  refine ⟨_, _, _, rfl, rfl, rfl⟩

end Scalopus.C25

namespace Scalopus.C63

open TraceState Configurator

/-- A request that the configurator can handle: an object with a string command, and a configuration if that is "set". -/
def WellFormed (j : Json) : Prop :=
  ∃ cmd, (j.get "cmd").bind Json.asStr = .ok cmd ∧ (cmd = "set" → ∃ c, (j.get "state").bind fromJson = .ok c)

/-- The full property C63 for the configurator: whatever a client sends, the server goes on. -/
def ConfiguratorSurvives : Prop := ∀ (req : Option Json) (s : State), (∃ acts, run {} acts = .ok s) → (inWorker (handle s req)).isOk = true

/-- **C63 is violated** for the configurator: a request that cannot be decoded ends the server's process. -/
theorem malformed_request_terminates : ¬ ConfiguratorSurvives := by
  intro h
  have := h none {} ⟨[], rfl⟩
  simp [handle, inWorker, Res.isOk] at this

/-- In every reachable state, the stores of a command and the loads of the answer find the switches that they need. -/
theorem handler_runs (acts : List Act) (s : State) (h : run {} acts = .ok s) :
    (∃ ts, loads { s with snaps := s.snaps ++ [s.map] } s.map = .ok ts) ∧
    ∀ c : Config, ∃ s' ts, run { s with snaps := s.snaps ++ [s.map] } (setActs s.snaps.length c) = .ok s' ∧ loads s' s.map = .ok ts := by
  have hR := R_run R_init acts h
  have hloads : ∀ s' : State, s'.cells.length = s.cells.length → ∃ ts, loads s' s.map = .ok ts := by
    intro s' hlen
    have : ∀ l : List (Nat × Nat), (∀ x ∈ l, x ∈ s.map) → ∃ ts, loads s' l = .ok ts := by
      intro l
      induction l with
      | nil => intro _; exact ⟨[], rfl⟩
      | cons x l ih =>
        intro hx
        obtain ⟨ts, hts⟩ := ih (fun y hy => hx y (by simp [hy]))
        obtain ⟨y, _, hy, _⟩ := hR.map _ _ (Assoc.mem_lookup hR.keys (hx x (by simp)))
        have hlt := (List.getElem?_eq_some_iff.mp hy).1
        have hy' : s'.cells[x.2]? = some s'.cells[x.2] := by simp [hlen, hlt]
        refine ⟨(x.1, (s'.cells[x.2]).val) :: ts, ?_⟩
        unfold loads at hts ⊢
        simp [Res.mapM, hy', Res.bind, hts]
    exact this _ (fun x hx => hx)
  refine ⟨hloads _ rfl, fun c => ?_⟩
  obtain ⟨s', hs'⟩ := setActs_ok s.snaps.length c { s with snaps := s.snaps ++ [s.map] }
  have hlen : ∀ (xs : List Act) (s0 s1 : State), (∀ x ∈ xs, (∃ b, x = .storeProcess b) ∨ ∃ i k b, x = .remoteStore i k b) →
      run s0 xs = .ok s1 → s1.cells.length = s0.cells.length := by
    intro xs
    induction xs with
    | nil => intro s0 s1 _ hr; simp [run] at hr; rw [hr]
    | cons x xs ih =>
      intro s0 s1 hx hr
      simp only [run] at hr
      cases h1 : step s0 x with
      | ok s2 =>
        rw [h1] at hr
        rw [ih s2 s1 (fun y hy => hx y (by simp [hy])) hr]
        rcases hx x (by simp) with ⟨b, rfl⟩ | ⟨i, k, b, rfl⟩
        · simp [step] at h1; rw [← h1]
        · simp only [step, store] at h1
          repeat' split at h1
          all_goals (simp at h1; rw [← h1]; try simp)
      | throws m => rw [h1] at hr; simp [Res.bind] at hr
      | ub => rw [h1] at hr; simp [Res.bind] at hr
      | terminate => rw [h1] at hr; simp [Res.bind] at hr
  obtain ⟨ts, hts⟩ := hloads s' (by
    rw [hlen _ _ _ ?_ hs']
    intro x hx
    unfold setActs at hx
    rw [List.mem_append] at hx
    rcases hx with hx | hx
    · split at hx
      · simp at hx; exact .inl ⟨_, hx⟩
      · simp at hx
    · obtain ⟨y, _, rfl⟩ := List.mem_map.mp hx
      exact .inr ⟨_, _, _, rfl⟩)
  exact ⟨s', ts, hs', hts⟩

/-- **C63, partial.** Well-formed requests are answered, in every reachable state. -/
theorem wellformed_request_answered_partial (acts : List Act) (s : State) (h : run {} acts = .ok s) (j : Json) (hj : WellFormed j) :
    (inWorker (handle s (some j))).isOk = true := by
  obtain ⟨cmd, hcmd, hset⟩ := hj
  obtain ⟨⟨ts0, hts0⟩, hruns⟩ := handler_runs acts s h
  cases hg : j.get "cmd" with
  | throws m => rw [hg] at hcmd; simp [Res.bind] at hcmd
  | ub => rw [hg] at hcmd; simp [Res.bind] at hcmd
  | terminate => rw [hg] at hcmd; simp [Res.bind] at hcmd
  | ok v =>
    rw [hg] at hcmd
    simp only [Res.bind] at hcmd
    have h3 : step s .getMap = .ok { s with snaps := s.snaps ++ [s.map] } := rfl
    by_cases hc : cmd = "set"
    · obtain ⟨c, hcj⟩ := hset hc
      cases hg2 : j.get "state" with
      | throws m => rw [hg2] at hcj; simp [Res.bind] at hcj
      | ub => rw [hg2] at hcj; simp [Res.bind] at hcj
      | terminate => rw [hg2] at hcj; simp [Res.bind] at hcj
      | ok st =>
        rw [hg2] at hcj
        simp only [Res.bind] at hcj
        obtain ⟨s', ts, hs', hts⟩ := hruns c
        simp only [handle, hg, h3, Res.bind_ok, hcmd, hc, ↓reduceIte, hg2, hcj, hs', hts]
        rfl
    · simp only [handle, hg, h3, Res.bind_ok, hcmd, hc, ↓reduceIte, hts0]
      rfl

example : WellFormed getRequest := ⟨"get", rfl, fun h => absurd h (by decide)⟩

end Scalopus.C63
