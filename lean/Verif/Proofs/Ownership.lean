import Verif.Spec.Ownership

/-! Invariants of `Verif.Model.Ownership`. -/

namespace Scalopus.Ownership

def rank : Kind → Nat
  | .endpoint | .nativeSource => 1
  | .native => 2
  | .transport => 3
  | .manager | .tool => 4
  | .general | .lttng => 5
  | .generalSource | .lttngSource => 6
  | .session => 7
  | .server | .recorder => 8

def mayOwn : Kind → Kind → Bool
  | .manager, .transport | .manager, .endpoint | .transport, .endpoint => true
  | .general, .manager | .native, .nativeSource | .lttng, .tool => true
  | .generalSource, .general | .lttngSource, .lttng | .lttngSource, .tool => true
  | .session, k => isSource k
  | .server, k => isProvider k || k == .session
  | .recorder, k => isProvider k || isSource k
  | _, _ => false

theorem rank_lt {a b : Kind} (h : mayOwn a b = true) : rank b < rank a := by
  cases a <;> cases b <;> simp_all [mayOwn, rank, isSource, isProvider]

def hasThread : Kind → Bool
  | .manager | .transport | .tool | .session | .server | .recorder => true
  | _ => false

/-- Thread `u` may have a reference to `o`, or destroy it. -/
structure May (s : State) (u : Thread) (o : Nat) : Prop where
  thr : ∀ z, u = .of z → (s.obj z).running = true ∧ rank (s.obj o).kind < rank (s.obj z).kind
  ses : (s.obj o).kind = .session → u = .of (s.obj o).backend

/-- What holds between the actions, where the objects in `L` may have no owner. -/
structure Inv (L : List Nat) (s : State) : Prop where
  fresh : ∀ x, s.next ≤ x → s.obj x = {}
  edge : ∀ x, ∀ o ∈ (s.obj x).refs, (s.obj o).status = .alive ∧ mayOwn (s.obj x).kind (s.obj o).kind = true
  held : ∀ h ∈ s.held, (s.obj h.2).status = .alive ∧ May s h.1 h.2
  owned : ∀ o, (s.obj o).status = .alive → o ∈ L ∨ (∃ h ∈ s.held, h.2 = o) ∨ ∃ x, o ∈ (s.obj x).refs
  gone : ∀ x, (s.obj x).status = .gone → (s.obj x).refs = [] ∧ (s.obj x).running = false
  todo : ∀ h ∈ s.todo, (s.obj h.2).status = .dying ∧ May s h.1 h.2
  dying : ∀ o, (s.obj o).status = .dying → ∃ u, (u, o) ∈ s.todo
  nodup : (s.todo.map (·.2)).Nodup
  threads : ∀ x, (s.obj x).running = true → hasThread (s.obj x).kind = true
  sRef : ∀ x, ∀ y ∈ (s.obj x).refs, (s.obj y).kind = .session → (s.obj y).backend = x ∧ (s.obj x).running = true
  sBack : ∀ y, (s.obj y).kind = .session → (s.obj (s.obj y).backend).kind = .server
  wk : ∀ n, (s.obj n).kind = .nativeSource → ∀ p ∈ (s.obj n).weak, (s.obj p).kind = .native
  sSrc : ∀ y, (s.obj y).kind = .session → ∀ n ∈ (s.obj y).refs, (s.obj n).kind = .nativeSource → ∀ p ∈ (s.obj n).weak, p ∈ (s.obj (s.obj y).backend).refs
  rSrc : ∀ x, (s.obj x).kind = .recorder → ∀ n ∈ (s.obj x).refs, (s.obj n).kind = .nativeSource → ∀ p ∈ (s.obj n).weak, p ∈ (s.obj x).refs
  src : ∀ n, (s.obj n).status ≠ .gone → ((s.obj n).kind = .nativeSource → ∃ p, (s.obj n).weak = [p]) ∧ ((s.obj n).kind = .generalSource → ∃ p ∈ (s.obj n).refs, (s.obj p).kind = .general) ∧
    ((s.obj n).kind = .lttngSource → ∃ p ∈ (s.obj n).refs, (s.obj p).kind = .lttng)
  term : s.terminated = false

theorem Inv.mono {L L' : List Nat} {s : State} (h : Inv L s) (hl : ∀ o ∈ L, o ∈ L') : Inv L' s :=
  { h with owned := fun o ho => (h.owned o ho).imp_left (hl o) }

theorem inv_init : Inv [] {} where
  fresh _ _ := rfl
  edge _ o ho := by cases ho
  held _ h := by cases h
  owned o h := by cases h
  gone _ _ := ⟨rfl, rfl⟩
  todo _ h := by cases h
  dying _ h := by cases h
  nodup := List.Pairwise.nil
  threads _ h := by cases h
  sRef _ _ h := by cases h
  sBack _ h := by cases h
  wk _ h := by cases h
  sSrc _ h := by cases h
  rSrc _ h := by cases h
  src _ h := absurd rfl h
  term := rfl

theorem Inv.alive_lt {L : List Nat} {s : State} (h : Inv L s) {o : Nat} (ho : (s.obj o).status ≠ .gone) : o < s.next := by
  rcases Nat.lt_or_ge o s.next with h1 | h1
  · exact h1
  · rw [h.fresh o h1] at ho; exact absurd rfl ho

theorem Inv.hold {L : List Nat} {s : State} {u : Thread} {o : Nat} (h : Inv (o :: L) s) (ho : (s.obj o).status = .alive) (hm : May s u o) : Inv L (s.hold u o) :=
  { h with
    held := fun x hx => by
      rcases List.mem_cons.1 hx with rfl | hx
      · exact ⟨ho, ⟨hm.thr, hm.ses⟩⟩
      · exact ⟨(h.held x hx).1, ⟨(h.held x hx).2.thr, (h.held x hx).2.ses⟩⟩
    owned := fun x hx => by
      rcases h.owned x hx with h1 | ⟨k, hk, e⟩ | h1
      · rcases List.mem_cons.1 h1 with rfl | h1
        · exact .inr (.inl ⟨(u, x), List.mem_cons_self, rfl⟩)
        · exact .inl h1
      · exact .inr (.inl ⟨k, List.mem_cons_of_mem _ hk, e⟩)
      · exact .inr (.inr h1)
    todo := fun x hx => ⟨(h.todo x hx).1, ⟨(h.todo x hx).2.thr, (h.todo x hx).2.ses⟩⟩ }

/-- Changes of an object that keep its kind, status and backend. -/
theorem upd_kind (s : State) (x : Nat) (v : Obj) (hk : v.kind = (s.obj x).kind) (y : Nat) : ((s.upd x v).obj y).kind = (s.obj y).kind := by
  simp only [State.upd]; split
  · next e => rw [e, hk]
  · rfl

theorem upd_status (s : State) (x : Nat) (v : Obj) (hk : v.status = (s.obj x).status) (y : Nat) : ((s.upd x v).obj y).status = (s.obj y).status := by
  simp only [State.upd]; split
  · next e => rw [e, hk]
  · rfl

theorem upd_backend (s : State) (x : Nat) (v : Obj) (hk : v.backend = (s.obj x).backend) (y : Nat) : ((s.upd x v).obj y).backend = (s.obj y).backend := by
  simp only [State.upd]; split
  · next e => rw [e, hk]
  · rfl

theorem upd_running (s : State) (x : Nat) (v : Obj) (hk : v.running = (s.obj x).running) (y : Nat) : ((s.upd x v).obj y).running = (s.obj y).running := by
  simp only [State.upd]; split
  · next e => rw [e, hk]
  · rfl

theorem upd_weak (s : State) (x : Nat) (v : Obj) (hk : v.weak = (s.obj x).weak) (y : Nat) : ((s.upd x v).obj y).weak = (s.obj y).weak := by
  simp only [State.upd]; split
  · next e => rw [e, hk]
  · rfl

theorem upd_refs (s : State) (x : Nat) (v : Obj) (y : Nat) : ((s.upd x v).obj y).refs = if y = x then v.refs else (s.obj y).refs := by
  simp only [State.upd]; split <;> rfl

theorem May.congr {s s' : State} {u : Thread} {o : Nat} (h : May s u o) (hk : ∀ y, (s'.obj y).kind = (s.obj y).kind) (hb : ∀ y, (s'.obj y).backend = (s.obj y).backend)
    (hr : ∀ z, u = .of z → (s.obj z).running = true → (s'.obj z).running = true) : May s' u o where
  thr z e := by rw [hk, hk]; exact ⟨hr z e (h.thr z e).1, (h.thr z e).2⟩
  ses e := by rw [hk] at e; rw [hb]; exact h.ses e

/-- `x` gets an owning reference. -/
theorem Inv.own {L : List Nat} {s : State} {x o : Nat} (h : Inv (o :: L) s) (ho : (s.obj o).status = .alive) (hx : (s.obj x).status ≠ .gone) (hm : mayOwn (s.obj x).kind (s.obj o).kind = true)
    (hs : (s.obj o).kind = .session → (s.obj o).backend = x ∧ (s.obj x).running = true)
    (hn : (s.obj o).kind = .nativeSource → ((s.obj x).kind = .session → ∀ p ∈ (s.obj o).weak, p ∈ (s.obj (s.obj x).backend).refs) ∧ ((s.obj x).kind = .recorder → ∀ p ∈ (s.obj o).weak, p ∈ (s.obj x).refs)) :
    Inv L (s.own x o) := by
  have ek : ∀ y, ((s.own x o).obj y).kind = (s.obj y).kind := fun y => upd_kind s x { s.obj x with refs := o :: (s.obj x).refs } rfl y
  have es : ∀ y, ((s.own x o).obj y).status = (s.obj y).status := fun y => upd_status s x { s.obj x with refs := o :: (s.obj x).refs } rfl y
  have eb : ∀ y, ((s.own x o).obj y).backend = (s.obj y).backend := fun y => upd_backend s x { s.obj x with refs := o :: (s.obj x).refs } rfl y
  have er : ∀ y, ((s.own x o).obj y).running = (s.obj y).running := fun y => upd_running s x { s.obj x with refs := o :: (s.obj x).refs } rfl y
  have ew : ∀ y, ((s.own x o).obj y).weak = (s.obj y).weak := fun y => upd_weak s x { s.obj x with refs := o :: (s.obj x).refs } rfl y
  have ef : ∀ y, ((s.own x o).obj y).refs = if y = x then o :: (s.obj x).refs else (s.obj y).refs := fun y => upd_refs s x { s.obj x with refs := o :: (s.obj x).refs } y
  have sub : ∀ y, ∀ p ∈ (s.obj y).refs, p ∈ ((s.own x o).obj y).refs := fun y p hp => by
    rw [ef]; split
    · next e => subst e; exact List.mem_cons_of_mem _ hp
    · exact hp
  have cas : ∀ y, ∀ p ∈ ((s.own x o).obj y).refs, p ∈ (s.obj y).refs ∨ y = x ∧ p = o := fun y p hp => by
    rw [ef] at hp; split at hp
    · next e =>
      rcases List.mem_cons.1 hp with e2 | hp
      · exact .inr ⟨e, e2⟩
      · exact .inl (e ▸ hp)
    · exact .inl hp
  have may : ∀ u p, May s u p → May (s.own x o) u p := fun u p hp => hp.congr ek eb fun z _ hz => by rw [er]; exact hz
  refine { fresh := ?_, edge := ?_, held := ?_, owned := ?_, gone := ?_, todo := ?_, dying := ?_, nodup := h.nodup, threads := ?_, sRef := ?_, sBack := ?_, wk := ?_, sSrc := ?_, rSrc := ?_, src := ?_, term := h.term }
  · intro y hy
    have : y ≠ x := fun e => absurd (h.alive_lt hx) (by subst e; exact Nat.not_lt.2 hy)
    have e2 : (s.own x o).obj y = s.obj y := by simp [State.own, State.upd, this]
    rw [e2]; exact h.fresh y hy
  · intro y p hp
    rw [es, ek, ek]
    rcases cas y p hp with h1 | ⟨rfl, rfl⟩
    · exact h.edge y p h1
    · exact ⟨ho, hm⟩
  · intro k hk; rw [es]; exact ⟨(h.held k hk).1, may _ _ (h.held k hk).2⟩
  · intro p hp
    rw [es] at hp
    rcases h.owned p hp with h1 | h1 | ⟨y, h1⟩
    · rcases List.mem_cons.1 h1 with rfl | h1
      · exact .inr (.inr ⟨x, by rw [ef, if_pos rfl]; exact List.mem_cons_self⟩)
      · exact .inl h1
    · exact .inr (.inl h1)
    · exact .inr (.inr ⟨y, sub y p h1⟩)
  · intro y hy
    rw [es] at hy
    have : y ≠ x := fun e => hx (e ▸ hy)
    rw [ef, if_neg this, er]; exact h.gone y hy
  · intro k hk; rw [es]; exact ⟨(h.todo k hk).1, may _ _ (h.todo k hk).2⟩
  · intro p hp; rw [es] at hp; exact h.dying p hp
  · intro y hy; rw [er] at hy; rw [ek]; exact h.threads y hy
  · intro y p hp hk
    rw [ek] at hk; rw [eb, er]
    rcases cas y p hp with h1 | ⟨rfl, rfl⟩
    · exact h.sRef y p h1 hk
    · exact hs hk
  · intro y hy; rw [ek] at hy; rw [eb, ek]; exact h.sBack y hy
  · intro n hk p hp; rw [ek] at hk; rw [ew] at hp; rw [ek]; exact h.wk n hk p hp
  · intro y hy n hn' hk p hp
    rw [ek] at hy hk; rw [ew] at hp; rw [eb]
    rcases cas y n hn' with h1 | ⟨rfl, rfl⟩
    · exact sub _ _ (h.sSrc y hy n h1 hk p hp)
    · exact sub _ _ ((hn hk).1 hy p hp)
  · intro y hy n hn' hk p hp
    rw [ek] at hy hk; rw [ew] at hp
    rcases cas y n hn' with h1 | ⟨rfl, rfl⟩
    · exact sub _ _ (h.rSrc y hy n h1 hk p hp)
    · exact sub _ _ ((hn hk).2 hy p hp)
  · intro n hg
    rw [es] at hg
    have h1 := h.src n hg
    rw [ek, ew]
    refine ⟨h1.1, fun e => ?_, fun e => ?_⟩
    · obtain ⟨p, hp, e2⟩ := h1.2.1 e; exact ⟨p, sub n p hp, by rw [ek]; exact e2⟩
    · obtain ⟨p, hp, e2⟩ := h1.2.2 e; exact ⟨p, sub n p hp, by rw [ek]; exact e2⟩

/-- A new object. -/
theorem Inv.create {L : List Nat} {s : State} {v : Obj} (h : Inv L s) (hv : ∀ o ∈ v.refs, (s.obj o).status = .alive ∧ mayOwn v.kind (s.obj o).kind = true)
    (hr : v.running = true → hasThread v.kind = true) (hs : v.kind = .session → (s.obj v.backend).kind = .server)
    (hw : v.kind = .nativeSource → ∀ p ∈ v.weak, (s.obj p).kind = .native) (hns : ∀ o ∈ v.refs, (s.obj o).kind ≠ .session) (hnn : v.kind = .session ∨ v.kind = .recorder → v.refs = [])
    (hsrc : (v.kind = .nativeSource → ∃ p, v.weak = [p]) ∧ (v.kind = .generalSource → ∃ p ∈ v.refs, (s.obj p).kind = .general) ∧ (v.kind = .lttngSource → ∃ p ∈ v.refs, (s.obj p).kind = .lttng)) :
    Inv (s.next :: L) (s.create v) := by
  have en : s.obj s.next = {} := h.fresh _ (Nat.le_refl _)
  have eo : ∀ y, y ≠ s.next → (s.create v).obj y = s.obj y := fun y hy => by simp [State.create, State.upd, hy]
  have e1 : (s.create v).obj s.next = { v with status := .alive } := by simp [State.create, State.upd]
  have ne : ∀ y, (s.obj y).status ≠ .gone → y ≠ s.next := fun y hy e => hy (by rw [e, en])
  have al : ∀ y, (s.obj y).status = .alive → y ≠ s.next := fun y hy => ne y (by rw [hy]; decide)
  have kd : ∀ y, (s.obj y).kind ≠ .endpoint → y ≠ s.next := fun y hy e => hy (by rw [e, en])
  have ru : ∀ z, (s.obj z).running = true → z ≠ s.next := fun z hz e => by rw [e, en] at hz; cases hz
  have may : ∀ u p, (s.obj p).status ≠ .gone → May s u p → May (s.create v) u p := fun u p ha hp =>
    { thr := fun z e => by rw [eo z (ru z (hp.thr z e).1), eo p (ne p ha)]; exact hp.thr z e
      ses := fun e => by rw [eo p (ne p ha)] at e ⊢; exact hp.ses e }
  have edge' : ∀ y, ∀ p ∈ ((s.create v).obj y).refs, p ≠ s.next ∧ (s.obj p).status = .alive ∧ mayOwn ((s.create v).obj y).kind (s.obj p).kind = true := by
    intro y p hp
    by_cases e : y = s.next
    · subst e; rw [e1] at hp ⊢; exact ⟨al p (hv p hp).1, hv p hp⟩
    · rw [eo y e] at hp ⊢; exact ⟨al p (h.edge y p hp).1, h.edge y p hp⟩
  refine { fresh := ?_, edge := ?_, held := ?_, owned := ?_, gone := ?_, todo := ?_, dying := ?_, nodup := h.nodup, threads := ?_, sRef := ?_, sBack := ?_, wk := ?_, sSrc := ?_, rSrc := ?_, src := ?_, term := h.term }
  · intro y hy
    have hy : s.next + 1 ≤ y := hy
    rw [eo y (by omega)]; exact h.fresh y (by omega)
  · intro y p hp
    obtain ⟨h1, h2, h3⟩ := edge' y p hp
    rw [eo p h1]; exact ⟨h2, h3⟩
  · intro k hk
    have := h.held k hk
    rw [eo k.2 (al _ this.1)]; exact ⟨this.1, may _ _ (by rw [this.1]; decide) this.2⟩
  · intro p hp
    by_cases e : p = s.next
    · exact .inl (e ▸ List.mem_cons_self)
    · rw [eo p e] at hp
      rcases h.owned p hp with h1 | h1 | ⟨y, h1⟩
      · exact .inl (List.mem_cons_of_mem _ h1)
      · exact .inr (.inl h1)
      · refine .inr (.inr ⟨y, ?_⟩)
        rw [eo y (fun e => by rw [e, en] at h1; cases h1)]; exact h1
  · intro y hy
    by_cases e : y = s.next
    · subst e; rw [e1] at hy; cases hy
    · rw [eo y e] at hy ⊢; exact h.gone y hy
  · intro k hk
    have := h.todo k hk
    rw [eo k.2 (ne _ (by rw [this.1]; decide))]; exact ⟨this.1, may _ _ (by rw [this.1]; decide) this.2⟩
  · intro p hp
    by_cases e : p = s.next
    · subst e; rw [e1] at hp; cases hp
    · rw [eo p e] at hp; exact h.dying p hp
  · intro y hy
    by_cases e : y = s.next
    · subst e; rw [e1] at hy ⊢; exact hr hy
    · rw [eo y e] at hy ⊢; exact h.threads y hy
  · intro y p hp hk
    obtain ⟨h1, _, _⟩ := edge' y p hp
    rw [eo p h1] at hk ⊢
    by_cases e : y = s.next
    · subst e; rw [e1] at hp; exact absurd hk (hns p hp)
    · rw [eo y e] at hp ⊢; exact h.sRef y p hp hk
  · intro y hy
    by_cases e : y = s.next
    · subst e; rw [e1] at hy ⊢
      have := hs hy
      rw [eo _ (kd _ (by rw [this]; decide))]; exact this
    · rw [eo y e] at hy ⊢
      have := h.sBack y hy
      rw [eo _ (kd _ (by rw [this]; decide))]; exact this
  · intro n hk p hp
    have : (s.obj p).kind = .native := by
      by_cases e : n = s.next
      · subst e; rw [e1] at hk hp; exact hw hk p hp
      · rw [eo n e] at hk hp; exact h.wk n hk p hp
    rw [eo p (kd _ (by rw [this]; decide))]; exact this
  · intro y hy n hn hk p hp
    obtain ⟨h1, _, _⟩ := edge' y n hn
    rw [eo n h1] at hk hp
    by_cases e : y = s.next
    · subst e; rw [e1] at hy hn; rw [show ({ v with status := Status.alive } : Obj).refs = [] from hnn (.inl hy)] at hn; cases hn
    · rw [eo y e] at hy hn ⊢
      rw [eo _ (kd _ (by rw [h.sBack y hy]; decide))]
      exact h.sSrc y hy n hn hk p hp
  · intro y hy n hn hk p hp
    obtain ⟨h1, _, _⟩ := edge' y n hn
    rw [eo n h1] at hk hp
    by_cases e : y = s.next
    · subst e; rw [e1] at hy hn; rw [show ({ v with status := Status.alive } : Obj).refs = [] from hnn (.inr hy)] at hn; cases hn
    · rw [eo y e] at hy hn ⊢
      exact h.rSrc y hy n hn hk p hp
  · intro n hg
    by_cases e : n = s.next
    · subst e; rw [e1]
      refine ⟨hsrc.1, fun e => ?_, fun e => ?_⟩
      · obtain ⟨p, hp, e2⟩ := hsrc.2.1 e; exact ⟨p, hp, by rw [eo p (al p (hv p hp).1)]; exact e2⟩
      · obtain ⟨p, hp, e2⟩ := hsrc.2.2 e; exact ⟨p, hp, by rw [eo p (al p (hv p hp).1)]; exact e2⟩
    · rw [eo n e] at hg ⊢
      have h1 := h.src n hg
      refine ⟨h1.1, fun e => ?_, fun e => ?_⟩
      · obtain ⟨p, hp, e2⟩ := h1.2.1 e; exact ⟨p, hp, by rw [eo p (al p (h.edge n p hp).1)]; exact e2⟩
      · obtain ⟨p, hp, e2⟩ := h1.2.2 e; exact ⟨p, hp, by rw [eo p (al p (h.edge n p hp).1)]; exact e2⟩

/-- An object changes what it owns to a part of it, its observing references, or its thread. -/
theorem Inv.change {L : List Nat} {s : State} {x : Nat} {v : Obj} (h : Inv L s) (hx : (s.obj x).status ≠ .gone) (hk : v.kind = (s.obj x).kind) (hst : v.status = (s.obj x).status)
    (hb : v.backend = (s.obj x).backend) (f : Nat → Bool) (hf : v.refs = (s.obj x).refs.filter f) (hp : ∀ p ∈ (s.obj x).refs, (s.obj p).kind = .native → f p = true)
    (hw : isSource (s.obj x).kind = false)
    (hr : v.running = true → hasThread (s.obj x).kind = true) (hrun : v.running = (s.obj x).running ∨ v.running = true ∨ s.idle x = true) :
    Inv ((s.obj x).refs.filter (fun o => !f o) ++ L) (s.upd x v) := by
  have ek := upd_kind s x v hk
  have es := upd_status s x v hst
  have eb := upd_backend s x v hb
  have ef := upd_refs s x v
  have sub : ∀ y, ∀ p ∈ ((s.upd x v).obj y).refs, p ∈ (s.obj y).refs := fun y p hq => by
    rw [ef] at hq; split at hq
    · next e => subst e; rw [hf] at hq; exact (List.mem_filter.1 hq).1
    · exact hq
  have ew : ∀ n, (s.obj n).kind = .nativeSource → ((s.upd x v).obj n).weak = (s.obj n).weak := fun n hn => by
    simp only [State.upd]; split
    · next e => subst e; rw [hn] at hw; cases hw
    · rfl
  have keep : ∀ y, ∀ p ∈ (s.obj y).refs, (s.obj p).kind = .native → p ∈ ((s.upd x v).obj y).refs := fun y p h1 h2 => by
    rw [ef]; split
    · next e => subst e; rw [hf]; exact List.mem_filter.2 ⟨h1, hp p h1 h2⟩
    · exact h1
  have may : ∀ u p, (u, p) ∈ s.held ∨ (u, p) ∈ s.todo → May s u p → May (s.upd x v) u p := fun u p hup hmay => hmay.congr ek eb fun z e hz => by
    simp only [State.upd]; split
    · next e2 =>
      subst e2
      rcases hrun with h1 | h1 | h1
      · rw [h1]; exact hz
      · exact h1
      · subst e
        simp only [State.idle, Bool.and_eq_true, Bool.not_eq_true', List.any_eq_false, beq_iff_eq] at h1
        rcases hup with h2 | h2
        · exact absurd rfl (h1.1.1 _ h2)
        · exact absurd rfl (h1.1.2 _ h2)
    · exact hz
  refine { fresh := ?_, edge := ?_, held := ?_, owned := ?_, gone := ?_, todo := ?_, dying := ?_, nodup := h.nodup, threads := ?_, sRef := ?_, sBack := ?_, wk := ?_, sSrc := ?_, rSrc := ?_, src := ?_, term := h.term }
  · intro y hy
    have : y ≠ x := fun e => absurd (h.alive_lt hx) (by subst e; exact Nat.not_lt.2 hy)
    have e2 : (s.upd x v).obj y = s.obj y := by simp [State.upd, this]
    rw [e2]; exact h.fresh y hy
  · intro y p hp; rw [es, ek, ek]; exact h.edge y p (sub y p hp)
  · intro k hk'; rw [es]; exact ⟨(h.held k hk').1, may _ _ (.inl hk') (h.held k hk').2⟩
  · intro p hp'
    rw [es] at hp'
    rcases h.owned p hp' with h1 | h1 | ⟨y, h1⟩
    · exact .inl (List.mem_append_right _ h1)
    · exact .inr (.inl h1)
    · by_cases e : y = x
      · subst e
        cases hfp : f p with
        | false => exact .inl (List.mem_append_left _ (List.mem_filter.2 ⟨h1, by simp [hfp]⟩))
        | true => exact .inr (.inr ⟨y, by rw [ef, if_pos rfl, hf]; exact List.mem_filter.2 ⟨h1, hfp⟩⟩)
      · exact .inr (.inr ⟨y, by rw [ef, if_neg e]; exact h1⟩)
  · intro y hy
    rw [es] at hy
    have : y ≠ x := fun e => hx (e ▸ hy)
    have e2 : (s.upd x v).obj y = s.obj y := by simp [State.upd, this]
    rw [e2]; exact h.gone y hy
  · intro k hk'; rw [es]; exact ⟨(h.todo k hk').1, may _ _ (.inr hk') (h.todo k hk').2⟩
  · intro p hp'; rw [es] at hp'; exact h.dying p hp'
  · intro y hy
    rw [ek]
    by_cases e : y = x
    · subst e; exact hr (by simpa [State.upd] using hy)
    · exact h.threads y (by simpa [State.upd, e] using hy)
  · intro y p hp' hk'
    rw [ek] at hk'; rw [eb]
    have h1 := h.sRef y p (sub y p hp') hk'
    refine ⟨h1.1, ?_⟩
    by_cases e : y = x
    · subst e
      simp only [State.upd, if_pos]
      rcases hrun with h2 | h2 | h2
      · rw [h2]; exact h1.2
      · exact h2
      · simp only [State.idle, Bool.and_eq_true, Bool.not_eq_true', List.any_eq_false, beq_iff_eq] at h2
        exact absurd hk' (h2.2 p (sub y p hp'))
    · simp only [State.upd, if_neg e]; exact h1.2
  · intro y hy; rw [ek] at hy; rw [eb, ek]; exact h.sBack y hy
  · intro n hk' p hp'; rw [ek] at hk'; rw [ew n hk'] at hp'; rw [ek]; exact h.wk n hk' p hp'
  · intro y hy n hn hk' p hp'
    rw [ek] at hy hk'; rw [ew n hk'] at hp'; rw [eb]
    exact keep _ _ (h.sSrc y hy n (sub y n hn) hk' p hp') (h.wk n hk' p hp')
  · intro y hy n hn hk' p hp'
    rw [ek] at hy hk'; rw [ew n hk'] at hp'
    exact keep _ _ (h.rSrc y hy n (sub y n hn) hk' p hp') (h.wk n hk' p hp')
  · intro n hg
    by_cases e : n = x
    · subst e
      rw [ek]
      refine ⟨fun e => ?_, fun e => ?_, fun e => ?_⟩ <;> · rw [e] at hw; cases hw
    · have e2 : (s.upd x v).obj n = s.obj n := by simp [State.upd, e]
      rw [e2] at hg ⊢
      have h1 := h.src n hg
      refine ⟨h1.1, fun e => ?_, fun e => ?_⟩
      · obtain ⟨p, hp, e2⟩ := h1.2.1 e; exact ⟨p, hp, by rw [ek]; exact e2⟩
      · obtain ⟨p, hp, e2⟩ := h1.2.2 e; exact ⟨p, hp, by rw [ek]; exact e2⟩

theorem Inv.unhold {L : List Nat} {s : State} (h : Inv L s) (u : Thread) (o : Nat) : Inv (o :: L) { s with held := s.held.erase (u, o) } :=
  { h with
    held := fun x hx => ⟨(h.held x (List.mem_of_mem_erase hx)).1, ⟨(h.held x (List.mem_of_mem_erase hx)).2.thr, (h.held x (List.mem_of_mem_erase hx)).2.ses⟩⟩
    owned := fun x hx => by
      rcases h.owned x hx with h1 | ⟨k, hk, e⟩ | h1
      · exact .inl (List.mem_cons_of_mem _ h1)
      · by_cases e2 : k = (u, o)
        · subst e2; exact .inl (by simp only at e; rw [e]; exact List.mem_cons_self)
        · exact .inr (.inl ⟨k, (List.mem_erase_of_ne e2).2 hk, e⟩)
      · exact .inr (.inr h1)
    todo := fun x hx => ⟨(h.todo x hx).1, ⟨(h.todo x hx).2.thr, (h.todo x hx).2.ses⟩⟩ }

theorem Inv.owned_iff {L : List Nat} {s : State} (h : Inv L s) (o : Nat) : s.owned o = true ↔ (∃ k ∈ s.held, k.2 = o) ∨ ∃ x, o ∈ (s.obj x).refs := by
  simp only [State.owned, Bool.or_eq_true, List.any_eq_true, List.mem_range, List.contains_iff_mem, beq_iff_eq]
  constructor
  · rintro (h1 | ⟨x, _, h1⟩)
    · exact .inl h1
    · exact .inr ⟨x, h1⟩
  · rintro (h1 | ⟨x, h1⟩)
    · exact .inl h1
    · refine .inr ⟨x, ?_, h1⟩
      exact h.alive_lt fun e => by rw [(h.gone x e).1] at h1; cases h1

/-- One object whose last reference was given up. -/
theorem Inv.die {L : List Nat} {s : State} {u : Thread} {o : Nat} (h : Inv (o :: L) s) (ha : (s.obj o).status = .alive) (hn : s.owned o = false) (hm : May s u o) :
    Inv L { s.upd o { s.obj o with status := .dying } with todo := s.todo ++ [(u, o)] } := by
  have hn' : ¬ ((∃ k ∈ s.held, k.2 = o) ∨ ∃ x, o ∈ (s.obj x).refs) := fun h1 => by rw [(h.owned_iff o).2 h1] at hn; cases hn
  have hne : ∀ x, ∀ p ∈ (s.obj x).refs, p ≠ o := fun x p hp e => hn' (.inr ⟨x, e ▸ hp⟩)
  have hnh : ∀ k ∈ s.held, k.2 ≠ o := fun k hk e => hn' (.inl ⟨k, hk, e⟩)
  let s' : State := s.upd o { s.obj o with status := .dying }
  have ek : ∀ y, (s'.obj y).kind = (s.obj y).kind := upd_kind s o { s.obj o with status := .dying } rfl
  have eb : ∀ y, (s'.obj y).backend = (s.obj y).backend := upd_backend s o { s.obj o with status := .dying } rfl
  have er : ∀ y, (s'.obj y).running = (s.obj y).running := upd_running s o { s.obj o with status := .dying } rfl
  have ew : ∀ y, (s'.obj y).weak = (s.obj y).weak := upd_weak s o { s.obj o with status := .dying } rfl
  have ef : ∀ y, (s'.obj y).refs = (s.obj y).refs := fun y => by
    rw [upd_refs]; split
    · next e => rw [e]
    · rfl
  have es : ∀ y, (s'.obj y).status = if y = o then .dying else (s.obj y).status := fun y => by simp only [s', State.upd]; split <;> rfl
  have may : ∀ u p, May s u p → May s' u p := fun u p hp => hp.congr ek eb fun z _ hz => by rw [er]; exact hz
  have may' : ∀ u p, May s u p → May { s' with todo := s.todo ++ [(u, o)] } u p := fun u p hp => ⟨(may u p hp).thr, (may u p hp).ses⟩
  show Inv L { s' with todo := s.todo ++ [(u, o)] }
  refine { fresh := ?_, edge := ?_, held := ?_, owned := ?_, gone := ?_, todo := ?_, dying := ?_, nodup := ?_, threads := ?_, sRef := ?_, sBack := ?_, wk := ?_, sSrc := ?_, rSrc := ?_, src := ?_, term := h.term }
  · intro y hy
    have : y ≠ o := fun e => absurd (h.alive_lt (o := o) (by rw [ha]; decide)) (by subst e; exact Nat.not_lt.2 hy)
    have e2 : s'.obj y = s.obj y := by simp [s', State.upd, this]
    show s'.obj y = {}
    rw [e2]; exact h.fresh y hy
  · intro y p (hp : p ∈ (s'.obj y).refs)
    show (s'.obj p).status = _ ∧ mayOwn (s'.obj y).kind (s'.obj p).kind = true
    rw [ef] at hp; rw [es, if_neg (hne y p hp), ek, ek]; exact h.edge y p hp
  · intro k hk
    show (s'.obj k.2).status = _ ∧ _
    rw [es, if_neg (hnh k hk)]; exact ⟨(h.held k hk).1, ⟨(may _ _ (h.held k hk).2).thr, (may _ _ (h.held k hk).2).ses⟩⟩
  · intro p (hp : (s'.obj p).status = .alive)
    rw [es] at hp
    by_cases e : p = o
    · rw [if_pos e] at hp; cases hp
    · rw [if_neg e] at hp
      rcases h.owned p hp with h1 | h1 | ⟨y, h1⟩
      · rcases List.mem_cons.1 h1 with e2 | h1
        · exact absurd e2 e
        · exact .inl h1
      · exact .inr (.inl h1)
      · exact .inr (.inr ⟨y, by show p ∈ (s'.obj y).refs; rw [ef]; exact h1⟩)
  · intro y (hy : (s'.obj y).status = .gone)
    show (s'.obj y).refs = [] ∧ (s'.obj y).running = false
    rw [es] at hy
    by_cases e : y = o
    · rw [if_pos e] at hy; cases hy
    · rw [if_neg e] at hy; rw [ef, er]; exact h.gone y hy
  · intro k hk
    rcases List.mem_append.1 hk with hk | hk
    · have := h.todo k hk
      show (s'.obj k.2).status = _ ∧ _
      refine ⟨?_, ⟨(may _ _ this.2).thr, (may _ _ this.2).ses⟩⟩
      rw [es]; split
      · rfl
      · exact this.1
    · rcases List.mem_singleton.1 hk with rfl
      show (s'.obj o).status = _ ∧ _
      exact ⟨by rw [es, if_pos rfl], ⟨(may _ _ hm).thr, (may _ _ hm).ses⟩⟩
  · intro p (hp : (s'.obj p).status = .dying)
    rw [es] at hp
    by_cases e : p = o
    · subst e; exact ⟨u, List.mem_append_right _ List.mem_cons_self⟩
    · rw [if_neg e] at hp
      obtain ⟨w, hw⟩ := h.dying p hp
      exact ⟨w, List.mem_append_left _ hw⟩
  · show ((s.todo ++ [(u, o)]).map (·.2)).Nodup
    rw [List.map_append, List.nodup_append]
    refine ⟨h.nodup, by simp, ?_⟩
    intro a ha' b hb e
    rcases List.mem_map.1 ha' with ⟨k, hk, rfl⟩
    simp only [List.map_cons, List.map_nil, List.mem_singleton] at hb
    have := (h.todo k hk).1
    rw [e, hb, ha] at this; cases this
  · intro y (hy : (s'.obj y).running = true)
    show hasThread (s'.obj y).kind = true
    rw [er] at hy; rw [ek]; exact h.threads y hy
  · intro y p (hp : p ∈ (s'.obj y).refs) (hk : (s'.obj p).kind = .session)
    show (s'.obj p).backend = y ∧ (s'.obj y).running = true
    rw [ef] at hp; rw [ek] at hk; rw [eb, er]; exact h.sRef y p hp hk
  · intro y (hy : (s'.obj y).kind = .session)
    show (s'.obj (s'.obj y).backend).kind = .server
    rw [ek] at hy; rw [eb, ek]; exact h.sBack y hy
  · intro n (hk : (s'.obj n).kind = _) p (hp : p ∈ (s'.obj n).weak)
    show (s'.obj p).kind = .native
    rw [ek] at hk; rw [ew] at hp; rw [ek]; exact h.wk n hk p hp
  · intro y (hy : (s'.obj y).kind = _) n (hn : n ∈ (s'.obj y).refs) (hk : (s'.obj n).kind = _) p (hp : p ∈ (s'.obj n).weak)
    show p ∈ (s'.obj (s'.obj y).backend).refs
    rw [ek] at hy hk; rw [ew] at hp; rw [ef] at hn; rw [eb, ef]; exact h.sSrc y hy n hn hk p hp
  · intro y (hy : (s'.obj y).kind = _) n (hn : n ∈ (s'.obj y).refs) (hk : (s'.obj n).kind = _) p (hp : p ∈ (s'.obj n).weak)
    show p ∈ (s'.obj y).refs
    rw [ek] at hy hk; rw [ew] at hp; rw [ef] at hn ⊢; exact h.rSrc y hy n hn hk p hp
  · intro n (hg : (s'.obj n).status ≠ .gone)
    have hg' : (s.obj n).status ≠ .gone := fun e => hg (by
      rw [es]; split
      · next e2 => rw [e2, ha] at e; cases e
      · exact e)
    have h1 := h.src n hg'
    show ((s'.obj n).kind = _ → ∃ p, (s'.obj n).weak = [p]) ∧ ((s'.obj n).kind = _ → ∃ p ∈ (s'.obj n).refs, (s'.obj p).kind = _) ∧ ((s'.obj n).kind = _ → ∃ p ∈ (s'.obj n).refs, (s'.obj p).kind = _)
    rw [ek, ew, ef]
    refine ⟨h1.1, fun e => ?_, fun e => ?_⟩
    · obtain ⟨p, hp, e2⟩ := h1.2.1 e; exact ⟨p, hp, by rw [ek]; exact e2⟩
    · obtain ⟨p, hp, e2⟩ := h1.2.2 e; exact ⟨p, hp, by rw [ek]; exact e2⟩

theorem Inv.settle {u : Thread} (os : List Nat) {L : List Nat} {s : State} (h : Inv (os ++ L) s) (hm : ∀ o ∈ os, May s u o) : Inv L (settle u os s) := by
  induction os generalizing s with
  | nil => exact h
  | cons o os ih =>
    simp only [Ownership.settle]
    split
    · next hc =>
      refine ih (h.die hc.1 hc.2 (hm o List.mem_cons_self)) fun p hp => ?_
      exact (hm p (List.mem_cons_of_mem _ hp)).congr (upd_kind s o { s.obj o with status := .dying } rfl) (upd_backend s o { s.obj o with status := .dying } rfl) fun z _ hz => by
        have := upd_running s o { s.obj o with status := .dying } rfl z
        exact this.trans hz
    · next hc =>
      refine ih ?_ fun p hp => hm p (List.mem_cons_of_mem _ hp)
      refine { h with owned := fun p hp => ?_ }
      rcases h.owned p hp with h1 | h1
      · rcases List.mem_cons.1 h1 with rfl | h1
        · have : s.owned p = true := by
            cases e : s.owned p with
            | true => rfl
            | false => exact absurd ⟨hp, e⟩ hc
          exact .inr ((h.owned_iff p).1 this)
        · exact .inl h1
      · exact .inr h1

/-- The end of a destructor. -/
theorem Inv.end_ {s : State} {u : Thread} {o : Nat} (h : Inv [] s) (ht : (u, o) ∈ s.todo) (hi : (s.obj o).running = false ∨ s.idle o = true) :
    Inv (s.obj o).refs { s.upd o { kind := (s.obj o).kind, backend := (s.obj o).backend } with todo := s.todo.erase (u, o) } := by
  have hd := (h.todo _ ht).1
  have nof : ∀ z p, (.of z, p) ∈ s.held ∨ (.of z, p) ∈ s.todo → z ≠ o := fun z p hp e => by
    subst e
    rcases hi with hi | hi
    · have : (s.obj z).running = true := by
        rcases hp with hp | hp
        · exact ((h.held _ hp).2.thr z rfl).1
        · exact ((h.todo _ hp).2.thr z rfl).1
      rw [hi] at this; cases this
    · simp only [State.idle, Bool.and_eq_true, Bool.not_eq_true', List.any_eq_false, beq_iff_eq] at hi
      rcases hp with hp | hp
      · exact hi.1.1 _ hp rfl
      · exact hi.1.2 _ hp rfl
  have nsess : ∀ y, (s.obj y).kind = .session → (s.obj y).status ≠ .gone → (s.obj o).running = true → (s.obj y).backend ≠ o := fun y hy hg hr e => by
    have hi : s.idle o = true := by
      rcases hi with hi | hi
      · rw [hi] at hr; cases hr
      · exact hi
    cases hs : (s.obj y).status with
    | gone => exact hg hs
    | dying =>
      obtain ⟨w, hw⟩ := h.dying y hs
      have := (h.todo _ hw).2.ses hy
      simp only at this; rw [this, e] at hw
      exact nof o y (.inr hw) rfl
    | alive =>
      rcases h.owned y hs with h1 | ⟨k, hk, e2⟩ | ⟨x, hx⟩
      · cases h1
      · have := (h.held _ hk).2.ses (by rw [e2]; exact hy)
        rw [e2, e] at this
        exact nof o k.2 (.inl (by rw [← this]; exact hk)) rfl
      · have := h.sRef x y hx hy
        rw [e] at this; obtain ⟨rfl, _⟩ := this
        simp only [State.idle, Bool.and_eq_true, Bool.not_eq_true', List.any_eq_false, beq_iff_eq] at hi
        exact hi.2 y hx hy
  let v : Obj := { kind := (s.obj o).kind, backend := (s.obj o).backend }
  let s' : State := s.upd o v
  have ek : ∀ y, (s'.obj y).kind = (s.obj y).kind := upd_kind s o v rfl
  have eb : ∀ y, (s'.obj y).backend = (s.obj y).backend := upd_backend s o v rfl
  have eo : ∀ y, y ≠ o → s'.obj y = s.obj y := fun y hy => by simp [s', State.upd, hy]
  have e1 : s'.obj o = v := by simp [s', State.upd]
  have al : ∀ y, (s.obj y).status = .alive → y ≠ o := fun y hy e => by rw [e, hd] at hy; cases hy
  have refs0 : ∀ y, ∀ p ∈ (s'.obj y).refs, y ≠ o ∧ p ∈ (s.obj y).refs := fun y p hp => by
    by_cases e : y = o
    · subst e; rw [e1] at hp; cases hp
    · rw [eo y e] at hp; exact ⟨e, hp⟩
  have may : ∀ w p, (w, p) ∈ s.held ∨ (w, p) ∈ s.todo → May s w p → May s' w p := fun w p hwp hp => hp.congr ek eb fun z e hz => by
    rw [eo z (nof z p (e ▸ hwp))]; exact hz
  show Inv (s.obj o).refs { s' with todo := s.todo.erase (u, o) }
  refine { fresh := ?_, edge := ?_, held := ?_, owned := ?_, gone := ?_, todo := ?_, dying := ?_, nodup := ?_, threads := ?_, sRef := ?_, sBack := ?_, wk := ?_, sSrc := ?_, rSrc := ?_, src := ?_, term := h.term }
  · intro y hy
    have : y ≠ o := fun e => absurd (h.alive_lt (o := o) (by rw [hd]; decide)) (by subst e; exact Nat.not_lt.2 hy)
    show s'.obj y = {}
    rw [eo y this]; exact h.fresh y hy
  · intro y p (hp : p ∈ (s'.obj y).refs)
    show (s'.obj p).status = _ ∧ mayOwn (s'.obj y).kind (s'.obj p).kind = true
    have := refs0 y p hp
    have h2 := h.edge y p this.2
    rw [ek, ek, eo p (al p h2.1)]; exact h2
  · intro k hk
    have := h.held k hk
    show (s'.obj k.2).status = _ ∧ _
    rw [eo k.2 (al _ this.1)]; exact ⟨this.1, ⟨(may _ _ (.inl hk) this.2).thr, (may _ _ (.inl hk) this.2).ses⟩⟩
  · intro p (hp : (s'.obj p).status = .alive)
    by_cases e : p = o
    · subst e; rw [e1] at hp; cases hp
    · rw [eo p e] at hp
      rcases h.owned p hp with h1 | h1 | ⟨y, h1⟩
      · cases h1
      · exact .inr (.inl h1)
      · by_cases e2 : y = o
        · exact .inl (e2 ▸ h1)
        · exact .inr (.inr ⟨y, by show p ∈ (s'.obj y).refs; rw [eo y e2]; exact h1⟩)
  · intro y (hy : (s'.obj y).status = .gone)
    show (s'.obj y).refs = [] ∧ (s'.obj y).running = false
    by_cases e : y = o
    · subst e; rw [e1]; exact ⟨rfl, rfl⟩
    · rw [eo y e] at hy ⊢; exact h.gone y hy
  · intro k (hk : k ∈ s.todo.erase (u, o))
    have hk' := List.mem_of_mem_erase hk
    have := h.todo k hk'
    show (s'.obj k.2).status = _ ∧ _
    refine ⟨?_, ⟨(may _ _ (.inr hk') this.2).thr, (may _ _ (.inr hk') this.2).ses⟩⟩
    by_cases e : k.2 = o
    · -- only one entry for `o`
      exfalso
      have hnd := h.nodup
      have : ∀ (l : List (Thread × Nat)), (l.map (·.2)).Nodup → (u, o) ∈ l → ∀ k ∈ l.erase (u, o), k.2 ≠ o := by
        intro l
        induction l with
        | nil => intro _ _ k hk; cases hk
        | cons a l ih =>
          intro hnd hm k hk e
          simp only [List.map_cons, List.nodup_cons] at hnd
          by_cases ea : a = (u, o)
          · subst ea; rw [List.erase_cons_head] at hk
            exact hnd.1 (List.mem_map.2 ⟨k, hk, e⟩)
          · rw [List.erase_cons_tail (by simpa using ea)] at hk
            rcases List.mem_cons.1 hm with h1 | h1
            · exact ea h1.symm
            · rcases List.mem_cons.1 hk with h2 | h2
              · subst h2; exact hnd.1 (List.mem_map.2 ⟨_, h1, e.symm⟩)
              · exact ih hnd.2 h1 k h2 e
      exact this _ hnd ht k hk e
    · rw [eo _ e]; exact this.1
  · intro p (hp : (s'.obj p).status = .dying)
    by_cases e : p = o
    · subst e; rw [e1] at hp; cases hp
    · rw [eo p e] at hp
      obtain ⟨w, hw⟩ := h.dying p hp
      exact ⟨w, (List.mem_erase_of_ne (fun e2 => e (congrArg Prod.snd e2))).2 hw⟩
  · exact List.Nodup.sublist (List.erase_sublist.map _) h.nodup
  · intro y (hy : (s'.obj y).running = true)
    show hasThread (s'.obj y).kind = true
    by_cases e : y = o
    · subst e; rw [e1] at hy; cases hy
    · rw [eo y e] at hy ⊢; exact h.threads y hy
  · intro y p (hp : p ∈ (s'.obj y).refs) (hk : (s'.obj p).kind = .session)
    show (s'.obj p).backend = y ∧ (s'.obj y).running = true
    rw [ek] at hk; rw [eb, eo y (refs0 y p hp).1]; exact h.sRef y p (refs0 y p hp).2 hk
  · intro y (hy : (s'.obj y).kind = .session)
    show (s'.obj (s'.obj y).backend).kind = .server
    rw [ek] at hy; rw [eb, ek]; exact h.sBack y hy
  · intro n (hk : (s'.obj n).kind = _) p (hp : p ∈ (s'.obj n).weak)
    show (s'.obj p).kind = .native
    rw [ek] at hk ⊢
    by_cases e : n = o
    · subst e; rw [e1] at hp; cases hp
    · rw [eo n e] at hp; exact h.wk n hk p hp
  · intro y (hy : (s'.obj y).kind = _) n (hn : n ∈ (s'.obj y).refs) (hk : (s'.obj n).kind = _) p (hp : p ∈ (s'.obj n).weak)
    show p ∈ (s'.obj (s'.obj y).backend).refs
    rw [ek] at hy hk; rw [eb]
    have h0 := refs0 y n hn
    have hno : n ≠ o := al n (h.edge y n h0.2).1
    rw [eo n hno] at hp
    have hg : (s.obj y).status ≠ .gone := fun e => by rw [(h.gone y e).1] at h0; cases h0.2
    have h1 := h.sSrc y hy n h0.2 hk p hp
    have hb : (s.obj y).backend ≠ o := by
      cases hr : (s.obj o).running with
      | true => exact nsess y hy hg hr
      | false =>
        -- the server never ran: it has no session
        intro e
        cases hs : (s.obj y).status with
        | gone => exact hg hs
        | dying =>
          obtain ⟨w, hw⟩ := h.dying y hs
          have h3 := (h.todo _ hw).2.ses hy
          simp only at h3; rw [h3, e] at hw
          exact nof o y (.inr hw) rfl
        | alive =>
          rcases h.owned y hs with h3 | ⟨k, hk, e2⟩ | ⟨x, hx⟩
          · cases h3
          · have h3 := (h.held _ hk).2.ses (by rw [e2]; exact hy)
            rw [e2, e] at h3
            exact nof o k.2 (.inl (by rw [← h3]; exact hk)) rfl
          · have h3 := h.sRef x y hx hy
            rw [e] at h3; rw [← h3.1, hr] at h3; cases h3.2
    rw [eo _ hb]; exact h1
  · intro y (hy : (s'.obj y).kind = _) n (hn : n ∈ (s'.obj y).refs) (hk : (s'.obj n).kind = _) p (hp : p ∈ (s'.obj n).weak)
    show p ∈ (s'.obj y).refs
    rw [ek] at hy hk
    have h0 := refs0 y n hn
    have hno : n ≠ o := al n (h.edge y n h0.2).1
    rw [eo n hno] at hp
    rw [eo y h0.1]; exact h.rSrc y hy n h0.2 hk p hp
  · intro n (hg : (s'.obj n).status ≠ .gone)
    show ((s'.obj n).kind = _ → ∃ p, (s'.obj n).weak = [p]) ∧ ((s'.obj n).kind = _ → ∃ p ∈ (s'.obj n).refs, (s'.obj p).kind = _) ∧ ((s'.obj n).kind = _ → ∃ p ∈ (s'.obj n).refs, (s'.obj p).kind = _)
    by_cases e : n = o
    · subst e; rw [e1] at hg; exact absurd rfl hg
    · rw [eo n e] at hg ⊢
      have h1 := h.src n hg
      refine ⟨h1.1, fun e => ?_, fun e => ?_⟩
      · obtain ⟨p, hp, e2⟩ := h1.2.1 e; exact ⟨p, hp, by rw [ek]; exact e2⟩
      · obtain ⟨p, hp, e2⟩ := h1.2.2 e; exact ⟨p, hp, by rw [ek]; exact e2⟩

theorem May.program {s : State} {t o : Nat} (h : (s.obj o).kind ≠ .session) : May s (.program t) o := ⟨(fun _ e => by cases e), fun e => absurd e h⟩

theorem Inv.forget {L : List Nat} {s : State} {o : Nat} (h : Inv (o :: L) s) (ho : (∃ k ∈ s.held, k.2 = o) ∨ ∃ x, o ∈ (s.obj x).refs) : Inv L s :=
  { h with
    owned := fun p hp => by
      rcases h.owned p hp with h1 | h1
      · rcases List.mem_cons.1 h1 with rfl | h1
        · exact .inr ho
        · exact .inl h1
      · exact .inr h1 }

theorem Inv.uses_live {L : List Nat} {s : State} (h : Inv L s) {u : Thread} {z : Nat} (hu : s.uses u z = true) : (s.obj z).status ≠ .gone := by
  cases u with
  | program t =>
    simp only [State.uses, List.contains_iff_mem] at hu
    rw [(h.held _ hu).1]; decide
  | of y =>
    simp only [State.uses, Bool.and_eq_true, Bool.or_eq_true, List.contains_iff_mem, beq_iff_eq] at hu
    rcases hu with ⟨h1, rfl | h2⟩
    · intro e; rw [(h.gone _ e).2] at h1; cases h1
    · rw [(h.held _ h2).1]; decide

theorem Inv.uses_rank {L : List Nat} {s : State} (h : Inv L s) {y z : Nat} (hu : s.uses (.of y) z = true) : (s.obj y).running = true ∧ (y = z ∨ rank (s.obj z).kind < rank (s.obj y).kind) := by
  simp only [State.uses, Bool.and_eq_true, Bool.or_eq_true, List.contains_iff_mem, beq_iff_eq] at hu
  exact ⟨hu.1, hu.2.imp_right fun h2 => ((h.held _ h2).2.thr y rfl).2⟩

theorem uses_program {s : State} {t z : Nat} (hu : s.uses (.program t) z = true) : (.program t, z) ∈ s.held := by
  simpa only [State.uses, List.contains_iff_mem] using hu

/-- What a path of references leads to. -/
theorem Inv.leads_last {L : List Nat} {s : State} (h : Inv L s) {o : Nat} : ∀ {path : List Nat} {z : Nat}, s.leads z (path ++ [o]) = true →
    ∃ w, o ∈ (s.obj w).refs ∧ (w = z ∨ rank (s.obj w).kind < rank (s.obj z).kind)
  | [], z, hl => by
    simp only [List.nil_append, State.leads, Bool.and_true, List.contains_iff_mem] at hl
    exact ⟨z, hl, .inl rfl⟩
  | a :: path, z, hl => by
    simp only [List.cons_append, State.leads, Bool.and_eq_true, List.contains_iff_mem] at hl
    obtain ⟨w, h1, h2⟩ := h.leads_last (path := path) hl.2
    have h3 := rank_lt (h.edge z a hl.1).2
    refine ⟨w, h1, .inr ?_⟩
    rcases h2 with rfl | h2
    · exact h3
    · omega

theorem rank_le (k : Kind) : rank k ≤ 8 := by cases k <;> decide

/-- What stays the same, and what grows, when sources are added. -/
structure Grows (s s' : State) : Prop where
  kind : ∀ y, (s.obj y).status ≠ .gone → (s'.obj y).kind = (s.obj y).kind
  status : ∀ y, (s.obj y).status ≠ .gone → (s'.obj y).status = (s.obj y).status
  backend : ∀ y, (s.obj y).status ≠ .gone → (s'.obj y).backend = (s.obj y).backend
  refs : ∀ y, (s.obj y).status ≠ .gone → ∀ o ∈ (s.obj y).refs, o ∈ (s'.obj y).refs

theorem Grows.refl (s : State) : Grows s s := ⟨(fun _ _ => rfl), (fun _ _ => rfl), (fun _ _ => rfl), fun _ _ _ h => h⟩

theorem Grows.trans {a b c : State} (h : Grows a b) (h' : Grows b c) : Grows a c where
  kind y hy := (h'.kind y (by rw [h.status y hy]; exact hy)).trans (h.kind y hy)
  status y hy := (h'.status y (by rw [h.status y hy]; exact hy)).trans (h.status y hy)
  backend y hy := (h'.backend y (by rw [h.status y hy]; exact hy)).trans (h.backend y hy)
  refs y hy o ho := h'.refs y (by rw [h.status y hy]; exact hy) o (h.refs y hy o ho)

theorem grows_own (s : State) (x o : Nat) : Grows s (s.own x o) where
  kind y _ := upd_kind s x { s.obj x with refs := o :: (s.obj x).refs } rfl y
  status y _ := upd_status s x { s.obj x with refs := o :: (s.obj x).refs } rfl y
  backend y _ := upd_backend s x { s.obj x with refs := o :: (s.obj x).refs } rfl y
  refs y _ p hp := by
    show p ∈ ((s.upd x { s.obj x with refs := o :: (s.obj x).refs }).obj y).refs
    rw [upd_refs]; split
    · next e => subst e; exact List.mem_cons_of_mem _ hp
    · exact hp

theorem Inv.grows_create {L : List Nat} {s : State} (h : Inv L s) (v : Obj) : Grows s (s.create v) := by
  have eo : ∀ y, (s.obj y).status ≠ .gone → (s.create v).obj y = s.obj y := fun y hy => by
    have : y ≠ s.next := Nat.ne_of_lt (h.alive_lt hy)
    simp [State.create, State.upd, this]
  exact ⟨(fun y hy => by rw [eo y hy]), (fun y hy => by rw [eo y hy]), (fun y hy => by rw [eo y hy]), fun y hy o ho => by rw [eo y hy]; exact ho⟩

theorem grows_hold (s : State) (u : Thread) (o : Nat) : Grows s (s.hold u o) := ⟨(fun _ _ => rfl), (fun _ _ => rfl), (fun _ _ => rfl), fun _ _ _ h => h⟩

theorem grows_register (s : State) (p o : Nat) : Grows s (register s p o) := by
  unfold register; split
  · exact grows_own s p o
  · exact .refl s

theorem create_next (s : State) (v : Obj) : (s.create v).obj s.next = { v with status := .alive } := by simp [State.create, State.upd]

theorem sourceOf_kind (s : State) (p : Nat) : isSource (sourceOf s p).kind = true ∧ ((sourceOf s p).kind = .nativeSource ↔ (s.obj p).kind = .native) := by
  unfold sourceOf; split <;> simp_all [isSource]

theorem sourceOf_rest (s : State) (p : Nat) : (sourceOf s p).running = false ∧ ((sourceOf s p).kind = .nativeSource → (sourceOf s p).weak = [p]) := by
  unfold sourceOf; split <;> simp_all

theorem Inv.create_source {s : State} (h : Inv [] s) {p : Nat} (hp : (s.obj p).status = .alive) (hk : isProvider (s.obj p).kind = true) : Inv [s.next] (s.create (sourceOf s p)) := by
  have hs := sourceOf_kind s p
  refine h.create ?_ ?_ ?_ ?_ ?_ ?_ ?_
  · intro o ho
    revert ho
    unfold sourceOf
    split
    · intro ho; cases ho
    · next e =>
      intro ho
      rcases List.mem_cons.1 ho with rfl | ho
      · exact ⟨hp, by rw [e]; rfl⟩
      · have := h.edge p o ho
        rw [e] at this
        refine ⟨this.1, ?_⟩
        cases e2 : (s.obj o).kind <;> simp_all [mayOwn]
    · next e1 e2 =>
      intro ho
      rcases List.mem_singleton.1 ho with rfl
      refine ⟨hp, ?_⟩
      cases e3 : (s.obj o).kind <;> simp_all [mayOwn, isProvider]
  · intro e; rw [(sourceOf_rest s p).1] at e; cases e
  · intro e; rw [e] at hs; cases hs.1
  · intro e q hq
    rw [(sourceOf_rest s p).2 e] at hq
    rcases List.mem_singleton.1 hq with rfl
    exact hs.2.1 e
  · intro o ho
    revert ho
    unfold sourceOf
    split
    · intro ho; cases ho
    · next e =>
      intro ho
      rcases List.mem_cons.1 ho with rfl | ho
      · rw [e]; decide
      · have := (h.edge p o ho).2
        rw [e] at this
        intro e2; rw [e2] at this; cases this
    · intro ho e3
      rcases List.mem_singleton.1 ho with rfl
      rw [e3] at hk; cases hk
  · rintro (e | e) <;> · rw [e] at hs; cases hs.1
  · unfold sourceOf
    split
    · exact ⟨fun _ => ⟨p, rfl⟩, (fun e => by cases e), fun e => by cases e⟩
    · next e => exact ⟨(fun e => by cases e), (fun e => by cases e), fun _ => ⟨p, List.mem_cons_self, e⟩⟩
    · refine ⟨(fun e => by cases e), (fun _ => ⟨p, List.mem_cons_self, ?_⟩), fun e => by cases e⟩
      cases e3 : (s.obj p).kind <;> simp_all [isProvider]

theorem Inv.register {s : State} (h : Inv [] s) {p src : Nat} (hp : (s.obj p).status = .alive) (hs : (s.obj src).status = .alive) (hk : (s.obj p).kind = .native → (s.obj src).kind = .nativeSource) :
    Inv [] (register s p src) := by
  unfold Ownership.register; split
  · next e =>
    refine (h.mono (fun _ h => by cases h)).own hs (by rw [hp]; decide) (by rw [e, hk e]; rfl) (fun e2 => ?_) (fun _ => ⟨(fun e2 => ?_), fun e2 => ?_⟩)
    · rw [hk e] at e2; cases e2
    · rw [e] at e2; cases e2
    · rw [e] at e2; cases e2
  · exact h

theorem Inv.takeSource {s : State} (h : Inv [] s) {t p : Nat} (hp : (s.obj p).status = .alive) (hk : isProvider (s.obj p).kind = true) : Inv [] (takeSource (.program t) s p) := by
  have h1 := h.create_source hp hk
  have en := create_next s (sourceOf s p)
  have hg := h.grows_create (sourceOf s p)
  have hpn : (s.obj p).status ≠ .gone := by rw [hp]; decide
  have hs := sourceOf_kind s p
  have h2 : Inv [] ((s.create (sourceOf s p)).hold (.program t) s.next) := h1.hold (by rw [en]) (.program (by rw [en]; intro (e : (sourceOf s p).kind = _); rw [e] at hs; cases hs.1))
  refine h2.register ?_ ?_ ?_
  · show ((s.create (sourceOf s p)).obj p).status = _
    rw [hg.status p hpn]; exact hp
  · show ((s.create (sourceOf s p)).obj s.next).status = _
    rw [en]
  · show ((s.create (sourceOf s p)).obj p).kind = _ → ((s.create (sourceOf s p)).obj s.next).kind = _
    rw [hg.kind p hpn, en]; exact hs.2.2

/-- `x` is a session whose server owns `p`, or a recorder that owns it. -/
def Has (s : State) (x p : Nat) : Prop :=
  (s.obj x).kind = .session ∧ p ∈ (s.obj (s.obj x).backend).refs ∨ (s.obj x).kind = .recorder ∧ p ∈ (s.obj x).refs

theorem refs_live {L : List Nat} {s : State} (h : Inv L s) {x o : Nat} (ho : o ∈ (s.obj x).refs) : (s.obj x).status ≠ .gone := fun e => by rw [(h.gone x e).1] at ho; cases ho

theorem Has.grow {L : List Nat} {s s' : State} (h : Inv L s) (g : Grows s s') {x p : Nat} (hx : (s.obj x).status ≠ .gone) (hh : Has s x p) : Has s' x p := by
  rcases hh with ⟨h1, h2⟩ | ⟨h1, h2⟩
  · refine .inl ⟨by rw [g.kind x hx]; exact h1, ?_⟩
    rw [g.backend x hx]; exact g.refs _ (refs_live h h2) _ h2
  · exact .inr ⟨by rw [g.kind x hx]; exact h1, g.refs x hx _ h2⟩

theorem Inv.attachSource {s : State} (h : Inv [] s) {x p : Nat} (hx : (s.obj x).status = .alive) (hh : Has s x p) (hk : isProvider (s.obj p).kind = true) :
    Inv [] (attachSource x s p) ∧ Grows s (attachSource x s p) := by
  have hp : (s.obj p).status = .alive := by
    rcases hh with ⟨_, h2⟩ | ⟨_, h2⟩
    · exact (h.edge _ p h2).1
    · exact (h.edge _ p h2).1
  have hpn : (s.obj p).status ≠ .gone := by rw [hp]; decide
  have hxn : (s.obj x).status ≠ .gone := by rw [hx]; decide
  have h1 := h.create_source hp hk
  have en := create_next s (sourceOf s p)
  have hg := h.grows_create (sourceOf s p)
  have hg2 := grows_own (s.create (sourceOf s p)) x s.next
  have hs := sourceOf_kind s p
  have hh' : Has (s.create (sourceOf s p)) x p := hh.grow h hg hxn
  have h2 : Inv [] ((s.create (sourceOf s p)).own x s.next) := by
    refine h1.own (by rw [en]) (by rw [hg.status x hxn]; exact hxn) ?_ ?_ ?_
    · rw [en]
      rcases hh' with ⟨e, _⟩ | ⟨e, _⟩
      · rw [e]; exact hs.1
      · rw [e]; simp only [mayOwn, hs.1, Bool.or_true]
    · rw [en]; intro (e : (sourceOf s p).kind = _); rw [e] at hs; cases hs.1
    · rw [en]
      intro (e : (sourceOf s p).kind = _)
      have hw := (sourceOf_rest s p).2 e
      refine ⟨(fun e2 q hq => ?_), fun e2 q hq => ?_⟩
      · have hq : q ∈ (sourceOf s p).weak := hq
        rw [hw] at hq
        rcases List.mem_singleton.1 hq with rfl
        rcases hh' with ⟨_, h3⟩ | ⟨e3, _⟩
        · exact h3
        · rw [e2] at e3; cases e3
      · have hq : q ∈ (sourceOf s p).weak := hq
        rw [hw] at hq
        rcases List.mem_singleton.1 hq with rfl
        rcases hh' with ⟨e3, _⟩ | ⟨_, h3⟩
        · rw [e2] at e3; cases e3
        · exact h3
  have hg3 : Grows s ((s.create (sourceOf s p)).own x s.next) := hg.trans hg2
  have hnn : ((s.create (sourceOf s p)).obj s.next).status ≠ .gone := by rw [en]; intro e; cases e
  refine ⟨h2.register ?_ ?_ ?_, hg3.trans (grows_register _ _ _)⟩
  · rw [hg3.status p hpn]; exact hp
  · rw [hg2.status s.next hnn, en]
  · rw [hg3.kind p hpn, hg2.kind s.next hnn, en]; exact hs.2.2

theorem Inv.attachAll (x : Nat) (ps : List Nat) {s : State} (h : Inv [] s) (hx : (s.obj x).status = .alive) (hh : ∀ p ∈ ps, Has s x p ∧ isProvider (s.obj p).kind = true ∧ (s.obj p).status = .alive) :
    Inv [] (ps.foldl (Ownership.attachSource x) s) ∧ Grows s (ps.foldl (Ownership.attachSource x) s) := by
  induction ps generalizing s with
  | nil => exact ⟨h, .refl s⟩
  | cons p ps ih =>
    have h1 := h.attachSource hx (hh p List.mem_cons_self).1 (hh p List.mem_cons_self).2.1
    have hxn : (s.obj x).status ≠ .gone := by rw [hx]; decide
    have h2 := ih h1.1 (by rw [h1.2.status x hxn]; exact hx) fun q hq => by
      have h3 := hh q (List.mem_cons_of_mem _ hq)
      have hq' : (s.obj q).status ≠ .gone := by rw [h3.2.2]; decide
      exact ⟨h3.1.grow h h1.2 hxn, by rw [h1.2.kind q hq']; exact h3.2.1, by rw [h1.2.status q hq']; exact h3.2.2⟩
    exact ⟨h2.1, h1.2.trans h2.2⟩

theorem mem_providers {s : State} {x p : Nat} : p ∈ s.providers x ↔ p ∈ (s.obj x).refs ∧ isProvider (s.obj p).kind = true := by
  simp [State.providers]

/-- Giving up references changes the states of objects only. -/
theorem settle_same (u : Thread) (os : List Nat) (s : State) : (settle u os s).held = s.held ∧ (settle u os s).next = s.next ∧ (settle u os s).terminated = s.terminated ∧
    ∀ y, ((settle u os s).obj y).kind = (s.obj y).kind ∧ ((settle u os s).obj y).refs = (s.obj y).refs ∧ ((settle u os s).obj y).backend = (s.obj y).backend ∧
      ((settle u os s).obj y).weak = (s.obj y).weak ∧ ((settle u os s).obj y).running = (s.obj y).running := by
  induction os generalizing s with
  | nil => exact ⟨rfl, rfl, rfl, fun _ => ⟨rfl, rfl, rfl, rfl, rfl⟩⟩
  | cons o os ih =>
    simp only [settle]
    split
    · obtain ⟨h1, h2, h3, h4⟩ := ih { s.upd o { s.obj o with status := .dying } with todo := s.todo ++ [(u, o)] }
      refine ⟨h1, h2, h3, fun y => ?_⟩
      obtain ⟨a, b, c, d, e⟩ := h4 y
      have hr : ((s.upd o { s.obj o with status := .dying }).obj y).refs = (s.obj y).refs := by
        rw [upd_refs]; split
        · next e => rw [e]
        · rfl
      exact ⟨a.trans (upd_kind s o { s.obj o with status := .dying } rfl y), b.trans hr, c.trans (upd_backend s o { s.obj o with status := .dying } rfl y),
        d.trans (upd_weak s o { s.obj o with status := .dying } rfl y), e.trans (upd_running s o { s.obj o with status := .dying } rfl y)⟩
    · exact ih s

theorem Inv.step {s s' : State} (h : Inv [] s) {a : Act} (hs : step s a = some s') : Inv [] s' := by
  have en : s.obj s.next = {} := h.fresh _ (Nat.le_refl _)
  cases a with
  | makeManager t =>
    simp only [Ownership.step, Option.some.injEq] at hs; subst hs
    refine (h.create ?_ ?_ ?_ ?_ ?_ ?_ ?_).hold (by rw [create_next]) (.program (by rw [create_next]; exact fun e => by cases e)) <;> simp
  | makeGeneral t m =>
    simp only [Ownership.step] at hs
    split at hs <;> simp only [Option.some.injEq, reduceCtorEq] at hs
    next hc =>
    subst hs
    have hm := h.held _ (uses_program hc.1)
    refine (h.create ?_ ?_ ?_ ?_ ?_ ?_ ?_).hold (by rw [create_next]) (.program (by rw [create_next]; exact fun e => by cases e))
    · intro o ho; rcases List.mem_singleton.1 ho with rfl; exact ⟨hm.1, by rw [hc.2]; rfl⟩
    · simp
    · simp
    · simp
    · intro o ho; rcases List.mem_singleton.1 ho with rfl; rw [hc.2]; decide
    · simp
    · simp
  | makeNative t m =>
    simp only [Ownership.step] at hs
    split at hs <;> simp only [Option.some.injEq, reduceCtorEq] at hs
    subst hs
    refine (h.create ?_ ?_ ?_ ?_ ?_ ?_ ?_).hold (by rw [create_next]) (.program (by rw [create_next]; exact fun e => by cases e)) <;> simp
  | makeLttng t m =>
    simp only [Ownership.step] at hs
    split at hs <;> simp only [Option.some.injEq, reduceCtorEq] at hs
    subst hs
    have h1 : Inv [s.next] (s.create { kind := .tool, running := true }) := by
      refine h.create ?_ ?_ ?_ ?_ ?_ ?_ ?_ <;> simp [hasThread]
    have e1 := create_next s { kind := .tool, running := true }
    have hne : (s.create { kind := .tool, running := true }).next = s.next + 1 := rfl
    have h2 : Inv [s.next + 1, s.next] ((s.create { kind := .tool, running := true }).create { kind := .lttng, refs := [s.next], weak := [m] }) := by
      refine h1.create ?_ ?_ ?_ ?_ ?_ ?_ ?_
      · intro o ho; rcases List.mem_singleton.1 ho with rfl; rw [e1]; exact ⟨rfl, rfl⟩
      · simp
      · simp
      · simp
      · intro o ho; rcases List.mem_singleton.1 ho with rfl; rw [e1]; decide
      · simp
      · simp
    have e2 : ((s.create { kind := .tool, running := true }).create { kind := .lttng, refs := [s.next], weak := [m] }).obj (s.next + 1) = _ := create_next (s.create { kind := .tool, running := true }) _
    have h3 := h2.hold (u := .program t) (by rw [e2]) (.program (by rw [e2]; exact fun e => by cases e))
    exact h3.forget (.inr ⟨s.next + 1, by show s.next ∈ (((s.create _).create _).obj (s.next + 1)).refs; rw [e2]; exact List.mem_cons_self⟩)
  | makeServer t r =>
    simp only [Ownership.step, Option.some.injEq] at hs; subst hs
    refine (h.create ?_ ?_ ?_ ?_ ?_ ?_ ?_).hold (by rw [create_next]) (.program (by rw [create_next]; cases r <;> decide)) <;> cases r <;> simp
  | addFactory t m p =>
    simp only [Ownership.step] at hs
    split at hs <;> simp only [Option.some.injEq, reduceCtorEq] at hs
    next hc =>
    subst hs
    have := h.change (x := m) (v := { s.obj m with weak := p :: (s.obj m).weak }) (h.uses_live hc.1) rfl rfl rfl (fun _ => true) (List.filter_eq_self.2 fun _ _ => rfl).symm (fun _ _ _ => rfl) (by rw [hc.2.2.1]; rfl) (h.threads m) (.inl rfl)
    rwa [List.filter_eq_nil_iff.2 (fun _ _ => by simp)] at this
  | addProvider t x p =>
    simp only [Ownership.step] at hs
    split at hs <;> simp only [Option.some.injEq, reduceCtorEq] at hs
    next hc =>
    subst hs
    have hp := h.held _ (uses_program hc.2.1)
    have hk := hc.2.2.2
    refine (h.mono (fun _ h => by cases h)).own hp.1 (h.uses_live hc.1) ?_ ?_ ?_
    · rcases hc.2.2.1 with e | e <;> rw [e] <;> simp [mayOwn, hk]
    · intro e; rw [e] at hk; cases hk
    · intro e; rw [e] at hk; cases hk
  | makeSource t p =>
    simp only [Ownership.step] at hs
    split at hs <;> simp only [Option.some.injEq, reduceCtorEq] at hs
    next hc =>
    subst hs
    exact h.takeSource (h.held _ (uses_program hc.1)).1 hc.2
  | start t x =>
    simp only [Ownership.step] at hs
    split at hs
    case isFalse => cases hs
    next hc =>
    have hx := uses_program hc.1
    have h1 := h.change (x := x) (v := { s.obj x with running := true, refs := (s.obj x).refs.filter fun o => !isSource (s.obj o).kind }) (h.uses_live hc.1) rfl rfl rfl
      (fun o => !isSource (s.obj o).kind) rfl (fun p _ e => by rw [e]; rfl) (by have := hc.2.1; revert this; cases (s.obj x).kind <;> simp [starts, isSource]) (fun _ => by have := hc.2.1; revert this; cases (s.obj x).kind <;> simp [starts, hasThread]) (.inr (.inl rfl))
    simp only [Bool.not_not] at h1
    have h2 : Inv [] (Ownership.settle (.program t) ((s.obj x).refs.filter fun o => isSource (s.obj o).kind) (s.upd x { s.obj x with running := true, refs := (s.obj x).refs.filter fun o => !isSource (s.obj o).kind })) :=
      h1.settle (u := .program t) _ fun o ho => .program (by
        rw [upd_kind]
        · intro e; have := (List.mem_filter.1 ho).2; simp only [e] at this; cases this
        · rfl)
    generalize hs1 : Ownership.settle (.program t) ((s.obj x).refs.filter fun o => isSource (s.obj o).kind) (s.upd x { s.obj x with running := true, refs := (s.obj x).refs.filter fun o => !isSource (s.obj o).kind }) = s1 at hs h2
    have hsm := settle_same (.program t) ((s.obj x).refs.filter fun o => isSource (s.obj o).kind) (s.upd x { s.obj x with running := true, refs := (s.obj x).refs.filter fun o => !isSource (s.obj o).kind })
    rw [hs1] at hsm
    split at hs <;> simp only [Option.some.injEq] at hs
    · next e =>
      subst hs
      have hx1 : (.program t, x) ∈ s1.held := by rw [hsm.1]; exact hx
      have hk1 : (s1.obj x).kind = .recorder := by rw [(hsm.2.2.2 x).1, upd_kind]; exact e; rfl
      refine (h2.attachAll x _ (h2.held _ hx1).1 fun p hp => ?_).1
      rw [mem_providers] at hp
      exact ⟨.inr ⟨hk1, hp.1⟩, hp.2, (h2.edge x p hp.1).1⟩
    · subst hs; exact h2
  | stop t x =>
    simp only [Ownership.step] at hs
    split at hs <;> simp only [Option.some.injEq, reduceCtorEq] at hs
    next hc =>
    subst hs
    have := h.change (x := x) (v := { s.obj x with running := false }) (h.uses_live hc.1) rfl rfl rfl (fun _ => true) (List.filter_eq_self.2 fun _ _ => rfl).symm (fun _ _ _ => rfl) (by rcases hc.2.1 with e | e <;> rw [e] <;> rfl) (fun e => by cases e) (.inr (.inr hc.2.2))
    rwa [List.filter_eq_nil_iff.2 (fun _ _ => by simp)] at this
  | give t t' o =>
    simp only [Ownership.step] at hs
    split at hs <;> simp only [Option.some.injEq, reduceCtorEq] at hs
    next hc =>
    subst hs
    have ho := h.held _ (uses_program hc)
    exact (h.mono (fun _ h => by cases h)).hold ho.1 (.program fun e => by have := ho.2.ses e; cases this)
  | discover u m =>
    simp only [Ownership.step] at hs
    split at hs <;> simp only [Option.some.injEq, reduceCtorEq] at hs
    next hc =>
    subst hs
    have h1 : Inv [s.next] (s.create { kind := .transport, running := true }) := by
      refine h.create ?_ ?_ ?_ ?_ ?_ ?_ ?_ <;> simp [hasThread]
    have hg := h.grows_create { kind := .transport, running := true }
    have hm := h.uses_live hc.1
    refine h1.own (by rw [create_next]) (by rw [hg.status m hm]; exact hm) (by rw [hg.kind m hm, create_next, hc.2]; rfl) ?_ ?_ <;> rw [create_next] <;> simp
  | endpoint u m tr nat =>
    simp only [Ownership.step] at hs
    split at hs <;> simp only [Option.some.injEq, reduceCtorEq] at hs
    next hc =>
    subst hs
    have h1 : Inv [s.next] (s.create { kind := .endpoint, weak := nat.toList }) := by
      refine h.create ?_ ?_ ?_ ?_ ?_ ?_ ?_ <;> simp
    have hg := h.grows_create { kind := .endpoint, weak := nat.toList }
    have hm := h.uses_live hc.1
    have ht : (s.obj tr).status ≠ .gone := by rw [(h.edge m tr hc.2.2.1).1]; decide
    have h2 : Inv [] ((s.create { kind := .endpoint, weak := nat.toList }).own tr s.next) := by
      refine h1.own (by rw [create_next]) (by rw [hg.status tr ht]; exact ht) (by rw [hg.kind tr ht, create_next, hc.2.2.2.1]; rfl) ?_ ?_ <;> rw [create_next] <;> simp
    have hg2 := grows_own (s.create { kind := .endpoint, weak := nat.toList }) tr s.next
    have hnn : ((s.create { kind := .endpoint, weak := nat.toList }).obj s.next).status ≠ .gone := by rw [create_next]; intro e; cases e
    have ek := hg2.kind s.next hnn
    rw [create_next] at ek
    refine (h2.mono (fun _ h => by cases h)).own (by rw [hg2.status _ hnn, create_next]) (by rw [(hg.trans hg2).status m hm]; exact hm) (by rw [(hg.trans hg2).kind m hm, ek, hc.2.1]; rfl) ?_ ?_ <;> rw [ek] <;> simp
  | lose u m tr =>
    simp only [Ownership.step] at hs
    split at hs <;> simp only [Option.some.injEq, reduceCtorEq] at hs
    next hc =>
    subst hs
    have hrk : ∀ y, u = .of y → (s.obj y).running = true ∧ 4 ≤ rank (s.obj y).kind := fun y e => by
      subst e
      have h1 := h.uses_rank hc.1
      rw [hc.2.1] at h1
      refine ⟨h1.1, ?_⟩
      rcases h1.2 with e | e
      · rw [e, hc.2.1]; decide
      · exact Nat.le_of_lt e
    have hmay : May s u tr := ⟨fun y e => ⟨(hrk y e).1, by rw [hc.2.2.2]; exact Nat.lt_of_lt_of_le (by decide) (hrk y e).2⟩, fun e => by rw [hc.2.2.2] at e; cases e⟩
    have h1 : Inv [] (s.hold u tr) := (h.mono (fun _ h => by cases h)).hold (h.edge m tr hc.2.2.1).1 hmay
    have h2 := h1.change (x := m) (v := { s.obj m with refs := (s.obj m).refs.filter fun o => !(o == tr || (s.obj tr).refs.contains o) }) (h.uses_live hc.1) rfl rfl rfl
      (fun o => !(o == tr || (s.obj tr).refs.contains o)) rfl (fun p hp e => by have h3 := (h.edge m p hp).2; rw [hc.2.1, show (s.obj p).kind = _ from e] at h3; cases h3) (by show isSource (s.obj m).kind = false; rw [hc.2.1]; rfl) (h.threads m) (.inl rfl)
    have h3 := h2.mono (L' := tr :: ((s.obj tr).refs ++ [])) fun o ho => by
      simp only [State.hold, Bool.not_not, List.append_nil, List.mem_filter, Bool.or_eq_true, beq_iff_eq, List.contains_iff_mem] at ho
      rcases ho.2 with e | e
      · rw [e]; exact List.mem_cons_self
      · exact List.mem_cons_of_mem _ (List.mem_append_left _ e)
    have h4 := h3.forget (.inl ⟨(u, tr), List.mem_cons_self, rfl⟩)
    refine h4.settle _ fun o ho => ?_
    have ho' := (h.edge tr o ho).2
    rw [hc.2.2.2] at ho'
    have hok : (s.obj o).kind = .endpoint := by revert ho'; cases (s.obj o).kind <;> simp [mayOwn]
    have : May s u o := ⟨fun y e => ⟨(hrk y e).1, by rw [hok]; exact Nat.lt_of_lt_of_le (by decide) (hrk y e).2⟩, fun e => by rw [hok] at e; cases e⟩
    exact this.congr (upd_kind (s.hold u tr) m { s.obj m with refs := (s.obj m).refs.filter fun o => !(o == tr || (s.obj tr).refs.contains o) } rfl)
      (upd_backend (s.hold u tr) m { s.obj m with refs := (s.obj m).refs.filter fun o => !(o == tr || (s.obj tr).refs.contains o) } rfl) fun z _ hz =>
        (upd_running (s.hold u tr) m { s.obj m with refs := (s.obj m).refs.filter fun o => !(o == tr || (s.obj tr).refs.contains o) } rfl z).trans hz
  | connect x =>
    simp only [Ownership.step] at hs
    split at hs <;> simp only [Option.some.injEq, reduceCtorEq] at hs
    next hc =>
    subst hs
    have h1 : Inv [s.next] (s.create { kind := .session, running := true, backend := x }) := by
      refine h.create ?_ ?_ ?_ ?_ ?_ ?_ ?_ <;> simp [hasThread, hc.2]
    have hx : (s.obj x).status ≠ .gone := fun e => by rw [(h.gone x e).2] at hc; cases hc.1
    have hg := h.grows_create { kind := .session, running := true, backend := x }
    have hxn : x ≠ s.next := Nat.ne_of_lt (h.alive_lt hx)
    have hg2 := grows_own (s.create { kind := .session, running := true, backend := x }) x s.next
    have hgg := hg.trans hg2
    have hnn : ((s.create { kind := .session, running := true, backend := x }).obj s.next).status ≠ .gone := by rw [create_next]; intro e; cases e
    have ec := create_next s { kind := .session, running := true, backend := x }
    have h2 : Inv [] ((s.create { kind := .session, running := true, backend := x }).own x s.next) := by
      refine h1.own (by rw [ec]) (by rw [hg.status x hx]; exact hx) (by rw [hg.kind x hx, ec, hc.2]; rfl) ?_ ?_ <;> rw [ec]
      · intro _
        refine ⟨rfl, ?_⟩
        have : (s.create { kind := .session, running := true, backend := x }).obj x = s.obj x := by simp [State.create, State.upd, hxn]
        rw [this]; exact hc.1
      · simp
    refine (h2.attachAll s.next _ (by rw [hg2.status _ hnn, ec]) fun p hp => ?_).1
    rw [mem_providers] at hp
    have hpa := (h.edge x p hp.1).1
    have hpn : (s.obj p).status ≠ .gone := by rw [hpa]; decide
    refine ⟨.inl ⟨by rw [hg2.kind _ hnn, ec], ?_⟩, by rw [hgg.kind p hpn]; exact hp.2, by rw [hgg.status p hpn]; exact hpa⟩
    rw [hg2.backend _ hnn, ec]; exact hgg.refs x hx p hp.1
  | disconnect x y =>
    simp only [Ownership.step] at hs
    split at hs <;> simp only [Option.some.injEq, reduceCtorEq] at hs
    next hc =>
    subst hs
    have hx : (s.obj x).status ≠ .gone := fun e => by rw [(h.gone x e).2] at hc; cases hc.1
    have h1 := h.change (x := x) (v := { s.obj x with refs := (s.obj x).refs.filter fun o => !(o == y) }) hx rfl rfl rfl (fun o => !(o == y)) rfl
      (fun p _ e => by
        have : p ≠ y := fun e2 => by rw [e2, hc.2.2.2] at e; cases e
        simpa using this) (by rw [hc.2.1]; rfl) (h.threads x) (.inl rfl)
    have h2 := h1.mono (L' := [y] ++ []) fun o ho => by
      simp only [Bool.not_not, List.append_nil, List.mem_filter, beq_iff_eq] at ho
      rw [ho.2]; exact List.mem_cons_self
    refine h2.settle _ fun o ho => ?_
    rcases List.mem_singleton.1 ho with rfl
    have : May s (.of x) o := ⟨fun z e => by cases e; exact ⟨hc.1, by rw [hc.2.1, hc.2.2.2]; decide⟩, fun e => by rw [(h.sRef x o hc.2.2.1 e).1]⟩
    exact this.congr (upd_kind s x { s.obj x with refs := (s.obj x).refs.filter fun p => !(p == o) } rfl) (upd_backend s x { s.obj x with refs := (s.obj x).refs.filter fun p => !(p == o) } rfl) fun z _ hz =>
      (upd_running s x { s.obj x with refs := (s.obj x).refs.filter fun p => !(p == o) } rfl z).trans hz
  | copy u z path o =>
    simp only [Ownership.step] at hs
    split at hs <;> simp only [Option.some.injEq, reduceCtorEq] at hs
    next hc =>
    subst hs
    obtain ⟨w, hw, hwz⟩ := h.leads_last hc.2.1
    have hr := rank_lt (h.edge w o hw).2
    refine (h.mono (fun _ h => by cases h)).hold (h.edge w o hw).1 ⟨fun y e => ?_, fun e => ?_⟩
    · subst e
      have h1 := h.uses_rank hc.1
      refine ⟨h1.1, ?_⟩
      rcases h1.2 with rfl | h2 <;> rcases hwz with rfl | h3 <;> omega
    · have hu := hc.2.2 e
      cases u with
      | program t => cases hu
      | of y =>
        have h1 := h.uses_rank hc.1
        have h2 := h.sRef w o hw e
        have h4 := (h.edge w o hw).2
        rw [e] at h4
        have h5 : rank (s.obj w).kind = 8 := by revert h4; cases (s.obj w).kind <;> simp [mayOwn, isSource, isProvider, rank]
        have h6 := rank_le (s.obj y).kind
        have h7 := rank_le (s.obj z).kind
        have : w = y := by
          rcases h1.2 with rfl | h2 <;> rcases hwz with rfl | h3 <;> first | rfl | omega
        rw [h2.1, this]
  | lock u z path w =>
    simp only [Ownership.step] at hs
    split at hs <;> simp only [Option.some.injEq, reduceCtorEq] at hs
    next hc =>
    subst hs
    obtain ⟨h1, h2, h3, h4, h5⟩ := hc
    refine (h.mono (fun _ h => by cases h)).hold h4 ⟨fun y e => ?_, fun e => ?_⟩
    · subst e
      have hu := h.uses_rank h1
      refine ⟨hu.1, ?_⟩
      have ht := h.threads y hu.1
      simp only [mayLock] at h5
      split at h5
      · next e => rw [e]; revert ht; cases (s.obj y).kind <;> simp [hasThread, rank]
      · next e => cases e
      · next e e2 => cases e2; rw [e, beq_iff_eq.1 h5]; decide
      · cases h5
    · simp only [mayLock, e] at h5
      cases u <;> cases h5
  | drop u o =>
    simp only [Ownership.step] at hs
    split at hs <;> simp only [Option.some.injEq, reduceCtorEq] at hs
    next hc =>
    subst hs
    refine (h.unhold u o).settle [o] fun p hp => ?_
    rcases List.mem_singleton.1 hp with rfl
    exact ⟨(h.held _ hc).2.thr, (h.held _ hc).2.ses⟩
  | destroy u o =>
    simp only [Ownership.step] at hs
    split at hs
    case isFalse => cases hs
    next hc =>
    have hm := (h.todo _ hc).2
    split at hs
    · next h1 =>
      have := (hm.thr o h1.2).2
      exact absurd this (Nat.lt_irrefl _)
    · split at hs <;> simp only [Option.some.injEq, reduceCtorEq] at hs
      next h1 =>
      subst hs
      have hi : (s.obj o).running = false ∨ s.idle o = true := by
        cases e : (s.obj o).running with
        | false => exact .inl rfl
        | true =>
          cases e2 : s.idle o with
          | true => exact .inr rfl
          | false => exact absurd ⟨e, e2⟩ h1
      have h2 := h.end_ hc hi
      refine (h2.mono (L' := (s.obj o).refs ++ []) (by simp)).settle _ fun p hp => ?_
      have hpo := rank_lt (h.edge o p hp).2
      have : May s u p := ⟨fun z e => ⟨(hm.thr z e).1, Nat.lt_trans hpo (hm.thr z e).2⟩, fun e => by
        have h3 := h.sRef o p hp e
        rcases hi with hi | hi
        · rw [hi] at h3; cases h3.2
        · simp only [State.idle, Bool.and_eq_true, Bool.not_eq_true', List.any_eq_false, beq_iff_eq] at hi
          exact absurd e (hi.2 p hp)⟩
      refine this.congr (upd_kind s o { kind := (s.obj o).kind, backend := (s.obj o).backend } rfl) (upd_backend s o { kind := (s.obj o).kind, backend := (s.obj o).backend } rfl) fun z e hz => ?_
      have hzo : z ≠ o := fun e2 => by have := (hm.thr z e).2; rw [e2] at this; exact Nat.lt_irrefl _ this
      simp only [State.upd, if_neg hzo]; exact hz

theorem Inv.run {l : List Act} {s s' : State} (h : Inv [] s) (hr : run s l = some s') : Inv [] s' := by
  induction l generalizing s with
  | nil => cases hr; exact h
  | cons a l ih =>
    simp only [Ownership.run, Option.bind_eq_some_iff] at hr
    obtain ⟨s1, h1, h2⟩ := hr
    exact ih (h.step h1) h2

/-! ## Destructors end -/

theorem sum_le {l : List Nat} {f g : Nat → Nat} (h : ∀ x ∈ l, f x ≤ g x) : (l.map f).sum ≤ (l.map g).sum := by
  induction l with
  | nil => exact Nat.le_refl _
  | cons a l ih =>
    simp only [List.map_cons, List.sum_cons]
    exact Nat.add_le_add (h a List.mem_cons_self) (ih fun x hx => h x (List.mem_cons_of_mem _ hx))

theorem sum_lt {l : List Nat} {f g : Nat → Nat} (h : ∀ x ∈ l, f x ≤ g x) {a : Nat} (ha : a ∈ l) (hl : f a < g a) : (l.map f).sum < (l.map g).sum := by
  induction l with
  | nil => cases ha
  | cons b l ih =>
    simp only [List.map_cons, List.sum_cons]
    have h1 := h b List.mem_cons_self
    have h2 := sum_le fun x hx => h x (List.mem_cons_of_mem _ hx)
    rcases List.mem_cons.1 ha with rfl | ha
    · omega
    · have := ih (fun x hx => h x (List.mem_cons_of_mem _ hx)) ha; omega

theorem settle_le (u : Thread) (os : List Nat) (s : State) : ∀ y, weight ((settle u os s).obj y).status ≤ weight (s.obj y).status := by
  induction os generalizing s with
  | nil => intro y; exact Nat.le_refl _
  | cons o os ih =>
    intro y
    simp only [settle]
    split
    · next hc =>
      refine Nat.le_trans (ih _ y) ?_
      show weight ((s.upd o { s.obj o with status := .dying }).obj y).status ≤ _
      simp only [State.upd]; split
      · next e => rw [e, hc.1]; show weight .dying ≤ weight .alive; decide
      · exact Nat.le_refl _
    · exact ih s y

theorem settle_left (u : Thread) (os : List Nat) (s : State) : (settle u os s).left ≤ s.left := by
  have h := settle_same u os s
  simp only [State.left, State.sum, h.1, h.2.1]
  refine Nat.add_le_add_left (sum_le fun x _ => ?_) _
  rw [(h.2.2.2 x).2.1]
  exact Nat.add_le_add_right (settle_le u os s x) _

theorem Inv.cleanup_left {s s' : State} (h : Inv [] s) {a : Act} (ha : isCleanup a = true) (hs : Ownership.step s a = some s') : s'.left < s.left := by
  cases a with
  | drop u o =>
    simp only [Ownership.step] at hs
    split at hs <;> simp only [Option.some.injEq, reduceCtorEq] at hs
    next hc =>
    subst hs
    refine Nat.lt_of_le_of_lt (settle_left _ _ _) ?_
    have h1 : (s.held.erase (u, o)).length < s.held.length := by
      rw [List.length_erase_of_mem hc]
      have := List.length_pos_of_mem hc; omega
    simp only [State.left, State.sum]; omega
  | destroy u o =>
    simp only [Ownership.step] at hs
    split at hs
    case isFalse => cases hs
    next hc =>
    have ht := h.todo _ hc
    split at hs
    · next h1 => exact absurd (ht.2.thr o h1.2).2 (Nat.lt_irrefl _)
    · split at hs <;> simp only [Option.some.injEq, reduceCtorEq] at hs
      subst hs
      refine Nat.lt_of_le_of_lt (settle_left _ _ _) ?_
      simp only [State.left, State.sum]
      refine Nat.add_lt_add_left (sum_lt (a := o) (fun x _ => ?_) (List.mem_range.2 (h.alive_lt (by rw [ht.1]; decide))) ?_) _
      · simp only [State.upd]; split
        · exact Nat.zero_le _
        · exact Nat.le_refl _
      · simp only [State.upd, if_pos, ht.1, weight, List.length_nil]; omega
  | disconnect x y =>
    simp only [Ownership.step] at hs
    split at hs <;> simp only [Option.some.injEq, reduceCtorEq] at hs
    next hc =>
    subst hs
    refine Nat.lt_of_le_of_lt (settle_left _ _ _) ?_
    simp only [State.left, State.sum]
    refine Nat.add_lt_add_left (sum_lt (a := x) (fun z _ => ?_) (List.mem_range.2 (h.alive_lt (refs_live h hc.2.2.1))) ?_) _
    · simp only [State.upd]; split
      · next e => subst e; exact Nat.add_le_add_left (List.length_filter_le _ _) _
      · exact Nat.le_refl _
    · simp only [State.upd, if_pos]
      refine Nat.add_lt_add_left (List.length_filter_lt_length_iff_exists.2 ⟨y, hc.2.2.1, by simp⟩) _
  | _ => cases ha

/-- While a destructor has not ended, something can be given up. -/
theorem Inv.progress {s : State} (h : Inv [] s) : ∀ (n : Nat) {u : Thread} {o : Nat}, rank (s.obj o).kind ≤ n → (u, o) ∈ s.todo → ∃ a s', isCleanup a = true ∧ Ownership.step s a = some s' := by
  intro n
  induction n with
  | zero => intro u o hr _; revert hr; cases (s.obj o).kind <;> simp [rank]
  | succ n ih =>
    intro u o hr ht
    have hm := (h.todo _ ht).2
    have hne : ¬ ((s.obj o).running = true ∧ u = .of o) := fun e => absurd (hm.thr o e.2).2 (Nat.lt_irrefl _)
    by_cases hb : (s.obj o).running = true ∧ s.idle o = false
    · have hi := hb.2
      rw [State.idle, Bool.and_eq_false_iff, Bool.and_eq_false_iff] at hi
      simp only [Bool.not_eq_false', List.any_eq_true, beq_iff_eq] at hi
      rcases hi with (⟨k, hk, e⟩ | ⟨k, hk, e⟩) | ⟨y, hy, e⟩
      · exact ⟨.drop k.1 k.2, _, by rw [e]; rfl, by simp only [Ownership.step]; rw [if_pos hk]⟩
      · have h1 := (h.todo k hk).2.thr o e
        exact ih (by omega) (u := k.1) (o := k.2) hk
      · have hs : (s.obj o).kind = .server := by
          have := (h.edge o y hy).2
          rw [e] at this
          have h2 := h.sRef o y hy e
          have h3 := h.sBack y e
          rw [h2.1] at h3; exact h3
        exact ⟨.disconnect o y, _, rfl, by simp only [Ownership.step]; rw [if_pos ⟨hb.1, hs, hy, e⟩]⟩
    · exact ⟨.destroy u o, _, rfl, by simp only [Ownership.step]; rw [if_pos ht, if_neg hne, if_neg hb]⟩

theorem Inv.quiet {s : State} (h : Inv [] s) (hq : Quiet s) : s.todo = [] ∧ ∀ k ∈ s.held, k.1.isProgram = true := by
  constructor
  · cases e : s.todo with
    | nil => rfl
    | cons k l =>
      obtain ⟨a, s', h1, h2⟩ := h.progress _ (u := k.1) (o := k.2) (Nat.le_refl _) (by rw [e]; exact List.mem_cons_self)
      rw [hq a h1] at h2; cases h2
  · intro k hk
    cases e : k.1.isProgram with
    | true => rfl
    | false =>
      have := hq (.drop k.1 k.2) (by simp only [isCleanup, e]; rfl)
      simp only [Ownership.step] at this
      rw [if_pos hk] at this; cases this

end Scalopus.Ownership
