import Verif.Proofs.Ownership

/-!
# C138: objects of a program that shows traces may be released in any order

In every history of making managers, providers, sources, servers and recorders, of processes and viewers that come and go, and of references that are copied and given up by any thread: nothing that a thread can reach has been destroyed, no thread waits for
its own end, every destructor returns, after a bounded number of releases, and exactly the objects remain that a reference of the program reaches; once the program has given up its references, all objects and threads are gone. The sources
of viewers and recorders can always be finished. A source that the program took from a native provider cannot, once that provider is gone: it uses a null pointer.
-/

namespace Scalopus.C138
open Scalopus.Ownership

/-- The states of a program. -/
def Reachable (s : State) : Prop := ∃ l, run {} l = some s

theorem inv {s : State} (h : Reachable s) : Inv [] s := inv_init.run h.choose_spec

/-- No thread runs the destructor that waits for itself. -/
theorem never_waits_for_itself {s : State} (h : Reachable s) : s.terminated = false := (inv h).term

theorem reaches_live {s : State} (h : Inv [] s) {z o : Nat} (hz : (s.obj z).status ≠ .gone) (hr : Reaches s z o) : (s.obj o).status ≠ .gone := by
  cases hr with
  | self => exact hz
  | next _ ho => rw [(h.edge _ _ ho).1]; decide

/-- Whatever a thread can reach has not been destroyed. -/
theorem used_exists {s : State} (h : Reachable s) {u : Thread} {z o : Nat} (hu : s.uses u z = true) (hr : Reaches s z o) : (s.obj o).status ≠ .gone :=
  reaches_live (inv h) ((inv h).uses_live hu) hr

/-- An object is not destroyed, nor is its destructor begun, while a thread holds a reference or another object owns it. -/
theorem owned_stays {s : State} (h : Reachable s) {o : Nat} (ho : (∃ u, (u, o) ∈ s.held) ∨ ∃ x, o ∈ (s.obj x).refs) : (s.obj o).status = .alive := by
  rcases ho with ⟨u, hu⟩ | ⟨x, hx⟩
  · exact ((inv h).held _ hu).1
  · exact ((inv h).edge x o hx).1

/-- Nothing is left without an owner: who is alive is held by a thread or owned by an object. -/
theorem never_leaked {s : State} (h : Reachable s) {o : Nat} (ho : (s.obj o).status = .alive) : (∃ u, (u, o) ∈ s.held) ∨ ∃ x, o ∈ (s.obj x).refs := by
  rcases (inv h).owned o ho with h1 | ⟨k, hk, e⟩ | h1
  · cases h1
  · exact .inl ⟨k.1, by rw [← e]; exact hk⟩
  · exact .inr h1

/-- One thread destroys an object, and only once. -/
theorem destroyed_once {s : State} (h : Reachable s) : (s.todo.map (·.2)).Nodup ∧ ∀ o, (∃ u, (u, o) ∈ s.todo) ↔ (s.obj o).status = .dying :=
  ⟨(inv h).nodup, fun o => ⟨fun ⟨_, hu⟩ => ((inv h).todo _ hu).1, (inv h).dying o⟩⟩

/-- A destroyed object has no thread. -/
theorem gone_no_thread {s : State} (h : Reachable s) {o : Nat} (ho : (s.obj o).status = .gone) : (s.obj o).running = false ∧ ∀ p, s.uses (.of o) p = false := by
  have h1 := ((inv h).gone o ho).2
  exact ⟨h1, fun p => by simp [State.uses, h1]⟩

/-! ## Destructors return -/

/-- While a destructor has not returned, some thread of an object can go on. -/
theorem no_deadlock {s : State} (h : Reachable s) (ht : s.todo ≠ []) : ∃ a s', isCleanup a = true ∧ step s a = some s' := by
  cases e : s.todo with
  | nil => exact absurd e ht
  | cons k l => exact (inv h).progress _ (u := k.1) (o := k.2) (Nat.le_refl _) (by rw [e]; exact List.mem_cons_self)

theorem cleanup_bound {l : List Act} {s s' : State} (h : Inv [] s) (hl : ∀ a ∈ l, isCleanup a = true) (hr : run s l = some s') : l.length + s'.left ≤ s.left := by
  induction l generalizing s with
  | nil => cases hr; simp
  | cons a l ih =>
    simp only [run, Option.bind_eq_some_iff] at hr
    obtain ⟨s1, h1, h2⟩ := hr
    have h3 := h.cleanup_left (hl a List.mem_cons_self) h1
    have h4 := ih (h.step h1) (fun b hb => hl b (List.mem_cons_of_mem _ hb)) h2
    simp only [List.length_cons]; omega

/-- However the threads go on, they are done after a bounded number of releases, and then every destructor has returned and only the program holds references. -/
theorem destructors_return {s : State} (h : Reachable s) {l : List Act} {s' : State} (hl : ∀ a ∈ l, isCleanup a = true) (hr : run s l = some s') :
    l.length ≤ s.left ∧ (Quiet s' → s'.todo = [] ∧ ∀ k ∈ s'.held, k.1.isProgram = true) :=
  ⟨by have := cleanup_bound (inv h) hl hr; omega, fun hq => ((inv h).run hr).quiet hq⟩

theorem quiet_exists (n : Nat) {s : State} (h : Inv [] s) (hn : s.left ≤ n) : ∃ l s', (∀ a ∈ l, isCleanup a = true) ∧ run s l = some s' ∧ Quiet s' := by
  induction n generalizing s with
  | zero =>
    refine ⟨[], s, (fun a ha => by cases ha), rfl, fun a ha => ?_⟩
    cases e : step s a with
    | none => rfl
    | some s1 => have := h.cleanup_left ha e; omega
  | succ n ih =>
    by_cases hq : ∃ a s1, isCleanup a = true ∧ step s a = some s1
    · obtain ⟨a, s1, ha, h1⟩ := hq
      have h2 := h.cleanup_left ha h1
      obtain ⟨l, s', h3, h4, h5⟩ := ih (h.step h1) (by omega)
      refine ⟨a :: l, s', fun b hb => ?_, by simp [run, h1, h4], h5⟩
      rcases List.mem_cons.1 hb with rfl | hb
      · exact ha
      · exact h3 b hb
    · refine ⟨[], s, (fun a ha => by cases ha), rfl, fun a ha => ?_⟩
      cases e : step s a with
      | none => rfl
      | some s1 => exact absurd ⟨a, s1, ha, e⟩ hq

/-- From every state the threads can go on until they are done. -/
theorem can_be_done {s : State} (h : Reachable s) : ∃ l s', (∀ a ∈ l, isCleanup a = true) ∧ run s l = some s' ∧ Quiet s' := quiet_exists _ (inv h) (Nat.le_refl _)

/-! ## What remains -/

theorem alive_has_owner {s : State} (h : Inv [] s) (hq : Quiet s) : ∀ (n : Nat) (o : Nat), 8 - rank (s.obj o).kind ≤ n → (s.obj o).status = .alive →
    ∃ t z, (Thread.program t, z) ∈ s.held ∧ Reaches s z o := by
  have direct : ∀ o, (∃ k ∈ s.held, k.2 = o) → ∃ t z, (Thread.program t, z) ∈ s.held ∧ Reaches s z o := by
    rintro o ⟨⟨u, p⟩, hk, e⟩
    have := (h.quiet hq).2 _ hk
    cases u with
    | of _ => cases this
    | program t => exact ⟨t, p, hk, e ▸ .self p⟩
  intro n
  induction n with
  | zero =>
    intro o hr ha
    rcases h.owned o ha with h1 | h1 | ⟨x, hx⟩
    · cases h1
    · exact direct o h1
    · have h1 := rank_lt (h.edge x o hx).2
      have h2 := rank_le (s.obj x).kind
      omega
  | succ n ih =>
    intro o hr ha
    rcases h.owned o ha with h1 | h1 | ⟨x, hx⟩
    · cases h1
    · exact direct o h1
    · have h1 := rank_lt (h.edge x o hx).2
      have h2 := rank_le (s.obj x).kind
      have hxa : (s.obj x).status = .alive := by
        cases e : (s.obj x).status with
        | alive => rfl
        | gone => exact absurd e (refs_live h hx)
        | dying =>
          obtain ⟨u, hu⟩ := h.dying x e
          rw [(h.quiet hq).1] at hu; cases hu
      obtain ⟨t, z, h3, h4⟩ := ih x (by omega) hxa
      exact ⟨t, z, h3, .next h4 hx⟩

/-- When the threads are done, exactly the objects remain that a reference of the program reaches. -/
theorem remains_exactly {s : State} (h : Reachable s) (hq : Quiet s) (o : Nat) : (s.obj o).status ≠ .gone ↔ ∃ t z, (Thread.program t, z) ∈ s.held ∧ Reaches s z o := by
  have hi := inv h
  constructor
  · intro hg
    cases e : (s.obj o).status with
    | gone => exact absurd e hg
    | alive => exact alive_has_owner hi hq _ o (Nat.le_refl _) e
    | dying =>
      obtain ⟨u, hu⟩ := hi.dying o e
      rw [(hi.quiet hq).1] at hu; cases hu
  · rintro ⟨t, z, h1, h2⟩
    exact reaches_live hi (by rw [(hi.held _ h1).1]; decide) h2

theorem held_settle (u : Thread) (os : List Nat) (s : State) : (settle u os s).held = s.held := (settle_same u os s).1

theorem released_step {s s' : State} {a : Act} (hr : Released s) (ha : isCleanup a = true) (hs : step s a = some s') : Released s' := by
  cases a with
  | drop u o =>
    simp only [step] at hs
    split at hs <;> simp only [Option.some.injEq, reduceCtorEq] at hs
    subst hs
    intro k hk
    rw [held_settle] at hk
    exact hr k (List.mem_of_mem_erase hk)
  | destroy u o =>
    simp only [step] at hs
    split at hs
    case isFalse => cases hs
    split at hs
    · simp only [Option.some.injEq] at hs; subst hs; exact hr
    · split at hs <;> simp only [Option.some.injEq, reduceCtorEq] at hs
      subst hs
      intro k hk
      rw [held_settle] at hk
      exact hr k hk
  | disconnect x y =>
    simp only [step] at hs
    split at hs <;> simp only [Option.some.injEq, reduceCtorEq] at hs
    subst hs
    intro k hk
    rw [held_settle] at hk
    exact hr k hk
  | _ => cases ha

theorem released_run {l : List Act} {s s' : State} (hr : Released s) (hl : ∀ a ∈ l, isCleanup a = true) (hs : run s l = some s') : Released s' := by
  induction l generalizing s with
  | nil => cases hs; exact hr
  | cons a l ih =>
    simp only [run, Option.bind_eq_some_iff] at hs
    obtain ⟨s1, h1, h2⟩ := hs
    exact ih (released_step hr (hl a List.mem_cons_self) h1) (fun b hb => hl b (List.mem_cons_of_mem _ hb)) h2

/-- Once the program has given up its references, in whatever order, all objects and all their threads go, however the threads go on. -/
theorem all_released {s : State} (h : Reachable s) (hr : Released s) {l : List Act} {s' : State} (hl : ∀ a ∈ l, isCleanup a = true) (hs : run s l = some s') (hq : Quiet s') (o : Nat) :
    (s'.obj o).status = .gone ∧ (s'.obj o).running = false := by
  have hreach : Reachable s' := by
    obtain ⟨l0, h0⟩ := h
    refine ⟨l0 ++ l, ?_⟩
    have : ∀ (l0 : List Act) (a : State), run a l0 = some s → run a (l0 ++ l) = some s' := by
      intro l0
      induction l0 with
      | nil => intro a e; cases e; exact hs
      | cons b l0 ih =>
        intro a e
        simp only [run, Option.bind_eq_some_iff, List.cons_append] at e ⊢
        obtain ⟨s1, h1, h2⟩ := e
        exact ⟨s1, h1, ih s1 h2⟩
    exact this l0 _ h0
  have hg : (s'.obj o).status = .gone := by
    refine Classical.byContradiction fun e => ?_
    obtain ⟨t, z, h1, _⟩ := (remains_exactly hreach hq o).1 e
    have := released_run hr hl hs _ h1
    cases this
  exact ⟨hg, (gone_no_thread hreach hg).1⟩

/-! ## Sources -/

/-- The server that a session of a viewer sends its answers through exists as long as the session. -/
theorem session_has_server {s : State} (h : Reachable s) {y : Nat} (hk : (s.obj y).kind = .session) (hy : (s.obj y).status ≠ .gone) :
    (s.obj (s.obj y).backend).kind = .server ∧ (s.obj (s.obj y).backend).status ≠ .gone ∧ (s.obj (s.obj y).backend).running = true := by
  have hi := inv h
  have : (s.obj (s.obj y).backend).running = true := by
    cases e : (s.obj y).status with
    | gone => exact absurd e hy
    | dying =>
      obtain ⟨u, hu⟩ := hi.dying y e
      have hm := (hi.todo _ hu).2
      exact (hm.thr _ (hm.ses hk)).1
    | alive =>
      rcases never_leaked h e with ⟨u, hu⟩ | ⟨x, hx⟩
      · have hm := (hi.held _ hu).2
        exact (hm.thr _ (hm.ses hk)).1
      · have := hi.sRef x y hx hk
        rw [this.1]; exact this.2
  exact ⟨hi.sBack y hk, (fun e => by rw [(hi.gone _ e).2] at this; cases this), this⟩

theorem finish_other {s : State} (h : Inv [] s) {n : Nat} (hn : (s.obj n).status ≠ .gone) (hk : (s.obj n).kind ≠ .nativeSource) : finish s n = true := by
  have hs := h.src n hn
  unfold finish
  split
  · next e => exact absurd e hk
  · next e =>
    obtain ⟨p, hp, e2⟩ := hs.2.1 e
    rw [List.any_eq_true]
    exact ⟨p, hp, by rw [e2, (h.edge n p hp).1]; rfl⟩
  · next e =>
    obtain ⟨p, hp, e2⟩ := hs.2.2 e
    rw [List.any_eq_true]
    exact ⟨p, hp, by rw [e2, (h.edge n p hp).1]; rfl⟩
  · rfl

/-- The sources of a viewer, and those of a recorder, can be finished as long as the session or the recorder exists, even while it is destroyed. -/
theorem owned_sources_finish {s : State} (h : Reachable s) {x n : Nat} (hk : (s.obj x).kind = .session ∨ (s.obj x).kind = .recorder) (hn : n ∈ (s.obj x).refs) (_ : isSource (s.obj n).kind = true) : finish s n = true := by
  have hi := inv h
  by_cases hkn : (s.obj n).kind = .nativeSource
  · unfold finish
    rw [hkn]
    simp only [List.all_eq_true, beq_iff_eq]
    intro p hp
    rcases hk with hk | hk
    · exact (hi.edge _ p (hi.sSrc x hk n hn hkn p hp)).1
    · exact (hi.edge _ p (hi.rSrc x hk n hn hkn p hp)).1
  · exact finish_other hi (by rw [(hi.edge x n hn).1]; decide) hkn

/-- A viewer gets a source from every provider. -/
theorem viewer_source_each {s s' : State} (h : Reachable s) {x : Nat} (hs : step s (.connect x) = some s') :
    s.next ∈ (s'.obj x).refs ∧ (s'.obj s.next).kind = .session ∧ (s'.obj s.next).backend = x ∧ (s'.obj s.next).refs.length = ((s.obj x).refs.filter fun p => isProvider (s.obj p).kind).length := by
  have hi := inv h
  simp only [step] at hs
  split at hs <;> simp only [Option.some.injEq, reduceCtorEq] at hs
  next hc =>
  subst hs
  have hx : (s.obj x).status ≠ .gone := fun e => by rw [(hi.gone x e).2] at hc; cases hc.1
  have hxn : x ≠ s.next := Nat.ne_of_lt (hi.alive_lt hx)
  have key : ∀ (ps : List Nat) (a : State), (∀ p ∈ ps, p ≠ s.next) → s.next < a.next → x < a.next →
      s.next ∈ (a.obj x).refs → (a.obj s.next).kind = .session → (a.obj s.next).backend = x →
      s.next ∈ ((ps.foldl (attachSource s.next) a).obj x).refs ∧ ((ps.foldl (attachSource s.next) a).obj s.next).kind = .session ∧ ((ps.foldl (attachSource s.next) a).obj s.next).backend = x ∧
      ((ps.foldl (attachSource s.next) a).obj s.next).refs.length = (a.obj s.next).refs.length + ps.length := by
    intro ps
    induction ps with
    | nil => intro a _ _ _ h1 h2 h3; exact ⟨h1, h2, h3, rfl⟩
    | cons p ps ih =>
      intro a hp hn hxn' h1 h2 h3
      have hpn := hp p List.mem_cons_self
      have e0 : ((a.create (sourceOf a p)).own s.next a.next).next = a.next + 1 := rfl
      have er : (register ((a.create (sourceOf a p)).own s.next a.next) p a.next).next = a.next + 1 := by unfold register; split <;> rfl
      have en : (attachSource s.next a p).obj s.next = { a.obj s.next with refs := a.next :: (a.obj s.next).refs } := by
        have : s.next ≠ a.next := by omega
        unfold attachSource register
        split <;> simp [State.own, State.create, State.upd, Ne.symm hpn, this]
      have ex : s.next ∈ ((attachSource s.next a p).obj x).refs := by
        have hxa : x ≠ a.next := by omega
        unfold attachSource register
        split
        · simp only [State.own, State.create, State.upd, if_neg hxa, if_neg hxn]
          split
          · next e => subst e; simp only [if_neg hxa, if_neg hxn]; exact List.mem_cons_of_mem _ h1
          · exact h1
        · simp only [State.own, State.create, State.upd, if_neg hxa, if_neg hxn]; exact h1
      have h4 := ih (attachSource s.next a p) (fun q hq => hp q (List.mem_cons_of_mem _ hq)) (by show _ < State.next (register _ _ _); rw [er]; omega) (by show _ < State.next (register _ _ _); rw [er]; omega) ex (by rw [en]; exact h2) (by rw [en]; exact h3)
      refine ⟨h4.1, h4.2.1, h4.2.2.1, ?_⟩
      rw [List.foldl_cons, h4.2.2.2, en]; simp only [List.length_cons]; omega
  have hlt : x < s.next + 1 := Nat.lt_succ_of_lt (hi.alive_lt hx)
  have h2 := key (s.providers x) ((s.create { kind := .session, running := true, backend := x }).own x s.next)
    (fun p hp => Nat.ne_of_lt (hi.alive_lt (by rw [mem_providers] at hp; rw [(hi.edge x p hp.1).1]; decide))) (Nat.lt_succ_self _) hlt
    (by simp [State.own, State.create, State.upd]) (by simp [State.own, State.create, State.upd, Ne.symm hxn]) (by simp [State.own, State.create, State.upd, Ne.symm hxn])
  refine ⟨h2.1, h2.2.1, h2.2.2.1, h2.2.2.2.trans ?_⟩
  have : (((s.create { kind := .session, running := true, backend := x }).own x s.next).obj s.next).refs = [] := by simp [State.own, State.create, State.upd, Ne.symm hxn]
  rw [this]
  simp only [State.providers, List.length_nil, Nat.zero_add]
  rw [← List.length_reverse, ← List.filter_reverse, List.reverse_reverse]

theorem attach_one {x p : Nat} {a : State} (hpx : p ≠ x) (hpn : p < a.next) (hx : x < a.next) :
    (attachSource x a p).next = a.next + 1 ∧ ((attachSource x a p).obj x).refs = a.next :: (a.obj x).refs ∧ (∀ o, o < a.next → ((attachSource x a p).obj o).kind = (a.obj o).kind) ∧
    isSource ((attachSource x a p).obj a.next).kind = true := by
  have hxn : x ≠ a.next := Nat.ne_of_lt hx
  have hpn' : p ≠ a.next := Nat.ne_of_lt hpn
  refine ⟨by unfold attachSource register; split <;> rfl, ?_, ?_, ?_⟩
  · unfold attachSource register
    split <;> simp [State.own, State.create, State.upd, Ne.symm hpx, hxn]
  · intro o ho
    have hon : o ≠ a.next := Nat.ne_of_lt ho
    unfold attachSource register
    split
    · simp only [State.own, State.create, State.upd, if_neg hon, if_neg hxn, if_neg hpn', if_neg hpx]
      by_cases e1 : o = p
      · subst e1; simp
      · by_cases e2 : o = x
        · subst e2; simp [e1]
        · simp [e1, e2]
    · simp only [State.own, State.create, State.upd, if_neg hon, if_neg hxn]
      by_cases e2 : o = x
      · subst e2; simp
      · simp [e2]
  · have : ((attachSource x a p).obj a.next).kind = (sourceOf a p).kind := by
      unfold attachSource register
      split <;> simp [State.own, State.create, State.upd, Ne.symm hpn', Ne.symm hxn]
    rw [this]
    unfold sourceOf
    split <;> rfl

theorem attach_count (x : Nat) : ∀ (ps : List Nat) (a : State), (∀ p ∈ ps, p ≠ x ∧ p < a.next) → x < a.next → (∀ o ∈ (a.obj x).refs, o < a.next) →
    (((ps.foldl (attachSource x) a).obj x).refs.filter fun o => isSource ((ps.foldl (attachSource x) a).obj o).kind).length = ((a.obj x).refs.filter fun o => isSource (a.obj o).kind).length + ps.length ∧
    ∀ o ∈ ((ps.foldl (attachSource x) a).obj x).refs, a.next ≤ o ∨ o ∈ (a.obj x).refs ∧ ((ps.foldl (attachSource x) a).obj o).kind = (a.obj o).kind
  | [], _, _, _, _ => ⟨rfl, fun _ ho => .inr ⟨ho, rfl⟩⟩
  | p :: ps, a, hp, hx, hr => by
    obtain ⟨en, er, ek, es⟩ := attach_one (hp p List.mem_cons_self).1 (hp p List.mem_cons_self).2 hx
    have ih := attach_count x ps (attachSource x a p) (fun q hq => ⟨(hp q (List.mem_cons_of_mem _ hq)).1, by rw [en]; exact Nat.lt_succ_of_lt (hp q (List.mem_cons_of_mem _ hq)).2⟩) (by rw [en]; omega)
      (by
        rw [er, en]
        intro o ho
        rcases List.mem_cons.1 ho with rfl | ho
        · omega
        · exact Nat.lt_succ_of_lt (hr o ho))
    rw [List.foldl_cons]
    constructor
    · rw [ih.1, er, List.filter_cons, if_pos es]
      have : ((a.obj x).refs.filter fun o => isSource ((attachSource x a p).obj o).kind) = (a.obj x).refs.filter fun o => isSource (a.obj o).kind :=
        List.filter_congr fun o ho => by rw [ek o (hr o ho)]
      rw [this]
      simp only [List.length_cons]
      omega
    · intro o ho
      rcases ih.2 o ho with h | ⟨h, e⟩
      · rw [en] at h; exact .inl (by omega)
      · rw [er] at h
        rcases List.mem_cons.1 h with rfl | h
        · exact .inl (Nat.le_refl _)
        · exact .inr ⟨h, e.trans (ek o (hr o h))⟩

/-- A recorder that is started has one source from every provider, and none of those it had before. -/
theorem recorder_source_each {s s' : State} (h : Reachable s) {t x : Nat} (hk : (s.obj x).kind = .recorder) (hs : step s (.start t x) = some s') :
    ((s'.obj x).refs.filter fun o => isSource (s'.obj o).kind).length = ((s.obj x).refs.filter fun p => isProvider (s.obj p).kind).length ∧
    ∀ o ∈ (s'.obj x).refs, isSource (s'.obj o).kind = true → s.next ≤ o := by
  have hi := inv h
  simp only [step, if_pos hk] at hs
  split at hs <;> simp only [Option.some.injEq, reduceCtorEq] at hs
  next hc =>
  have hx : x < s.next := by
    have := hc.1
    simp only [State.uses, List.contains_iff_mem] at this
    exact hi.alive_lt (by rw [(hi.held _ this).1]; decide)
  generalize hs1 : settle (.program t) ((s.obj x).refs.filter fun o => isSource (s.obj o).kind) (s.upd x { s.obj x with running := true, refs := (s.obj x).refs.filter fun o => !isSource (s.obj o).kind }) = s1 at hs
  have same := settle_same (.program t) ((s.obj x).refs.filter fun o => isSource (s.obj o).kind) (s.upd x { s.obj x with running := true, refs := (s.obj x).refs.filter fun o => !isSource (s.obj o).kind })
  rw [hs1] at same
  have en : s1.next = s.next := same.2.1
  have ek : ∀ o, (s1.obj o).kind = (s.obj o).kind := by
    intro o
    rw [(same.2.2.2 o).1]
    by_cases e : o = x
    · subst e; simp [State.upd]
    · simp [State.upd, e]
  have er : (s1.obj x).refs = (s.obj x).refs.filter fun o => !isSource (s.obj o).kind := by
    rw [(same.2.2.2 x).2.1]; simp [State.upd]
  have hrefs : ∀ o ∈ (s1.obj x).refs, o ∈ (s.obj x).refs ∧ isSource (s.obj o).kind = false := by
    intro o ho
    rw [er] at ho
    simpa using ho
  have hlt : ∀ o ∈ (s.obj x).refs, o < s.next := fun o ho => hi.alive_lt (by rw [(hi.edge x o ho).1]; decide)
  have key := attach_count x (s1.providers x) s1
    (by
      intro p hp
      simp only [State.providers, List.mem_filter, List.mem_reverse] at hp
      refine ⟨?_, by rw [en]; exact hlt p (hrefs p hp.1).1⟩
      rintro rfl
      have := hp.2
      rw [ek, hk] at this
      cases this)
    (by rw [en]; exact hx) (by intro o ho; rw [en]; exact hlt o (hrefs o ho).1)
  rw [hs] at key
  constructor
  · rw [key.1]
    have h0 : ((s1.obj x).refs.filter fun o => isSource (s1.obj o).kind) = [] := by
      rw [List.filter_eq_nil_iff]
      intro o ho
      rw [ek, (hrefs o ho).2]
      decide
    rw [h0]
    simp only [State.providers, List.length_nil, Nat.zero_add]
    rw [← List.length_reverse, ← List.filter_reverse, List.reverse_reverse, er, List.filter_filter]
    congr 1
    refine List.filter_congr fun o _ => ?_
    rw [ek]
    cases (s.obj o).kind <;> rfl
  · intro o ho hsrc
    rcases key.2 o ho with h1 | ⟨h1, h2⟩
    · rw [en] at h1; exact h1
    · rw [h2, ek, (hrefs o h1).2] at hsrc
      cases hsrc

example : ∃ s s', run {} [.makeManager 0, .makeNative 0 0, .makeServer 0 true, .addProvider 0 2 1, .start 0 2, .stop 0 2] = some s ∧ (s.obj 2).kind = .recorder ∧ step s (.start 0 2) = some s' ∧ (s.obj 2).refs = [3, 1] ∧
    (s'.obj 2).refs = [4, 1] := ⟨_, _, rfl, rfl, rfl, rfl, rfl⟩

/-- What the program makes is its own: the manager, the providers, the server, and the recorder. -/
theorem made {s s' : State} {t : Nat} {a : Act} {k : Kind} (ha : a = .makeManager t ∧ k = .manager ∨ (∃ m, a = .makeGeneral t m) ∧ k = .general ∨ (∃ m, a = .makeNative t m) ∧ k = .native ∨
      (∃ m, a = .makeLttng t m) ∧ k = .lttng ∨ a = .makeServer t false ∧ k = .server ∨ a = .makeServer t true ∧ k = .recorder) (hs : step s a = some s') :
    ∃ o, s.next ≤ o ∧ (.program t, o) ∈ s'.held ∧ (s'.obj o).kind = k ∧ (s'.obj o).status = .alive := by
  rcases ha with ⟨rfl, rfl⟩ | ⟨⟨m, rfl⟩, rfl⟩ | ⟨⟨m, rfl⟩, rfl⟩ | ⟨⟨m, rfl⟩, rfl⟩ | ⟨rfl, rfl⟩ | ⟨rfl, rfl⟩
  · cases hs
    exact ⟨s.next, Nat.le_refl _, by simp [State.hold, State.create], by simp [State.hold, State.create, State.upd], by simp [State.hold, State.create, State.upd]⟩
  · simp only [step] at hs
    split at hs <;> cases hs
    exact ⟨s.next, Nat.le_refl _, by simp [State.hold, State.create], by simp [State.hold, State.create, State.upd], by simp [State.hold, State.create, State.upd]⟩
  · simp only [step] at hs
    split at hs <;> cases hs
    exact ⟨s.next, Nat.le_refl _, by simp [State.hold, State.create], by simp [State.hold, State.create, State.upd], by simp [State.hold, State.create, State.upd]⟩
  · simp only [step] at hs
    split at hs <;> cases hs
    exact ⟨s.next + 1, by omega, by simp [State.hold, State.create], by simp [State.hold, State.create, State.upd], by simp [State.hold, State.create, State.upd]⟩
  · cases hs
    exact ⟨s.next, Nat.le_refl _, by simp [State.hold, State.create], by simp [State.hold, State.create, State.upd], by simp [State.hold, State.create, State.upd]⟩
  · cases hs
    exact ⟨s.next, Nat.le_refl _, by simp [State.hold, State.create], by simp [State.hold, State.create, State.upd], by simp [State.hold, State.create, State.upd]⟩

/-- Once a process has ended, the manager has neither its transport nor its endpoints. -/
theorem lost {s s' : State} {u : Thread} {m tr : Nat} (hs : step s (.lose u m tr) = some s') : tr ∉ (s'.obj m).refs ∧ ∀ o ∈ (s.obj tr).refs, o ∉ (s'.obj m).refs := by
  simp only [step] at hs
  split at hs <;> simp only [Option.some.injEq, reduceCtorEq] at hs
  subst hs
  constructor
  · rw [((settle_same _ _ _).2.2.2 m).2.1]
    simp [State.upd]
  · intro o ho
    rw [((settle_same _ _ _).2.2.2 m).2.1]
    simp [State.upd, ho]

/-- A source of a native provider has one provider, and can be finished exactly as long as that has not begun to be destroyed; all other sources can be finished. -/
theorem taken_sources {s : State} (h : Reachable s) {n : Nat} (hn : (s.obj n).status ≠ .gone) :
    ((s.obj n).kind = .nativeSource → ∃ p, (s.obj n).weak = [p] ∧ (s.obj p).kind = .native ∧ (finish s n = true ↔ (s.obj p).status = .alive)) ∧ ((s.obj n).kind ≠ .nativeSource → finish s n = true) := by
  have hi := inv h
  refine ⟨fun hk => ?_, finish_other hi hn⟩
  obtain ⟨p, hp⟩ := (hi.src n hn).1 hk
  exact ⟨p, hp, hi.wk n hk p (by rw [hp]; exact List.mem_cons_self), by simp [finish, hk, hp]⟩

/-- Full statement: every source that the program holds can be finished. -/
def SourcesGoOn : Prop := ∀ s, Reachable s → ∀ t n, (Thread.program t, n) ∈ s.held → finish s n = true

/-- A program takes a source from a native provider and gives up the provider. -/
def dropsProvider : List Act := [.makeManager 0, .makeNative 0 0, .makeSource 0 1, .drop (.program 0) 1, .destroy (.program 0) 1]

theorem not_SourcesGoOn : ¬ SourcesGoOn := by
  intro h
  have hr : (run {} dropsProvider).isSome = true := by decide
  obtain ⟨s, hs⟩ := Option.isSome_iff_exists.1 hr
  have h1 : ((run {} dropsProvider).map fun s => (s.held.contains (.program 0, 2), finish s 2)) = some (true, false) := by decide
  rw [hs, Option.map_some, Option.some.injEq, Prod.mk.injEq, List.contains_iff_mem] at h1
  have := h s ⟨_, hs⟩ 0 2 h1.1
  rw [h1.2] at this; cases this

/-! ## Cases -/

/-- A server with all three providers, a process, a viewer; the program gives up everything but the server. -/
def viewing : List Act :=
  [.makeManager 0, .start 0 0, .makeGeneral 0 0, .makeNative 0 0, .addFactory 0 0 2, .makeLttng 0 0, .makeServer 0 false, .addProvider 0 5 1, .addProvider 0 5 2, .addProvider 0 5 4, .start 0 5, .discover (.of 0) 0, .lock (.of 0) 0 [] 2,
   .endpoint (.of 0) 0 6 (some 2), .drop (.of 0) 2, .connect 5, .copy (.of 5) 5 [] 8, .copy (.of 8) 8 [9] 1, .drop (.program 0) 0, .drop (.program 0) 1, .drop (.program 0) 2, .drop (.program 0) 4]

/-- Then it gives up the server too. -/
def ending : List Act := viewing ++ [.drop (.program 0) 5]

-- A thread can use much, and the viewer has three sources.
example : ((run {} viewing).map fun s => (s.uses (.of 8) 8, s.uses (.of 5) 8, (s.obj 0).status)) = some (true, true, .alive) := by decide +kernel
example : ((run {} viewing).map fun s => ((s.obj 8).kind, (s.obj 8).refs, [9, 10, 11].map (finish s))) = some (.session, [11, 10, 9], [true, true, true]) := by decide +kernel

-- The destructor of the server has begun and waits for its thread, which has to give up a reference and to close the connection first.
example : ((run {} ending).map fun s => (s.todo, s.held, (step s (.destroy (.program 0) 5)).isNone, (step s (.drop (.of 5) 8)).isSome, (step s (.disconnect 5 8)).isSome)) =
    some ([(.program 0, 5)], [(.of 8, 1), (.of 5, 8)], true, true, true) := by decide +kernel

/-- The threads go on until they are done. -/
def cleaning : List Act :=
  [.disconnect 5 8, .drop (.of 5) 8, .drop (.of 8) 1, .destroy (.of 5) 8, .destroy (.of 5) 11, .destroy (.of 5) 9, .destroy (.program 0) 5, .destroy (.program 0) 4, .destroy (.program 0) 2, .destroy (.program 0) 10, .destroy (.program 0) 1,
   .destroy (.program 0) 0, .destroy (.program 0) 6, .destroy (.program 0) 7, .destroy (.program 0) 3]

-- All objects are gone.
example : ((run {} (ending ++ cleaning)).map fun s => ((List.range s.next).map fun o => (s.obj o).status, s.next, s.left, s.terminated)) = some (List.replicate 12 .gone, 12, 0, false) := by decide +kernel

-- The native provider is owned by nobody but the program: its source cannot be finished afterwards.
example : ((run {} dropsProvider).map fun s => ((s.obj 1).status, (s.obj 2).status, (s.obj 2).weak, finish s 2)) = some (.gone, .alive, [1], false) := by decide

-- A process ends while a thread of the program still holds its endpoint.
example : ((run {} [.makeManager 0, .start 0 0, .discover (.of 0) 0, .endpoint (.of 0) 0 1 none, .copy (.program 0) 0 [] 2, .lose (.of 0) 0 1, .drop (.of 0) 1, .destroy (.of 0) 1]).map fun s =>
    ((s.obj 0).refs, (s.obj 1).status, (s.obj 2).status)) = some ([], .gone, .alive) := by decide

end Scalopus.C138
