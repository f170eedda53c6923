import Verif.Model.LoopbackOwner

/-!
# C117: A loopback server that was dropped is not found any more

Specification: `as` is a history of the program and of the managers' rounds, `i` the number of a server in the order in which they were made. The owner has dropped server `i` when as many references were
dropped as there were: one from `serve()`, and one for each `hold`.
-/

namespace Scalopus.C117

open Scalopus.LoopbackOwner

/-- The program has no reference to server `i` any more. -/
def Dropped (as : List Act) (i : Nat) : Prop := as.count (.drop i) = 1 + as.count (.hold i)

instance (as : List Act) (i : Nat) : Decidable (Dropped as i) := inferInstanceAs (Decidable (_ = _))

/-- **C117 in full:** no history makes a manager use a null pointer, and no server is discovered that the program has dropped. -/
def Disappears : Prop := ∀ as s, run {} as = some s → s.ub = false ∧ ∀ i, i < as.count .serve → Dropped as i → i ∉ discover s

theorem run_append (as bs : List Act) (s : State) : run s (as ++ bs) = (run s as).bind fun t => run t bs := by
  induction as generalizing s with
  | nil => rfl
  | cons a as ih =>
    simp only [List.cons_append, run]
    cases step s a with
    | none => rfl
    | some t => exact ih t

theorem connected_iff (s : State) (i : Nat) : s.connected i = true ↔ ∃ g ∈ s.managers, ∃ c ∈ g.conns, c.2 = some i := by
  simp [State.connected]

theorem mem_discover (s : State) (i : Nat) : i ∈ discover s ↔ ∃ v, s.servers[i]? = some v ∧ v.gone = false := by
  simp only [discover, List.mem_filter, List.mem_range]
  constructor
  · intro ⟨h, h2⟩
    rw [List.getElem?_eq_getElem h] at h2 ⊢
    exact ⟨_, rfl, by simpa using h2⟩
  · intro ⟨v, h1, h2⟩
    rw [h1]
    exact ⟨(List.getElem?_eq_some_iff.1 h1).1, by simp [h2]⟩

/-- What holds in every state, before and after destructors have run. -/
structure Pre (s : State) : Prop where
  gone : ∀ i v, s.servers[i]? = some v → v.gone = true → v.held = 0 ∧ s.connected i = false
  own : ∀ g ∈ s.managers, ∀ c ∈ g.conns, c.2 = some c.1 ∧ c.1 < s.servers.length
  pend : ∀ g ∈ s.managers, ∀ l, g.pending = some l → ∀ i ∈ l, i < s.servers.length
  empty : ∀ g ∈ s.managers, g.gone = true → g.conns = [] ∧ g.pending = none

structure Inv (s : State) : Prop extends Pre s where
  alive : ∀ i v, s.servers[i]? = some v → v.gone = false → 0 < v.held ∨ s.connected i = true

theorem settle_get (s : State) (i : Nat) : s.settle.servers[i]? = s.servers[i]?.map fun v => if v.held = 0 ∧ s.connected i = false then { v with gone := true } else v := by
  simp [State.settle, List.getElem?_mapIdx]

theorem settle_inv {s : State} (h : Pre s) : Inv s.settle := by
  have hm : s.settle.managers = s.managers := rfl
  have hc : ∀ i, s.settle.connected i = s.connected i := fun i => rfl
  have hl : s.settle.servers.length = s.servers.length := by simp [State.settle]
  refine ⟨⟨?_, ?_, ?_, ?_⟩, ?_⟩
  · intro i v hv hg
    rw [settle_get] at hv
    obtain ⟨u, hu, rfl⟩ := Option.map_eq_some_iff.1 hv
    rw [hc]
    split at hg
    · rename_i q; rw [if_pos q]; exact q
    · rename_i q; rw [if_neg q]; exact h.gone i u hu hg
  · intro g hg c hcc
    rw [hl]; exact h.own g hg c hcc
  · intro g hg l hp i hi
    rw [hl]; exact h.pend g hg l hp i hi
  · exact h.empty
  · intro i v hv hg
    rw [settle_get] at hv
    obtain ⟨u, hu, rfl⟩ := Option.map_eq_some_iff.1 hv
    rw [hc]
    split at hg
    · cases hg
    · rename_i q; rw [if_neg q]
      by_cases h0 : u.held = 0
      · right
        cases hx : s.connected i with
        | true => rfl
        | false => exact absurd ⟨h0, hx⟩ q
      · left; omega

theorem mem_set {α : Type} {l : List α} {n : Nat} {a x : α} (h : x ∈ l.set n a) : x = a ∨ x ∈ l := (List.mem_or_eq_of_mem_set h).symm

theorem pre_servers {s : State} {i : Nat} {v : Server} {v' : Server} (h : Pre s) (hv : s.servers[i]? = some v) (hg : v'.gone = true → v'.held = 0 ∧ v.gone = true) :
    Pre { s with servers := s.servers.set i v' } := by
  have hlt := (List.getElem?_eq_some_iff.1 hv).1
  refine ⟨?_, ?_, ?_, h.empty⟩
  · intro j w hw hwg
    simp only [List.getElem?_set] at hw
    split at hw
    · rename_i e; subst e
      cases hw
      have := hg hwg
      exact ⟨this.1, (h.gone i v hv this.2).2⟩
    · exact h.gone j w hw hwg
  · intro g hgm c hc
    simpa using h.own g hgm c hc
  · intro g hgm l hp j hj
    simpa using h.pend g hgm l hp j hj

theorem pre_managers {s : State} {m : Nat} {g g' : Manager} (h : Pre s) (hg : s.managers[m]? = some g)
    (hc : ∀ c ∈ g'.conns, c ∈ g.conns ∨ ∃ i v, c = (i, some i) ∧ s.servers[i]? = some v ∧ v.gone = false) (hp : ∀ l, g'.pending = some l → ∀ i ∈ l, i < s.servers.length)
    (he : g'.gone = true → g'.conns = [] ∧ g'.pending = none) : Pre { s with managers := s.managers.set m g' } := by
  have hmem : g ∈ s.managers := List.mem_of_getElem? hg
  refine ⟨?_, ?_, ?_, ?_⟩
  · intro i v hv hvg
    have h0 := h.gone i v hv hvg
    refine ⟨h0.1, ?_⟩
    cases hx : State.connected { s with managers := s.managers.set m g' } i with
    | false => rfl
    | true =>
      obtain ⟨k, hk, c, hcc, hci⟩ := (connected_iff _ _).1 hx
      rcases mem_set hk with rfl | hk
      · rcases hc c hcc with q | ⟨j, w, rfl, hw, hwg⟩
        · have := (connected_iff s i).2 ⟨g, hmem, c, q, hci⟩
          rw [h0.2] at this; cases this
        · cases hci
          rw [hv] at hw; cases hw
          rw [hvg] at hwg; cases hwg
      · have := (connected_iff s i).2 ⟨k, hk, c, hcc, hci⟩
        rw [h0.2] at this; cases this
  · intro k hk c hcc
    rcases mem_set hk with rfl | hk
    · rcases hc c hcc with q | ⟨j, w, rfl, hw, hwg⟩
      · exact h.own g hmem c q
      · exact ⟨rfl, (List.getElem?_eq_some_iff.1 hw).1⟩
    · exact h.own k hk c hcc
  · intro k hk l hl i hi
    rcases mem_set hk with rfl | hk
    · exact hp l hl i hi
    · exact h.pend k hk l hl i hi
  · intro k hk hkg
    rcases mem_set hk with rfl | hk
    · exact he hkg
    · exact h.empty k hk hkg

theorem discover_lt {s : State} {i : Nat} (h : i ∈ discover s) : i < s.servers.length := by
  obtain ⟨v, hv, _⟩ := (mem_discover s i).1 h
  exact (List.getElem?_eq_some_iff.1 hv).1

theorem pre_step' {s t : State} {a : Act} (h : Pre s) (e : step' s a = some t) : Pre t := by
  cases a with
  | serve =>
    simp only [step', Option.some.injEq] at e; subst e
    refine ⟨?_, ?_, ?_, h.empty⟩
    · intro i v hv hg
      by_cases hi : i < s.servers.length
      · rw [List.getElem?_append_left hi] at hv
        exact h.gone i v hv hg
      · rw [List.getElem?_append_right (by omega)] at hv
        have := List.mem_of_getElem? hv
        simp only [List.mem_singleton] at this
        subst this; cases hg
    · intro g hg c hc
      have := h.own g hg c hc
      exact ⟨this.1, by simp only [List.length_append, List.length_singleton]; omega⟩
    · intro g hg l hp i hi
      have := h.pend g hg l hp i hi
      simp only [List.length_append, List.length_singleton]; omega
  | hold i =>
    simp only [step'] at e
    split at e
    · rename_i v hv
      split at e
      · cases e
      · rename_i hg
        simp only [Option.some.injEq] at e; subst e
        exact pre_servers h hv (fun q => absurd q hg)
    · cases e
  | drop i =>
    simp only [step'] at e
    split at e
    · rename_i v hv
      split at e
      · cases e
      · rename_i hg
        simp only [Option.some.injEq] at e; subst e
        exact pre_servers h hv (fun q => absurd (h.gone i v hv q).1 hg)
    · cases e
  | newManager =>
    simp only [step', Option.some.injEq] at e; subst e
    have hmem : ∀ g : Manager, g ∈ s.managers ++ [({} : Manager)] → g ∈ s.managers ∨ g = ({} : Manager) := fun g hg => by simpa using hg
    refine ⟨?_, ?_, ?_, ?_⟩
    · intro i v hv hg
      have := h.gone i v hv hg
      refine ⟨this.1, ?_⟩
      simpa [State.connected] using this.2
    · intro g hg c hc
      rcases hmem g hg with hg | rfl
      · exact h.own g hg c hc
      · cases hc
    · intro g hg l hp i hi
      rcases hmem g hg with hg | rfl
      · exact h.pend g hg l hp i hi
      · cases hp
    · intro g hg hgg
      rcases hmem g hg with hg | rfl
      · exact h.empty g hg hgg
      · cases hgg
  | round m =>
    simp only [step'] at e
    split at e
    · rename_i g hg
      split at e
      · cases e
      · rename_i hq
        simp only [Option.some.injEq] at e; subst e
        refine pre_managers h hg ?_ ?_ ?_
        · exact fun c hc => .inl (List.mem_filter.1 hc).1
        · intro l hl i hi
          cases hl
          exact discover_lt hi
        · intro c; exact absurd (.inl c) hq
    · cases e
  | next m =>
    simp only [step'] at e
    split at e
    · rename_i g hg
      have hmem : g ∈ s.managers := List.mem_of_getElem? hg
      split at e
      · rename_i i rest hp
        split at e
        · simp only [Option.some.injEq] at e; subst e
          refine pre_managers h hg (fun c hc => .inl hc) ?_ (fun q => by rw [(h.empty g hmem q).2] at hp; cases hp)
          intro l hl j hj
          cases hl
          exact h.pend g hmem _ hp j (List.mem_cons_of_mem _ hj)
        · split at e
          · rename_i v hv
            split at e
            · simp only [Option.some.injEq] at e; subst e
              exact ⟨h.gone, h.own, h.pend, h.empty⟩
            · rename_i hvg
              simp only [Option.some.injEq] at e; subst e
              refine pre_managers h hg ?_ ?_ (fun q => by rw [(h.empty g hmem q).2] at hp; cases hp)
              · intro c hc
                rcases List.mem_append.1 hc with hc | hc
                · exact .inl hc
                · exact .inr ⟨i, v, List.mem_singleton.1 hc, hv, by simpa using hvg⟩
              · intro l hl j hj
                cases hl
                exact h.pend g hmem _ hp j (List.mem_cons_of_mem _ hj)
          · cases e
      · cases e
    · cases e
  | endRound m =>
    simp only [step'] at e
    split at e
    · rename_i g hg
      have hmem : g ∈ s.managers := List.mem_of_getElem? hg
      split at e
      · simp only [Option.some.injEq] at e; subst e
        refine pre_managers h hg (fun c hc => .inl hc) (fun l hl => by cases hl) (fun q => ⟨(h.empty g hmem q).1, rfl⟩)
      · cases e
    · cases e
  | destroy m =>
    simp only [step'] at e
    split at e
    · rename_i g hg
      split at e
      · cases e
      · simp only [Option.some.injEq] at e; subst e
        rename_i hq
        have hn : g.pending = none := Decidable.byContradiction fun c => hq (.inr c)
        exact pre_managers h hg (fun c hc => by cases hc) (fun l hl => by rw [hn] at hl; cases hl) (fun _ => ⟨rfl, hn⟩)
    · cases e

theorem step_some {s t : State} {a : Act} (e : step s a = some t) : s.ub = false ∧ ∃ u, step' s a = some u ∧ t = u.settle := by
  simp only [step] at e
  split at e
  · cases e
  · rename_i h
    obtain ⟨u, h1, h2⟩ := Option.map_eq_some_iff.1 e
    exact ⟨by simpa using h, u, h1, h2.symm⟩

theorem inv_step {s t : State} {a : Act} (h : Inv s) (e : step s a = some t) : Inv t := by
  obtain ⟨_, u, h1, rfl⟩ := step_some e
  exact settle_inv (pre_step' h.toPre h1)

theorem run_induction {P : State → Prop} (hs : ∀ s a t, P s → step s a = some t → P t) {as : List Act} {s t : State} (h : P s) (e : run s as = some t) : P t := by
  induction as generalizing s with
  | nil => cases e; exact h
  | cons a as ih =>
    obtain ⟨u, h1, h2⟩ := Option.bind_eq_some_iff.1 e
    exact ih (hs s a u h h1) h2

theorem inv_init : Inv {} := by
  refine ⟨⟨?_, ?_, ?_, ?_⟩, ?_⟩ <;> simp

theorem inv_run {as : List Act} {s : State} (e : run {} as = some s) : Inv s := run_induction (fun _ _ _ h e => inv_step h e) inv_init e

/-- The references of the program, as counted in the model, are those of the history. -/
theorem held_step {s t : State} {a : Act} (e : step s a = some t) :
    t.servers.length = s.servers.length + (if a = .serve then 1 else 0) ∧
    ∀ (i : Nat) (v : Server), t.servers[i]? = some v → (∃ u, s.servers[i]? = some u ∧ v.held + (if a = .drop i then 1 else 0) = u.held + (if a = .hold i then 1 else 0)) ∨
      (a = .serve ∧ i = s.servers.length ∧ v.held = 1) := by
  obtain ⟨_, u, h1, rfl⟩ := step_some e
  have hl : u.settle.servers.length = u.servers.length := by simp [State.settle]
  rw [hl]
  have hh : ∀ (i : Nat) (v : Server), u.settle.servers[i]? = some v → ∃ w, u.servers[i]? = some w ∧ v.held = w.held := by
    intro i v hv
    rw [settle_get] at hv
    obtain ⟨w, hw, rfl⟩ := Option.map_eq_some_iff.1 hv
    exact ⟨w, hw, by split <;> rfl⟩
  suffices q : u.servers.length = s.servers.length + (if a = .serve then 1 else 0) ∧
    ∀ (i : Nat) (v : Server), u.servers[i]? = some v → (∃ u, s.servers[i]? = some u ∧ v.held + (if a = .drop i then 1 else 0) = u.held + (if a = .hold i then 1 else 0)) ∨
      (a = .serve ∧ i = s.servers.length ∧ v.held = 1) by
    refine ⟨q.1, fun i v hv => ?_⟩
    obtain ⟨w, hw, e⟩ := hh i v hv
    rw [e]; exact q.2 i w hw
  have same : u.servers = s.servers → a ≠ .serve → (∀ i, a ≠ .drop i) → (∀ i, a ≠ .hold i) → u.servers.length = s.servers.length + (if a = .serve then 1 else 0) ∧
    ∀ (i : Nat) (v : Server), u.servers[i]? = some v → (∃ u, s.servers[i]? = some u ∧ v.held + (if a = .drop i then 1 else 0) = u.held + (if a = .hold i then 1 else 0)) ∨
      (a = .serve ∧ i = s.servers.length ∧ v.held = 1) := by
    intro h2 h3 h4 h5
    rw [h2, if_neg h3]
    refine ⟨rfl, fun i v hv => .inl ⟨v, hv, ?_⟩⟩
    rw [if_neg (h4 i), if_neg (h5 i)]
  cases a with
  | serve =>
    simp only [step', Option.some.injEq] at h1; subst h1
    refine ⟨by simp, fun i v hv => ?_⟩
    by_cases hi : i < s.servers.length
    · rw [List.getElem?_append_left hi] at hv
      exact .inl ⟨v, hv, by simp⟩
    · have hle : s.servers.length ≤ i := by omega
      rw [List.getElem?_append_right hle] at hv
      have hb := (List.getElem?_eq_some_iff.1 hv).1
      have := List.mem_of_getElem? hv
      simp only [List.mem_singleton, List.length_singleton] at this hb
      exact .inr ⟨rfl, by omega, by rw [this]⟩
  | hold i =>
    simp only [step'] at h1
    split at h1
    · rename_i v hv
      split at h1
      · cases h1
      · simp only [Option.some.injEq] at h1; subst h1
        refine ⟨by simp, fun j w hw => .inl ?_⟩
        simp only [List.getElem?_set] at hw
        split at hw
        · rename_i e; subst e
          split at hw
          · cases hw; exact ⟨v, hv, by simp⟩
          · cases hw
        · rename_i hne
          exact ⟨w, hw, by simp [hne]⟩
    · cases h1
  | drop i =>
    simp only [step'] at h1
    split at h1
    · rename_i v hv
      split at h1
      · cases h1
      · simp only [Option.some.injEq] at h1; subst h1
        refine ⟨by simp, fun j w hw => .inl ?_⟩
        simp only [List.getElem?_set] at hw
        split at hw
        · rename_i h0 e; subst e
          split at hw
          · cases hw; refine ⟨v, hv, ?_⟩
            simp only [if_true]
            rw [if_neg (by simp)]
            omega
          · cases hw
        · rename_i hne
          exact ⟨w, hw, by simp [hne]⟩
    · cases h1
  | newManager => simp only [step', Option.some.injEq] at h1; subst h1; exact same rfl (by simp) (by simp) (by simp)
  | round m =>
    refine same ?_ (by simp) (by simp) (by simp)
    simp only [step'] at h1
    repeat' split at h1
    all_goals cases h1 <;> rfl
  | next m =>
    refine same ?_ (by simp) (by simp) (by simp)
    simp only [step'] at h1
    repeat' split at h1
    all_goals cases h1 <;> rfl
  | endRound m =>
    refine same ?_ (by simp) (by simp) (by simp)
    simp only [step'] at h1
    repeat' split at h1
    all_goals cases h1 <;> rfl
  | destroy m =>
    refine same ?_ (by simp) (by simp) (by simp)
    simp only [step'] at h1
    repeat' split at h1
    all_goals cases h1 <;> rfl

theorem named_lt {s t : State} {a : Act} (e : step s a = some t) (i : Nat) (h : a = .drop i ∨ a = .hold i) : i < s.servers.length := by
  obtain ⟨_, u, h1, rfl⟩ := step_some e
  rcases h with rfl | rfl
  all_goals
    simp only [step'] at h1
    split at h1
    · rename_i v hv
      exact (List.getElem?_eq_some_iff.1 hv).1
    · cases h1

theorem held_run {as : List Act} {s t : State} (e : run s as = some t) :
    t.servers.length = s.servers.length + as.count .serve ∧ ∀ (i : Nat) (v : Server), t.servers[i]? = some v →
      v.held + as.count (.drop i) = (match s.servers[i]? with | some u => u.held | none => 1) + as.count (.hold i) := by
  induction as generalizing s with
  | nil =>
    cases e
    refine ⟨rfl, fun i v hv => ?_⟩
    rw [hv]; rfl
  | cons a as ih =>
    obtain ⟨m, h1, h2⟩ := Option.bind_eq_some_iff.1 e
    have hs := held_step h1
    have := ih h2
    refine ⟨?_, fun i v hv => ?_⟩
    · rw [this.1, hs.1, List.count_cons]
      by_cases c : a = .serve <;> simp [c] <;> omega
    · have q := this.2 i v hv
      have cd : (a :: as).count (.drop i) = as.count (.drop i) + (if a = .drop i then 1 else 0) := by rw [List.count_cons]; simp only [beq_iff_eq]
      have ch : (a :: as).count (.hold i) = as.count (.hold i) + (if a = .hold i then 1 else 0) := by rw [List.count_cons]; simp only [beq_iff_eq]
      rw [cd, ch]
      cases hm : m.servers[i]? with
      | some w =>
        rw [hm] at q
        simp only at q
        rcases hs.2 i w hm with ⟨u, hu, hq⟩ | ⟨ha, hi, hw⟩
        · rw [hu]; simp only; omega
        · subst ha
          rw [show s.servers[i]? = none by rw [hi]; exact List.getElem?_eq_none (Nat.le_refl _)]
          rw [if_neg (by simp), if_neg (by simp)]
          simp only
          omega
      | none =>
        rw [hm] at q
        have hlen : s.servers.length ≤ i := by
          have := List.getElem?_eq_none_iff.1 hm
          rw [hs.1] at this; omega
        rw [List.getElem?_eq_none hlen]
        rw [if_neg (fun c => by have := named_lt h1 i (.inl c); omega), if_neg (fun c => by have := named_lt h1 i (.inr c); omega)]
        exact q

/-- **C117, what is found.** A server is discovered exactly if it was made and the program still has a reference to it or a manager is connected to it. -/
theorem found_iff (as : List Act) (s : State) (e : run {} as = some s) (i : Nat) :
    i ∈ discover s ↔ i < as.count .serve ∧ (¬ Dropped as i ∨ ∃ g ∈ s.managers, (i, some i) ∈ g.conns) := by
  have hi := inv_run e
  have hr := held_run e
  have hlen : s.servers.length = as.count .serve := by simpa using hr.1
  have hc : s.connected i = true ↔ ∃ g ∈ s.managers, (i, some i) ∈ g.conns := by
    rw [connected_iff]
    constructor
    · intro ⟨g, hg, c, hcc, h2⟩
      refine ⟨g, hg, ?_⟩
      have := (hi.own g hg c hcc).1
      obtain ⟨c1, c2⟩ := c
      simp only at this h2
      rw [h2] at this; cases this
      rw [← h2]; exact hcc
    · intro ⟨g, hg, h⟩
      exact ⟨g, hg, _, h, rfl⟩
  rw [← hc, mem_discover, ← hlen]
  constructor
  · intro ⟨v, hv, hg⟩
    refine ⟨(List.getElem?_eq_some_iff.1 hv).1, ?_⟩
    have hh := hr.2 i v hv
    simp only [List.getElem?_nil] at hh
    rcases hi.alive i v hv hg with q | q
    · left; simp only [Dropped]; omega
    · exact .inr q
  · intro ⟨hlt, h⟩
    refine ⟨_, List.getElem?_eq_getElem hlt, ?_⟩
    cases hg : s.servers[i].gone with
    | false => rfl
    | true =>
      have q := hi.gone i _ (List.getElem?_eq_getElem hlt) hg
      have hh := hr.2 i _ (List.getElem?_eq_getElem hlt)
      simp only [List.getElem?_nil] at hh
      rcases h with h | h
      · exact absurd (by simp only [Dropped]; omega) h
      · rw [q.2] at h; cases h

/-- A manager that is not looking for servers can be destroyed, once; while it looks it cannot be. -/
theorem destroy_iff {s : State} (hub : s.ub = false) (m : Nat) (g : Manager) (hg : s.managers[m]? = some g) :
    (∃ t, step s (.destroy m) = some t) ↔ g.gone = false ∧ g.pending = none := by
  simp only [step, hub, Bool.false_eq_true, if_false, step', hg]
  cases hgone : g.gone <;> cases hp : g.pending <;> simp

example : ∃ s, run {} [.serve, .newManager, .round 0, .next 0, .endRound 0] = some s ∧ s.ub = false ∧ s.managers[0]? = some { conns := [(0, some 0)] } := ⟨_, rfl, rfl, rfl⟩

/-- How a step changes a manager. -/
theorem manager_step {s t : State} {a : Act} (hi : Inv s) (e : step s a = some t) (m : Nat) :
    (∀ g : Manager, s.managers[m]? = some g → ∃ g' : Manager, t.managers[m]? = some g' ∧ (a ≠ .destroy m → ∀ c ∈ g.conns, c ∈ g'.conns) ∧
      (a = .destroy m → g'.conns = [] ∧ g'.gone = true) ∧ (g.gone = true → g'.gone = true) ∧ (a ≠ .destroy m → g'.gone = g.gone) ∧
      (a ≠ .next m → ∀ c ∈ g'.conns, c ∈ g.conns) ∧ (g.pending = none → a ≠ .round m → g'.pending = none)) ∧
    (s.managers[m]? = none → ∀ g' : Manager, t.managers[m]? = some g' → a = .newManager ∧ g' = ({} : Manager)) := by
  obtain ⟨_, u, h1, rfl⟩ := step_some e
  change (∀ g : Manager, s.managers[m]? = some g → ∃ g' : Manager, u.managers[m]? = some g' ∧ _) ∧ (_ → ∀ g' : Manager, u.managers[m]? = some g' → _)
  have same : u.managers = s.managers → (∀ k, a ≠ .destroy k) → (∀ g : Manager, s.managers[m]? = some g → ∃ g' : Manager, u.managers[m]? = some g' ∧ (a ≠ .destroy m → ∀ c ∈ g.conns, c ∈ g'.conns) ∧
      (a = .destroy m → g'.conns = [] ∧ g'.gone = true) ∧ (g.gone = true → g'.gone = true) ∧ (a ≠ .destroy m → g'.gone = g.gone) ∧
      (a ≠ .next m → ∀ c ∈ g'.conns, c ∈ g.conns) ∧ (g.pending = none → a ≠ .round m → g'.pending = none)) ∧
    (s.managers[m]? = none → ∀ g' : Manager, u.managers[m]? = some g' → a = .newManager ∧ g' = ({} : Manager)) := by
    intro h hd
    rw [h]
    refine ⟨fun g hg => ⟨g, hg, fun _ _ h => h, fun c => absurd c (hd m), id, fun _ => rfl, fun _ _ h => h, fun h _ => h⟩, fun hn g' hg' => ?_⟩
    rw [hn] at hg'; cases hg'
  have setm : ∀ (k : Nat) (g g' : Manager), s.managers[k]? = some g → u.managers = s.managers.set k g' →
      (k ≠ m → a ≠ .destroy m) →
      (k = m → (a ≠ .destroy m → ∀ c ∈ g.conns, c ∈ g'.conns) ∧
      (a = .destroy m → g'.conns = [] ∧ g'.gone = true) ∧ (g.gone = true → g'.gone = true) ∧ (a ≠ .destroy m → g'.gone = g.gone) ∧
      (a ≠ .next m → ∀ c ∈ g'.conns, c ∈ g.conns) ∧ (g.pending = none → a ≠ .round m → g'.pending = none)) →
      (∀ g : Manager, s.managers[m]? = some g → ∃ g' : Manager, u.managers[m]? = some g' ∧ (a ≠ .destroy m → ∀ c ∈ g.conns, c ∈ g'.conns) ∧
      (a = .destroy m → g'.conns = [] ∧ g'.gone = true) ∧ (g.gone = true → g'.gone = true) ∧ (a ≠ .destroy m → g'.gone = g.gone) ∧
      (a ≠ .next m → ∀ c ∈ g'.conns, c ∈ g.conns) ∧ (g.pending = none → a ≠ .round m → g'.pending = none)) ∧
    (s.managers[m]? = none → ∀ g' : Manager, u.managers[m]? = some g' → a = .newManager ∧ g' = ({} : Manager)) := by
    intro k g g' hk hu hd hc
    rw [hu]
    have hlt := (List.getElem?_eq_some_iff.1 hk).1
    refine ⟨fun x hx => ?_, fun hn x hx => ?_⟩
    · by_cases hkm : k = m
      · subst hkm
        rw [hk] at hx; cases hx
        exact ⟨g', by simp [hlt], hc rfl⟩
      · exact ⟨x, by rw [List.getElem?_set_ne hkm]; exact hx, fun _ _ h => h, fun c => absurd c (hd hkm), id, fun _ => rfl, fun _ _ h => h, fun h _ => h⟩
    · exfalso
      have h1 := List.getElem?_eq_none_iff.1 hn
      have h2 := (List.getElem?_eq_some_iff.1 hx).1
      rw [List.length_set] at h2; omega
  cases a with
  | serve => simp only [step', Option.some.injEq] at h1; subst h1; exact same rfl (by simp)
  | hold i =>
    refine same ?_ (by simp)
    simp only [step'] at h1
    repeat' split at h1
    all_goals cases h1 <;> rfl
  | drop i =>
    refine same ?_ (by simp)
    simp only [step'] at h1
    repeat' split at h1
    all_goals cases h1 <;> rfl
  | newManager =>
    simp only [step', Option.some.injEq] at h1; subst h1
    refine ⟨fun g hg => ⟨g, ?_, fun _ _ h => h, fun c => (by cases c), id, fun _ => rfl, fun _ _ h => h, fun h _ => h⟩, fun hn g' hg' => ⟨rfl, ?_⟩⟩
    · rw [List.getElem?_append_left (List.getElem?_eq_some_iff.1 hg).1]; exact hg
    · rw [List.getElem?_append_right (List.getElem?_eq_none_iff.1 hn)] at hg'
      simpa using List.mem_of_getElem? hg'
  | round k =>
    simp only [step'] at h1
    split at h1
    · rename_i g hg
      split at h1
      · cases h1
      · rename_i hq
        simp only [Option.some.injEq] at h1; subst h1
        refine setm k g _ hg rfl (by simp) fun hk => ⟨fun _ c hc => ?_, fun c => (by cases c), id, fun _ => rfl, fun _ c hc => (List.mem_filter.1 hc).1, fun _ c => absurd (by rw [hk]) c⟩
        refine List.mem_filter.2 ⟨hc, ?_⟩
        rw [(hi.own g (List.mem_of_getElem? hg) c hc).1]; rfl
    · cases h1
  | next k =>
    simp only [step'] at h1
    split at h1
    · rename_i g hg
      split at h1
      · rename_i i rest hp
        have hnp : g.pending ≠ none := by rw [hp]; simp
        split at h1
        · simp only [Option.some.injEq] at h1; subst h1
          exact setm k g _ hg rfl (by simp) fun hk => ⟨fun _ c hc => hc, fun c => (by cases c), id, fun _ => rfl, fun c => absurd (by rw [hk]) c, fun c => absurd c hnp⟩
        · split at h1
          · split at h1
            · simp only [Option.some.injEq] at h1; subst h1
              exact same rfl (by simp)
            · simp only [Option.some.injEq] at h1; subst h1
              exact setm k g _ hg rfl (by simp) fun hk => ⟨fun _ c hc => List.mem_append_left _ hc, fun c => (by cases c), id, fun _ => rfl, fun c => absurd (by rw [hk]) c, fun c => absurd c hnp⟩
          · cases h1
      · cases h1
    · cases h1
  | endRound k =>
    simp only [step'] at h1
    split at h1
    · rename_i g hg
      split at h1
      · simp only [Option.some.injEq] at h1; subst h1
        exact setm k g _ hg rfl (by simp) fun hk => ⟨fun _ c hc => hc, fun c => (by cases c), id, fun _ => rfl, fun _ c hc => hc, fun _ _ => rfl⟩
      · cases h1
    · cases h1
  | destroy k =>
    simp only [step'] at h1
    split at h1
    · rename_i g hg
      split at h1
      · cases h1
      · rename_i hq
        simp only [Option.some.injEq] at h1; subst h1
        refine setm k g _ hg rfl (fun c h => c (by cases h; rfl)) fun hk => ⟨fun c => absurd (by rw [hk]) c, fun _ => ⟨rfl, rfl⟩, fun _ => rfl, fun c => absurd (by rw [hk]) c, fun _ c hc => (by cases hc), fun h _ => h⟩
    · cases h1

/-- **C117, negation: a manager keeps what it has found.** A server that a manager is connected to stays discovered, and the manager stays connected to it, whatever the program drops and however many rounds
the managers make, until that manager is destroyed. -/
theorem kept_by_manager (as : List Act) (s : State) (e : run {} as = some s) (m : Nat) (g : Manager) (hg : s.managers[m]? = some g) (i : Nat) (hc : (i, some i) ∈ g.conns)
    (bs : List Act) (t : State) (e2 : run s bs = some t) (hd : .destroy m ∉ bs) : i ∈ discover t ∧ ∃ g', t.managers[m]? = some g' ∧ (i, some i) ∈ g'.conns := by
  have key : ∀ (bs : List Act) (s : State), Inv s → ∀ g : Manager, s.managers[m]? = some g → (i, some i) ∈ g.conns → run s bs = some t → .destroy m ∉ bs →
      Inv t ∧ ∃ g' : Manager, t.managers[m]? = some g' ∧ (i, some i) ∈ g'.conns := by
    intro bs
    induction bs with
    | nil => intro s hi g hg hc e _; cases e; exact ⟨hi, g, hg, hc⟩
    | cons a bs ih =>
      intro s hi g hg hc e hd
      obtain ⟨u, h1, h2⟩ := Option.bind_eq_some_iff.1 e
      simp only [List.mem_cons, not_or] at hd
      obtain ⟨g', hg', h3, _⟩ := (manager_step hi h1 m).1 g hg
      exact ih u (inv_step hi h1) g' hg' (h3 (fun c => hd.1 c.symm) _ hc) h2 hd.2
  obtain ⟨hi, g', hg', hc'⟩ := key bs s (inv_run e) g hg hc e2 hd
  refine ⟨?_, g', hg', hc'⟩
  have hlt := (hi.own g' (List.mem_of_getElem? hg') _ hc').2
  refine (mem_discover t i).2 ⟨_, List.getElem?_eq_getElem hlt, ?_⟩
  cases hgone : t.servers[i].gone with
  | false => rfl
  | true =>
    have := (hi.gone i _ (List.getElem?_eq_getElem hlt) hgone).2
    rw [(connected_iff t i).2 ⟨g', List.mem_of_getElem? hg', _, hc', rfl⟩] at this
    cases this

/-- A server that somebody holds survives a step in which nobody lets go. -/
theorem alive_step {s t : State} {a : Act} (hi : Inv s) (e : step s a = some t) (h1 : ∀ i, a ≠ .drop i) (h2 : ∀ m, a ≠ .destroy m) (i : Nat) (h : i ∈ discover s) : i ∈ discover t := by
  obtain ⟨v, hv, hg⟩ := (mem_discover s i).1 h
  have hit := inv_step hi e
  have hlen := (held_step e).1
  have hlt := (List.getElem?_eq_some_iff.1 hv).1
  have hlt' : i < t.servers.length := by rw [hlen]; omega
  refine (mem_discover t i).2 ⟨_, List.getElem?_eq_getElem hlt', ?_⟩
  cases hgone : t.servers[i].gone with
  | false => rfl
  | true =>
    exfalso
    have q := hit.gone i _ (List.getElem?_eq_getElem hlt') hgone
    rcases (held_step e).2 i _ (List.getElem?_eq_getElem hlt') with ⟨u, hu, hh⟩ | ⟨_, hh, _⟩
    · rw [hv] at hu; cases hu
      rw [if_neg (h1 i), q.1] at hh
      rcases hi.alive i v hv hg with w | w
      · omega
      · obtain ⟨g, hgm, c, hc, hci⟩ := (connected_iff s i).1 w
        obtain ⟨m, hm⟩ := List.getElem?_of_mem hgm
        obtain ⟨g', hg', hk, _⟩ := (manager_step hi e m).1 g hm
        rw [(connected_iff t i).2 ⟨g', List.mem_of_getElem? hg', c, hk (h2 m) c hc, hci⟩] at q
        cases q.2
    · omega

theorem step_of {s u : State} {a : Act} (hub : s.ub = false) (h : step' s a = some u) : step s a = some u.settle := by
  simp [step, hub, h]

theorem next_step {s : State} (hi : Inv s) (hub : s.ub = false) (m : Nat) (g : Manager) (hg : s.managers[m]? = some g) (i : Nat) (rest : List Nat) (hp : g.pending = some (i :: rest)) :
    ∃ t, step s (.next m) = some t ∧
      (((i, some i) ∈ g.conns ∧ t.ub = false ∧ t.managers[m]? = some { g with pending := some rest }) ∨
       (i ∈ discover s ∧ (i, some i) ∉ g.conns ∧ t.ub = false ∧ t.managers[m]? = some { g with conns := g.conns ++ [(i, some i)], pending := some rest }) ∨
       (i ∉ discover s ∧ t.ub = true)) := by
  have hmem := List.mem_of_getElem? hg
  have hlt := (List.getElem?_eq_some_iff.1 hg).1
  have hk : g.conns.any (fun c => c.1 == i) = true ↔ (i, some i) ∈ g.conns := by
    rw [List.any_eq_true]
    constructor
    · intro ⟨c, hc, h⟩
      have := (hi.own g hmem c hc).1
      obtain ⟨c1, c2⟩ := c
      simp only [beq_iff_eq] at h this
      rw [← h, ← this]; exact h ▸ hc
    · exact fun h => ⟨_, h, by simp⟩
  have hsrv := hi.pend g hmem _ hp i List.mem_cons_self
  by_cases hc : (i, some i) ∈ g.conns
  · refine ⟨State.settle { s with managers := s.managers.set m { g with pending := some rest } }, step_of hub ?_, .inl ⟨hc, ?_, ?_⟩⟩
    · simp only [step', hg, hp, hk.2 hc, if_true]
    · exact hub
    · change (s.managers.set m _)[m]? = _
      simp [hlt]
  · have hc' : g.conns.any (fun c => c.1 == i) = false := by
      cases q : g.conns.any (fun c => c.1 == i) with
      | false => rfl
      | true => exact absurd (hk.1 q) hc
    cases hgone : s.servers[i].gone with
    | false =>
      refine ⟨State.settle { s with managers := s.managers.set m { g with conns := g.conns ++ [(i, some i)], pending := some rest } }, step_of hub ?_,
        .inr (.inl ⟨(mem_discover s i).2 ⟨_, List.getElem?_eq_getElem hsrv, hgone⟩, hc, ?_, ?_⟩)⟩
      · simp only [step', hg, hp, hc', List.getElem?_eq_getElem hsrv, hgone, Bool.false_eq_true, if_false]
      · exact hub
      · change (s.managers.set m _)[m]? = _
        simp [hlt]
    | true =>
      refine ⟨State.settle { s with ub := true }, step_of hub ?_, .inr (.inr ⟨fun c => ?_, ?_⟩)⟩
      · simp only [step', hg, hp, hc', List.getElem?_eq_getElem hsrv, hgone, Bool.false_eq_true, if_false, if_true]
      · obtain ⟨v, hv, hvg⟩ := (mem_discover s i).1 c
        rw [List.getElem?_eq_getElem hsrv] at hv; cases hv
        rw [hgone] at hvg; cases hvg
      · rfl

theorem round_step {s : State} (hub : s.ub = false) (m : Nat) (g : Manager) (hg : s.managers[m]? = some g) (hgone : g.gone = false) (hp : g.pending = none) (hi : Inv s) :
    ∃ t, step s (.round m) = some t ∧ t.ub = false ∧ t.managers[m]? = some { g with pending := some (discover s) } := by
  have hlt := (List.getElem?_eq_some_iff.1 hg).1
  have hf : g.conns.filter (fun c => isConnected c.2) = g.conns := by
    rw [List.filter_eq_self]
    intro c hc
    rw [(hi.own g (List.mem_of_getElem? hg) c hc).1]; rfl
  refine ⟨State.settle { s with managers := s.managers.set m { g with conns := g.conns.filter fun c => isConnected c.2, pending := some (discover s) } }, step_of hub ?_, hub, ?_⟩
  · simp [step', hg, hgone, hp]
  change (s.managers.set m _)[m]? = _
  simp [hlt, hf]

/-- **C117, a round connects.** An idle manager can make a round, and is then connected to every server that was there, if nobody drops anything meanwhile. -/
theorem round_connects (as : List Act) (s : State) (e : run {} as = some s) (hub : s.ub = false) (m : Nat) (g : Manager) (hg : s.managers[m]? = some g) (hgone : g.gone = false) (hp : g.pending = none) :
    ∃ t, run s (.round m :: (List.replicate (discover s).length (.next m) ++ [.endRound m])) = some t ∧ t.ub = false ∧
      ∃ g', t.managers[m]? = some g' ∧ g'.pending = none ∧ ∀ i ∈ discover s, (i, some i) ∈ g'.conns := by
  have hi := inv_run e
  have key : ∀ (l : List Nat) (s : State) (g : Manager), Inv s → s.ub = false → s.managers[m]? = some g → g.pending = some l → (∀ i ∈ l, i ∈ discover s) →
      ∃ t, run s (List.replicate l.length (.next m)) = some t ∧ Inv t ∧ t.ub = false ∧ ∃ g', t.managers[m]? = some g' ∧ g'.pending = some [] ∧ (∀ c ∈ g.conns, c ∈ g'.conns) ∧
        ∀ i ∈ l, (i, some i) ∈ g'.conns := by
    intro l
    induction l with
    | nil => intro s g hi hub hg hp _; exact ⟨s, rfl, hi, hub, g, hg, hp, fun _ h => h, fun _ h => by cases h⟩
    | cons i l ih =>
      intro s g hi hub hg hp hall
      obtain ⟨t, ht, hcase⟩ := next_step hi hub m g hg i l hp
      have hit := inv_step hi ht
      have hal : ∀ j ∈ l, j ∈ discover t := fun j hj => alive_step hi ht (by simp) (by simp) j (hall j (List.mem_cons_of_mem _ hj))
      have fin : ∀ g1 : Manager, t.ub = false → t.managers[m]? = some g1 → g1.pending = some l → (∀ c ∈ g.conns, c ∈ g1.conns) → (i, some i) ∈ g1.conns →
          ∃ t, run s (List.replicate (i :: l).length (.next m)) = some t ∧ Inv t ∧ t.ub = false ∧ ∃ g', t.managers[m]? = some g' ∧ g'.pending = some [] ∧ (∀ c ∈ g.conns, c ∈ g'.conns) ∧
        ∀ j ∈ i :: l, (j, some j) ∈ g'.conns := by
        intro g1 hu h1 h2 h3 h4
        obtain ⟨t', r, q1, q2, g', q3, q4, q5, q6⟩ := ih t g1 hit hu h1 h2 hal
        refine ⟨t', ?_, q1, q2, g', q3, q4, fun c hc => q5 c (h3 c hc), fun j hj => ?_⟩
        · simp only [List.length_cons, List.replicate_succ, run, ht, Option.bind_some]; exact r
        · rcases List.mem_cons.1 hj with rfl | hj
          · exact q5 _ h4
          · exact q6 j hj
      rcases hcase with ⟨hc, hu, hm⟩ | ⟨_, _, hu, hm⟩ | ⟨hd, _⟩
      · exact fin _ hu hm rfl (fun _ h => h) hc
      · exact fin _ hu hm rfl (fun _ h => List.mem_append_left _ h) (List.mem_append_right _ (List.mem_singleton.2 rfl))
      · exact absurd (hall i List.mem_cons_self) hd
  obtain ⟨t, ht, hu, hm⟩ := round_step hub m g hg hgone hp hi
  obtain ⟨t', r, q1, q2, g', q3, q4, q5, q6⟩ := key _ t _ (inv_step hi ht) hu hm rfl (fun j hj => alive_step hi ht (by simp) (by simp) j hj)
  have hlt := (List.getElem?_eq_some_iff.1 q3).1
  refine ⟨State.settle { t' with managers := t'.managers.set m { g' with pending := none } }, ?_, q2, { g' with pending := none }, ?_, rfl, q6⟩
  · simp only [run, ht, Option.bind_some, run_append, r]
    simp [step, q2, step', q3, q4]
  · change (t'.managers.set m _)[m]? = _
    simp [hlt]

/-- **C117, negation: dropped during a round.** If the last reference to a server that nobody is connected to is dropped just after a manager has discovered it, the manager uses a null pointer. -/
theorem dropped_in_round (as : List Act) (s : State) (e : run {} as = some s) (hub : s.ub = false) (m : Nat) (g : Manager) (hg : s.managers[m]? = some g) (hgone : g.gone = false) (hp : g.pending = none)
    (i : Nat) (hi1 : i < as.count .serve) (hlast : as.count (.drop i) = as.count (.hold i)) (hno : ∀ k ∈ s.managers, (i, some i) ∉ k.conns) :
    ∃ k t, run s (.round m :: .drop i :: List.replicate k (.next m)) = some t ∧ t.ub = true := by
  have hi := inv_run e
  have key : ∀ (l : List Nat) (s : State) (g : Manager), Inv s → s.ub = false → s.managers[m]? = some g → g.pending = some l → i ∈ l → i ∉ discover s → i < s.servers.length →
      ∃ k t, run s (List.replicate k (.next m)) = some t ∧ t.ub = true := by
    intro l
    induction l with
    | nil => intro s g _ _ _ _ h; cases h
    | cons j l ih =>
      intro s g hi hub hg hp hmem hd hlen
      obtain ⟨t, ht, hcase⟩ := next_step hi hub m g hg j l hp
      have hit := inv_step hi ht
      have hnc : (i, some i) ∉ g.conns := by
        intro hc
        have hgn : s.servers[i].gone = true := by
          cases q : s.servers[i].gone with
          | true => rfl
          | false => exact absurd ((mem_discover s i).2 ⟨_, List.getElem?_eq_getElem hlen, q⟩) hd
        have := (hi.gone i _ (List.getElem?_eq_getElem hlen) hgn).2
        rw [(connected_iff s i).2 ⟨g, List.mem_of_getElem? hg, _, hc, rfl⟩] at this
        cases this
      have stay : i ∉ discover t := by
        intro c
        obtain ⟨v, hv, hvg⟩ := (mem_discover t i).1 c
        rcases (held_step ht).2 i v hv with ⟨u, hu, hh⟩ | ⟨c, _⟩
        · have hgn : u.gone = true := by
            cases q : u.gone with
            | true => rfl
            | false => exact absurd ((mem_discover s i).2 ⟨u, hu, q⟩) hd
          have hz := hi.gone i u hu hgn
          simp only [reduceCtorEq, if_false] at hh
          rcases hit.alive i v hv hvg with q | q
          · rw [hz.1] at hh; omega
          · obtain ⟨k, hk, c, hc, hci⟩ := (connected_iff t i).1 q
            obtain ⟨n, hn⟩ := List.getElem?_of_mem hk
            have hk0 : ∃ k0, s.managers[n]? = some k0 := by
              cases q : s.managers[n]? with
              | some k0 => exact ⟨k0, rfl⟩
              | none => cases ((manager_step hi ht n).2 q k hn).1
            obtain ⟨k0, hk0⟩ := hk0
            obtain ⟨k', hk', _, _, _, _, hsub, _⟩ := (manager_step hi ht n).1 k0 hk0
            rw [hn] at hk'; cases hk'
            have old : c ∉ k0.conns := by
              intro hold
              rw [(connected_iff s i).2 ⟨k0, List.mem_of_getElem? hk0, c, hold, hci⟩] at hz
              cases hz.2
            by_cases hnm : n = m
            · subst hnm
              rw [hg] at hk0; cases hk0
              rcases hcase with ⟨_, _, h3⟩ | ⟨hd2, _, _, h3⟩ | ⟨h3, h4⟩
              · rw [hn] at h3; cases h3; exact old hc
              · rw [hn] at h3; cases h3
                rcases List.mem_append.1 hc with hc | hc
                · exact old hc
                · cases List.mem_singleton.1 hc
                  cases hci
                  exact hd hd2
              · obtain ⟨_, u2, h5, rfl⟩ := step_some ht
                simp only [step', hg, hp] at h5
                split at h5
                · cases h5
                  rw [show (State.settle { s with managers := s.managers.set n { g with pending := some l } }).ub = s.ub from rfl, hub] at h4
                  cases h4
                · split at h5
                  · split at h5
                    · cases h5
                      change s.managers[n]? = some k at hn
                      rw [hg] at hn; cases hn
                      exact old hc
                    · cases h5
                      change s.ub = true at h4
                      rw [hub] at h4; cases h4
                  · cases h5
            · exact old (hsub (fun c => hnm (by cases c; rfl)) c hc)
        · cases c
      have hlen' : i < t.servers.length := by rw [(held_step ht).1]; omega
      have cont : ∀ g1 : Manager, t.ub = false → t.managers[m]? = some g1 → g1.pending = some l → i ∈ l → ∃ k t, run s (List.replicate k (.next m)) = some t ∧ t.ub = true := by
        intro g1 h1 h2 h3 h4
        obtain ⟨k, t', r, h5⟩ := ih t g1 hit h1 h2 h3 h4 stay hlen'
        exact ⟨k + 1, t', by simp only [List.replicate_succ, run, ht, Option.bind_some]; exact r, h5⟩
      rcases hcase with ⟨hc, hu, h3⟩ | ⟨hd2, _, hu, h3⟩ | ⟨_, h4⟩
      · rcases List.mem_cons.1 hmem with rfl | hmem
        · exact absurd hc hnc
        · exact cont _ hu h3 rfl hmem
      · rcases List.mem_cons.1 hmem with rfl | hmem
        · exact absurd hd2 hd
        · exact cont _ hu h3 rfl hmem
      · exact ⟨1, t, by simp [List.replicate, run, ht], h4⟩
  obtain ⟨t, ht, hu, hm⟩ := round_step hub m g hg hgone hp hi
  have hit := inv_step hi ht
  have hfound : i ∈ discover s := (found_iff as s e i).2 ⟨hi1, .inl (by simp only [Dropped]; omega)⟩
  have et : run {} (as ++ [.round m]) = some t := by rw [run_append, e]; simp [run, ht]
  have hlt : i < t.servers.length := by
    have h1 := (held_run et).1
    simp only [List.count_append] at h1
    simp at h1
    omega
  have hheld : t.servers[i].held = 1 := by
    have := (held_run et).2 i _ (List.getElem?_eq_getElem hlt)
    simp [List.count_append] at this
    omega
  have hd : ∃ t', step t (.drop i) = some t' ∧ t'.ub = false ∧ t'.managers = t.managers := by
    exact ⟨State.settle { t with servers := t.servers.set i { t.servers[i] with held := t.servers[i].held - 1 } }, step_of hu (by simp [step', List.getElem?_eq_getElem hlt, hheld]), hu, rfl⟩
  obtain ⟨t', ht', hu', hm'⟩ := hd
  have et' : run {} (as ++ [.round m, .drop i]) = some t' := by rw [run_append, e]; simp [run, ht, ht']
  have hgone' : i ∉ discover t' := by
    intro c
    rcases ((found_iff _ t' et' i).1 c).2 with h | ⟨k, hk, hc⟩
    · refine h ?_
      simp [Dropped, List.count_append]
      omega
    · rw [hm'] at hk
      obtain ⟨n, hn⟩ := List.getElem?_of_mem hk
      have hk0 : ∃ k0, s.managers[n]? = some k0 := by
        cases q : s.managers[n]? with
        | some k0 => exact ⟨k0, rfl⟩
        | none => cases ((manager_step hi ht n).2 q k hn).1
      obtain ⟨k0, hk0⟩ := hk0
      obtain ⟨k', hk', _, _, _, _, hsub, _⟩ := (manager_step hi ht n).1 k0 hk0
      rw [hn] at hk'; cases hk'
      exact hno k0 (List.mem_of_getElem? hk0) (hsub (by simp) _ hc)
  obtain ⟨k, t'', r, h⟩ := key _ t' _ (inv_step hit ht') hu' (by rw [hm']; exact hm) rfl hfound hgone' (by rw [(held_step ht').1]; omega)
  exact ⟨k, t'', by simp only [run, ht, ht', Option.bind_some]; exact r, h⟩

/-- What the managers hold, by their history. -/
theorem manager_run {as : List Act} {s : State} (e : run {} as = some s) (m : Nat) :
    (∀ g : Manager, s.managers[m]? = some g → (.destroy m ∈ as → g.conns = [] ∧ g.gone = true) ∧ (.round m ∉ as → g.conns = [] ∧ g.pending = none)) ∧ s.managers.length = as.count .newManager := by
  have key : ∀ (bs xs : List Act) (u : State), run {} xs = some u → as = xs ++ bs → run u bs = some s →
      ((∀ g : Manager, u.managers[m]? = some g → (.destroy m ∈ xs → g.conns = [] ∧ g.gone = true) ∧ (.round m ∉ xs → g.conns = [] ∧ g.pending = none)) ∧ (u.managers[m]? = none → .destroy m ∉ xs) ∧
        u.managers.length = xs.count .newManager) →
      (∀ g : Manager, s.managers[m]? = some g → (.destroy m ∈ as → g.conns = [] ∧ g.gone = true) ∧ (.round m ∉ as → g.conns = [] ∧ g.pending = none)) ∧ s.managers.length = as.count .newManager := by
    intro bs
    induction bs with
    | nil => intro xs u hx ha hr hP; cases hr; rw [ha, List.append_nil]; exact ⟨hP.1, hP.2.2⟩
    | cons a bs ih =>
      intro xs u hx ha hr ⟨hP, hN, hL⟩
      obtain ⟨v, h1, h2⟩ := Option.bind_eq_some_iff.1 hr
      have hi := inv_run hx
      have hst := manager_step hi h1 m
      have hx' : run {} (xs ++ [a]) = some v := by rw [run_append, hx]; simp [run, h1]
      have hiv := inv_run hx'
      refine ih (xs ++ [a]) v hx' (by rw [ha, List.append_assoc]; rfl) h2 ⟨?_, ?_, ?_⟩
      · intro g' hg'
        cases hu : u.managers[m]? with
        | none =>
          obtain ⟨rfl, rfl⟩ := hst.2 hu g' hg'
          refine ⟨fun h => ?_, fun _ => ⟨rfl, rfl⟩⟩
          rcases List.mem_append.1 h with h | h
          · exact absurd h (hN hu)
          · cases List.mem_singleton.1 h
        | some g =>
          obtain ⟨k, hk, k1, k2, k3, k4, k5, k6⟩ := hst.1 g hu
          rw [hg'] at hk; cases hk
          refine ⟨fun h => ?_, fun h => ?_⟩
          · have hgone : g'.gone = true := by
              rcases List.mem_append.1 h with h | h
              · exact k3 ((hP g hu).1 h).2
              · exact (k2 (List.mem_singleton.1 h).symm).2
            exact ⟨(hiv.empty g' (List.mem_of_getElem? hg') hgone).1, hgone⟩
          · simp only [List.mem_append, List.mem_singleton, not_or] at h
            have hold := (hP g hu).2 h.1
            refine ⟨?_, k6 hold.2 (fun c => h.2 c.symm)⟩
            have hne : a ≠ .next m := by
              intro c; subst c
              obtain ⟨_, w, h3, _⟩ := step_some h1
              simp only [step', hu, hold.2] at h3
              cases h3
            exact List.eq_nil_iff_forall_not_mem.2 fun c hc => by
              have := k5 hne c hc
              rw [hold.1] at this; cases this
      · intro hn hmem
        rcases List.mem_append.1 hmem with h | h
        · have : u.managers[m]? = none := by
            cases q : u.managers[m]? with
            | none => rfl
            | some g => obtain ⟨k, hk, _⟩ := hst.1 g q; rw [hn] at hk; cases hk
          exact hN this h
        · cases List.mem_singleton.1 h
          obtain ⟨_, w, h3, _⟩ := step_some h1
          simp only [step'] at h3
          split at h3
          · rename_i g hg
            obtain ⟨k, hk, _⟩ := hst.1 g hg
            rw [hn] at hk; cases hk
          · cases h3
      · rw [List.count_append, ← hL]
        obtain ⟨_, w, h3, rfl⟩ := step_some h1
        change w.managers.length = _
        cases a
        case newManager => simp only [step', Option.some.injEq] at h3; subst h3; simp
        all_goals
          simp only [step'] at h3
          repeat' split at h3
          all_goals first | (cases h3; done) | (simp only [Option.some.injEq] at h3; subst h3; simp)
  exact key as [] {} rfl rfl e ⟨fun g hg => by simp at hg, fun _ => by simp, rfl⟩

/-- **C117, partial: without managers.** A server that the program has dropped is not discovered, if every manager that ever made a round was destroyed. -/
theorem dropped_unseen_partial (as : List Act) (s : State) (e : run {} as = some s) (hm : ∀ m, .round m ∈ as → .destroy m ∈ as) (i : Nat) (hd : Dropped as i) : i ∉ discover s := by
  intro h
  rcases ((found_iff as s e i).1 h).2 with h | ⟨g, hg, hc⟩
  · exact h hd
  · obtain ⟨m, hmm⟩ := List.getElem?_of_mem hg
    have := (manager_run e m).1 g hmm
    by_cases hr : .round m ∈ as
    · rw [(this.1 (hm m hr)).1] at hc; cases hc
    · rw [(this.2 hr).1] at hc; cases hc

/-- No references are dropped and no managers are destroyed during a round. -/
def Quiet (as : List Act) : Prop :=
  ∀ xs a ys, as = xs ++ a :: ys → ((∃ i, a = .drop i) ∨ ∃ m, a = .destroy m) → ∀ m, xs.count (.round m) = xs.count (.endRound m)

/-- 1 while manager `m` makes a round. -/
def inRound (s : State) (m : Nat) : Nat := match s.managers[m]? with
  | some g => if g.pending = none then 0 else 1
  | none => 0

theorem inRound_of {s : State} {m : Nat} {g : Manager} (h : s.managers[m]? = some g) : inRound s m = if g.pending = none then 0 else 1 := by
  simp only [inRound, h]

theorem inRound_set {s : State} {k m : Nat} {g' : Manager} {n : Nat} (hn : k < s.managers.length) (h : k = m → n = if g'.pending = none then 0 else 1) (h' : k ≠ m → n = inRound s m) :
    inRound { s with managers := s.managers.set k g' } m = n := by
  by_cases e : k = m
  · subst e
    rw [h rfl]
    simp [inRound, hn]
  · rw [h' e]
    simp only [inRound, List.getElem?_set_ne e]

theorem inRound_step {s t : State} {a : Act} (e : step s a = some t) (m : Nat) :
    inRound t m + (if a = .endRound m then 1 else 0) = inRound s m + (if a = .round m then 1 else 0) := by
  obtain ⟨_, u, h1, rfl⟩ := step_some e
  have hu : inRound u.settle m = inRound u m := rfl
  rw [hu]
  cases a with
  | serve => simp only [step', Option.some.injEq] at h1; subst h1; simp [inRound]
  | hold i =>
    simp only [step'] at h1
    repeat' split at h1
    all_goals first | (cases h1; done) | (simp only [Option.some.injEq] at h1; subst h1; simp [inRound])
  | drop i =>
    simp only [step'] at h1
    repeat' split at h1
    all_goals first | (cases h1; done) | (simp only [Option.some.injEq] at h1; subst h1; simp [inRound])
  | newManager =>
    simp only [step', Option.some.injEq] at h1; subst h1
    simp only [reduceCtorEq, if_false, Nat.add_zero, inRound]
    by_cases h : m < s.managers.length
    · rw [List.getElem?_append_left h]
    · have h' : s.managers.length ≤ m := by omega
      rw [List.getElem?_append_right h', List.getElem?_eq_none h']
      cases q : [({} : Manager)][m - s.managers.length]? with
      | none => rfl
      | some g =>
        have := List.mem_of_getElem? q
        simp only [List.mem_singleton] at this
        subst this; rfl
  | round k =>
    simp only [step'] at h1
    split at h1
    · rename_i g hg
      split at h1
      · cases h1
      · rename_i hq
        have hn : g.pending = none := Decidable.byContradiction fun c => hq (.inr c)
        simp only [Option.some.injEq] at h1; subst h1
        rw [inRound_set (n := inRound s m + (if Act.round k = .round m then 1 else 0)) (List.getElem?_eq_some_iff.1 hg).1]
        · simp
        · rintro rfl; rw [inRound_of hg, hn]; simp
        · intro hk; simp [hk]
    · cases h1
  | next k =>
    simp only [step'] at h1
    split at h1
    · rename_i g hg
      split at h1
      · rename_i i rest hp
        split at h1
        · simp only [Option.some.injEq] at h1; subst h1
          rw [inRound_set (n := inRound s m) (List.getElem?_eq_some_iff.1 hg).1]
          · simp
          · rintro rfl; rw [inRound_of hg, hp]; simp
          · intro _; rfl
        · split at h1
          · split at h1
            · simp only [Option.some.injEq] at h1; subst h1; simp [inRound]
            · simp only [Option.some.injEq] at h1; subst h1
              rw [inRound_set (n := inRound s m) (List.getElem?_eq_some_iff.1 hg).1]
              · simp
              · rintro rfl; rw [inRound_of hg, hp]; simp
              · intro _; rfl
          · cases h1
      · cases h1
    · cases h1
  | endRound k =>
    simp only [step'] at h1
    split at h1
    · rename_i g hg
      split at h1
      · rename_i hp
        simp only [Option.some.injEq] at h1; subst h1
        rw [inRound_set (n := if k = m then 0 else inRound s m) (List.getElem?_eq_some_iff.1 hg).1]
        · by_cases c : k = m
          · subst c; rw [inRound_of hg, hp]; simp
          · simp [c]
        · rintro rfl; simp
        · intro hk; simp [hk]
      · cases h1
    · cases h1
  | destroy k =>
    simp only [step'] at h1
    split at h1
    · rename_i g hg
      split at h1
      · cases h1
      · simp only [Option.some.injEq] at h1; subst h1
        rw [inRound_set (n := inRound s m) (List.getElem?_eq_some_iff.1 hg).1]
        · simp
        · rintro rfl; rw [inRound_of hg]
        · intro _; rfl
    · cases h1

/-- What is still to be looked at was so before, or has just been discovered. -/
theorem pending_step {s t : State} {a : Act} (e : step s a = some t) (g' : Manager) (hg' : g' ∈ t.managers) (l : List Nat) (hl : g'.pending = some l) (i : Nat) (hi : i ∈ l) :
    i ∈ discover s ∨ ∃ g ∈ s.managers, ∃ k, g.pending = some k ∧ i ∈ k := by
  obtain ⟨_, u, h1, rfl⟩ := step_some e
  change g' ∈ u.managers at hg'
  cases a with
  | newManager =>
    simp only [step', Option.some.injEq] at h1; subst h1
    rcases List.mem_append.1 hg' with h | h
    · exact .inr ⟨g', h, l, hl, hi⟩
    · cases List.mem_singleton.1 h; cases hl
  | serve => simp only [step', Option.some.injEq] at h1; subst h1; exact .inr ⟨g', hg', l, hl, hi⟩
  | hold j =>
    simp only [step'] at h1
    repeat' split at h1
    all_goals first | (cases h1; done) | (simp only [Option.some.injEq] at h1; subst h1; exact .inr ⟨g', hg', l, hl, hi⟩)
  | drop j =>
    simp only [step'] at h1
    repeat' split at h1
    all_goals first | (cases h1; done) | (simp only [Option.some.injEq] at h1; subst h1; exact .inr ⟨g', hg', l, hl, hi⟩)
  | round k =>
    simp only [step'] at h1
    split at h1
    · split at h1
      · cases h1
      · simp only [Option.some.injEq] at h1; subst h1
        rcases mem_set hg' with rfl | h
        · cases hl; exact .inl hi
        · exact .inr ⟨g', h, l, hl, hi⟩
    · cases h1
  | next k =>
    simp only [step'] at h1
    split at h1
    · rename_i g hg
      have hmem := List.mem_of_getElem? hg
      split at h1
      · rename_i j rest hp
        split at h1
        · simp only [Option.some.injEq] at h1; subst h1
          rcases mem_set hg' with rfl | h
          · cases hl; exact .inr ⟨g, hmem, _, hp, List.mem_cons_of_mem _ hi⟩
          · exact .inr ⟨g', h, l, hl, hi⟩
        · split at h1
          · split at h1
            · simp only [Option.some.injEq] at h1; subst h1; exact .inr ⟨g', hg', l, hl, hi⟩
            · simp only [Option.some.injEq] at h1; subst h1
              rcases mem_set hg' with rfl | h
              · cases hl; exact .inr ⟨g, hmem, _, hp, List.mem_cons_of_mem _ hi⟩
              · exact .inr ⟨g', h, l, hl, hi⟩
          · cases h1
      · cases h1
    · cases h1
  | endRound k =>
    simp only [step'] at h1
    split at h1
    · split at h1
      · simp only [Option.some.injEq] at h1; subst h1
        rcases mem_set hg' with rfl | h
        · cases hl
        · exact .inr ⟨g', h, l, hl, hi⟩
      · cases h1
    · cases h1
  | destroy k =>
    simp only [step'] at h1
    split at h1
    · rename_i g hg
      split at h1
      · cases h1
      · simp only [Option.some.injEq] at h1; subst h1
        rcases mem_set hg' with rfl | h
        · exact .inr ⟨g, List.mem_of_getElem? hg, l, hl, hi⟩
        · exact .inr ⟨g', h, l, hl, hi⟩
    · cases h1

/-- **C117, partial: managers survive.** If nobody lets go of anything while a manager makes a round, no manager uses a null pointer. -/
theorem quiet_survives_partial (as : List Act) (s : State) (e : run {} as = some s) (hq : Quiet as) : s.ub = false := by
  have key : ∀ (bs xs : List Act) (u : State), run {} xs = some u → as = xs ++ bs → run u bs = some s →
      u.ub = false → (∀ g ∈ u.managers, ∀ l, g.pending = some l → ∀ i ∈ l, i ∈ discover u) → (∀ m, xs.count (.round m) = xs.count (.endRound m) + inRound u m) → s.ub = false := by
    intro bs
    induction bs with
    | nil => intro xs u _ _ hr hu _ _; cases hr; exact hu
    | cons a bs ih =>
      intro xs u hx ha hr hu hp hc
      obtain ⟨v, h1, h2⟩ := Option.bind_eq_some_iff.1 hr
      have hi := inv_run hx
      refine ih (xs ++ [a]) v (by rw [run_append, hx]; simp [run, h1]) (by rw [ha, List.append_assoc]; rfl) h2 ?_ ?_ ?_
      · cases a with
        | next m =>
          obtain ⟨_, w, h3, rfl⟩ := step_some h1
          have hsome : ∃ g i rest, u.managers[m]? = some g ∧ g.pending = some (i :: rest) := by
            simp only [step'] at h3
            split at h3
            · rename_i g hg
              split at h3
              · rename_i i rest hpp; exact ⟨g, i, rest, hg, hpp⟩
              · cases h3
            · cases h3
          obtain ⟨g, i, rest, hg, hpp⟩ := hsome
          obtain ⟨t, ht, hcase⟩ := next_step hi hu m g hg i rest hpp
          rw [h1] at ht; cases ht
          rcases hcase with h | h | h
          · exact h.2.1
          · exact h.2.2.1
          · exact absurd (hp g (List.mem_of_getElem? hg) _ hpp i List.mem_cons_self) h.1
        | serve => obtain ⟨_, w, h3, rfl⟩ := step_some h1; simp only [step', Option.some.injEq] at h3; subst h3; exact hu
        | newManager => obtain ⟨_, w, h3, rfl⟩ := step_some h1; simp only [step', Option.some.injEq] at h3; subst h3; exact hu
        | _ =>
          obtain ⟨_, w, h3, rfl⟩ := step_some h1
          change w.ub = false
          simp only [step'] at h3
          repeat' split at h3
          all_goals first | (cases h3; done) | (simp only [Option.some.injEq] at h3; subst h3; exact hu)
      · intro g hg l hl i hil
        by_cases hloud : (∃ i, a = .drop i) ∨ ∃ m, a = .destroy m
        · exfalso
          obtain ⟨m, hm⟩ := List.getElem?_of_mem hg
          have h3 := hc m
          have h4 := hq xs a bs ha hloud m
          have h5 := inRound_step h1 m
          have h6 : ¬ a = .round m := by rcases hloud with ⟨j, rfl⟩ | ⟨j, rfl⟩ <;> simp
          rw [if_neg h6, inRound_of hm, hl] at h5
          simp at h5
          omega
        · have h3 : ∀ i, a ≠ .drop i := fun i c => hloud (.inl ⟨i, c⟩)
          have h4 : ∀ m, a ≠ .destroy m := fun m c => hloud (.inr ⟨m, c⟩)
          refine alive_step hi h1 h3 h4 i ?_
          rcases pending_step h1 g hg l hl i hil with h | ⟨g0, hg0, k, hk, hik⟩
          · exact h
          · exact hp g0 hg0 k hk i hik
      · intro m
        have h3 := hc m
        have h5 := inRound_step h1 m
        have c1 : (xs ++ [a]).count (.round m) = xs.count (.round m) + (if a = .round m then 1 else 0) := by
          rw [List.count_append]; simp [List.count_cons]
        have c2 : (xs ++ [a]).count (.endRound m) = xs.count (.endRound m) + (if a = .endRound m then 1 else 0) := by
          rw [List.count_append]; simp [List.count_cons]
        rw [c1, c2]; omega
  exact key as [] {} rfl rfl e rfl (fun g hg => by cases hg) (fun m => by simp [inRound])

/-- Two servers; the program drops one between rounds, then the manager is destroyed and the other is dropped: nothing is found any more. -/
example : ∃ s, run {} [.serve, .serve, .newManager, .drop 0, .round 0, .next 0, .endRound 0, .destroy 0, .drop 1] = some s ∧ discover s = [] ∧ s.ub = false := ⟨_, rfl, rfl, rfl⟩

/-- The same server is found while the manager exists. -/
theorem kept_run : ∃ s, run {} [.serve, .newManager, .round 0, .next 0, .endRound 0, .drop 0, .round 0, .next 0, .endRound 0] = some s ∧ discover s = [0] ∧ s.ub = false := ⟨_, rfl, rfl, rfl⟩

theorem not_Disappears : ¬ Disappears := by
  intro h
  obtain ⟨s, e, hd, _⟩ := kept_run
  refine (h _ s e).2 0 (by decide) (by decide) ?_
  rw [hd]; simp

end Scalopus.C117
