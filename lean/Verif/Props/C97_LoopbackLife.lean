import Verif.Model.LoopbackLife

/-!
# C97: loopback transports may be made and released at any time
-/

namespace Scalopus.C97

open LoopbackLife

/-- The full property: nothing goes wrong, whenever clients connect and references are dropped. -/
def AlwaysSafe : Prop := ∀ as, run {} as ≠ .ub ∧ run {} as ≠ .terminate

theorem run_append (as bs : List Act) (s : State) : run s (as ++ bs) = match run s as with
    | .ok s' => run s' bs
    | o => o := by
  induction as generalizing s with
  | nil => rfl
  | cons a as ih =>
    simp only [List.cons_append, run]
    cases step s a with
    | ok s' => exact ih s'
    | no => rfl
    | ub => rfl
    | terminate => rfl

/-- **C97, connecting (negation).** Whenever the server's worker walks through its clients for a broadcast, connecting a new client is undefined behaviour. -/
theorem connect_while_walking (as : List Act) (s : State) (h : run {} as = .ok s) (hp : s.phase = .alive) (hw : s.walking = true) : run {} (as ++ [.connect]) = .ub := by
  rw [run_append, h]
  simp [run, step, hp, hw]

/-- **C97, releasing (negation).** Whenever the users drop their last references to the server and to its clients while the server's worker gives a broadcast to one of them, the process is terminated:
the worker destroys the client, with it the server, and cannot join itself. -/
theorem last_in_worker (as : List Act) (s : State) (h : run {} as = .ok s) (i : Nat) (hl : s.lent = some i) (hi : i < s.clients.length) (hc : (client s i).held = 0) (hp : s.phase = .alive) (hs : s.held = 0)
    (ho : ∀ j, j ≠ i → ∀ c, s.clients[j]? = some c → c.gone = true) : run {} (as ++ [.unlend]) = .terminate := by
  rw [run_append, h]
  have hall : (s.clients.set i { client s i with gone := true }).all (·.gone) = true := by
    rw [List.all_eq_true]
    intro c hcm
    obtain ⟨j, hj⟩ := List.getElem?_of_mem hcm
    rw [List.getElem?_set] at hj
    split at hj
    · simp only [hi, if_true, Option.some.injEq] at hj; rw [← hj]
    · rename_i hne; exact ho j (fun h => hne h.symm) c hj
  simp only [run, step, hl, checkClient]
  have e1 : client { s with lent := none } i = client s i := rfl
  rw [e1, if_pos ⟨hc, by simp⟩, checkServer, if_pos ⟨hp, hs, hall⟩]
  rfl

theorem not_AlwaysSafe : ¬ AlwaysSafe := fun h => (h [.walk, .connect]).1 (by decide)

/-- Both happen. -/
example : run {} [.connect, .dropServer, .walk, .lend 0, .dropClient 0, .unlend] = .terminate := by decide

/-! ### What holds -/

structure Inv (s : State) : Prop where
  lent : ∀ i, s.lent = some i → s.walking = true ∧ i < s.clients.length ∧ (client s i).gone = false
  gone : ∀ i c, s.clients[i]? = some c → (c.gone = true ↔ c.held = 0 ∧ s.lent ≠ some i)
  alive : s.phase = .alive ↔ 0 < s.held ∨ ∃ c ∈ s.clients, c.gone = false

theorem inv_init : Inv {} := ⟨fun _ h => (by cases h), fun _ _ h => (by cases h), by simp⟩

theorem client_eq {s : State} {i : Nat} {c : Client} (h : s.clients[i]? = some c) : client s i = c := by
  simp [client, List.getD_eq_getElem?_getD, h]

theorem lt_of_held {s : State} {i : Nat} (h : 0 < (client s i).held) : i < s.clients.length := by
  apply Classical.byContradiction
  intro hn
  have : s.clients[i]? = none := List.getElem?_eq_none (Nat.le_of_not_lt hn)
  simp [client, List.getD_eq_getElem?_getD, this] at h

theorem get_client {s : State} {i : Nat} (h : i < s.clients.length) : s.clients[i]? = some (client s i) := by
  simp [client, List.getD_eq_getElem?_getD, List.getElem?_eq_getElem h]

theorem checkServer_inv {s s' : State} {w : Bool} (hl : ∀ i, s.lent = some i → s.walking = true ∧ i < s.clients.length ∧ (client s i).gone = false)
    (hg : ∀ i c, s.clients[i]? = some c → (c.gone = true ↔ c.held = 0 ∧ s.lent ≠ some i)) (ha : (0 < s.held ∨ ∃ c ∈ s.clients, c.gone = false) → s.phase = .alive)
    (e : checkServer s w = .ok s') : Inv s' := by
  unfold checkServer at e
  split at e
  · rename_i hc
    split at e
    · cases e
    · simp only [Out.ok.injEq] at e; subst e
      refine ⟨hl, hg, ?_⟩
      have hall := List.all_eq_true.1 hc.2.2
      simp only [reduceCtorEq, false_iff, not_or, not_exists, not_and]
      exact ⟨by have := hc.2.1; omega, fun c hm hf => by rw [hall c hm] at hf; cases hf⟩
  · rename_i hc
    simp only [Out.ok.injEq] at e; subst e
    refine ⟨hl, hg, fun hp => ?_, ha⟩
    apply Classical.byContradiction
    intro hn
    simp only [not_or, not_exists, not_and, Bool.not_eq_false] at hn
    exact hc ⟨hp, by omega, List.all_eq_true.2 hn.2⟩

theorem checkClient_inv {s s' : State} {w : Bool} {i : Nat} (hl : ∀ i, s.lent = some i → s.walking = true ∧ i < s.clients.length ∧ (client s i).gone = false)
    (hg : ∀ j c, s.clients[j]? = some c → j ≠ i → (c.gone = true ↔ c.held = 0 ∧ s.lent ≠ some j)) (hi : i < s.clients.length) (hig : (client s i).gone = false) (ha : s.phase = .alive)
    (e : checkClient s i w = .ok s') : Inv s' := by
  unfold checkClient at e
  split at e
  · rename_i hc
    refine checkServer_inv (s := setClient s i { client s i with gone := true }) ?_ ?_ (fun _ => ha) e
    · intro j hj
      have hne : j ≠ i := fun h => hc.2 (by rw [← h]; exact hj)
      obtain ⟨h1, h2, h3⟩ := hl j hj
      refine ⟨h1, by simpa [setClient] using h2, ?_⟩
      have : client (setClient s i { client s i with gone := true }) j = client s j := by
        simp only [client, setClient, List.getD_eq_getElem?_getD, List.getElem?_set]
        rw [if_neg (fun h => hne h.symm)]
      rw [this]; exact h3
    · intro j c hj
      simp only [setClient, List.getElem?_set] at hj
      split at hj
      · rename_i hij; subst hij
        simp only [hi, if_true, Option.some.injEq] at hj; subst hj
        exact ⟨fun _ => hc, fun _ => rfl⟩
      · rename_i hij; exact hg j c hj (fun h => hij h.symm)
  · rename_i hc
    simp only [Out.ok.injEq] at e; subst e
    refine ⟨hl, fun j c hj => ?_, fun _ => Or.inr ⟨client s i, List.mem_of_getElem? (get_client hi), hig⟩, fun _ => ha⟩
    by_cases hji : j = i
    · subst hji
      rw [get_client hi, Option.some.injEq] at hj; subst hj
      rw [hig]
      simp only [Bool.false_eq_true, false_iff]
      exact hc
    · exact hg j c hj hji

theorem client_set {s : State} {i j : Nat} {c : Client} (hi : i < s.clients.length) : client (setClient s i c) j = if j = i then c else client s j := by
  simp only [client, setClient, List.getD_eq_getElem?_getD, List.getElem?_set]
  by_cases h : i = j
  · subst h; simp [hi]
  · rw [if_neg h, if_neg (fun h2 => h h2.symm)]

theorem not_gone {s : State} (h : Inv s) {i : Nat} (hh : 0 < (client s i).held) : (client s i).gone = false := by
  have := h.gone i _ (get_client (lt_of_held hh))
  cases hg : (client s i).gone with
  | false => rfl
  | true => have := (this.1 hg).1; omega

theorem inv_step {s s' : State} (h : Inv s) {a : Act} (e : step s a = .ok s') : Inv s' := by
  cases a with
  | connect =>
    simp only [step] at e; split at e
    · rename_i hp
      split at e
      · cases e
      · rename_i hw
        simp only [Out.ok.injEq] at e; subst e
        refine ⟨fun i hi => absurd (h.lent i hi).1 hw, fun i c hc => ?_, fun _ => Or.inr ⟨{}, by simp, rfl⟩, fun _ => hp⟩
        rw [List.getElem?_append] at hc
        split at hc
        · exact h.gone i c hc
        · rename_i hi
          have hc' : c = {} := by
            rw [List.getElem?_singleton] at hc
            split at hc
            · exact (Option.some.inj hc).symm
            · cases hc
          subst hc'
          simp
    · cases e
  | holdServer =>
    simp only [step] at e; split at e
    · rename_i hh
      simp only [Out.ok.injEq] at e; subst e
      exact ⟨h.lent, h.gone, fun _ => Or.inl (Nat.succ_pos _), fun _ => h.alive.2 (Or.inl hh)⟩
    · cases e
  | dropServer =>
    simp only [step] at e; split at e
    · rename_i hh
      exact checkServer_inv (s := { s with held := s.held - 1 }) h.lent h.gone (fun _ => h.alive.2 (Or.inl hh)) e
    · cases e
  | holdClient i =>
    simp only [step] at e; split at e
    · rename_i hh
      simp only [Out.ok.injEq] at e; subst e
      have hi := lt_of_held hh
      refine ⟨fun j hj => ?_, fun j c hj => ?_, fun hp => ?_, fun _ => h.alive.2 (Or.inr ⟨client s i, List.mem_of_getElem? (get_client hi), not_gone h hh⟩)⟩
      · obtain ⟨h1, h2, h3⟩ := h.lent j hj
        refine ⟨h1, by simpa [setClient] using h2, ?_⟩
        rw [client_set hi]
        split
        · exact not_gone h hh
        · exact h3
      · simp only [setClient, List.getElem?_set] at hj
        split at hj
        · rename_i hij; subst hij
          simp only [hi, if_true, Option.some.injEq] at hj; subst hj
          have := not_gone h hh
          simp [this]
        · exact h.gone j c hj
      · refine Or.inr ⟨{ client s i with held := (client s i).held + 1 }, ?_, not_gone h hh⟩
        exact List.mem_of_getElem? (i := i) (by simp [setClient, hi])
    · cases e
  | dropClient i =>
    simp only [step] at e; split at e
    · rename_i hh
      have hi := lt_of_held hh
      refine checkClient_inv (s := setClient s i { client s i with held := (client s i).held - 1 }) ?_ ?_ (by simpa [setClient] using hi) ?_
        (h.alive.2 (Or.inr ⟨client s i, List.mem_of_getElem? (get_client hi), not_gone h hh⟩)) e
      · intro j hj
        obtain ⟨h1, h2, h3⟩ := h.lent j hj
        refine ⟨h1, by simpa [setClient] using h2, ?_⟩
        rw [client_set hi]
        split
        · exact not_gone h hh
        · exact h3
      · intro j c hj hne
        simp only [setClient, List.getElem?_set] at hj
        rw [if_neg (fun h => hne h.symm)] at hj
        exact h.gone j c hj
      · rw [client_set hi, if_pos rfl]; exact not_gone h hh
    · cases e
  | walk =>
    simp only [step] at e; split at e
    · rename_i hc
      simp only [Out.ok.injEq] at e; subst e
      exact ⟨fun i hi => ⟨rfl, (h.lent i hi).2⟩, h.gone, h.alive⟩
    · cases e
  | lend i =>
    simp only [step] at e; split at e
    · rename_i hc
      simp only [Out.ok.injEq] at e; subst e
      refine ⟨fun j hj => ?_, fun j c hj => ?_, h.alive⟩
      · simp only [Option.some.injEq] at hj; subst hj; exact ⟨hc.1, hc.2.2.1, hc.2.2.2⟩
      · have := h.gone j c hj
        rw [hc.2.1] at this
        simp only [ne_eq, reduceCtorEq, not_false_eq_true, and_true, Option.some.injEq] at this ⊢
        rw [this]
        refine ⟨fun hz => ⟨hz, fun hij => ?_⟩, fun hz => hz.1⟩
        subst hij
        rw [get_client hc.2.2.1, Option.some.injEq] at hj; subst hj
        rw [this.2 hz] at hc
        exact absurd hc.2.2.2 (by simp)
    · cases e
  | unlend =>
    simp only [step] at e; split at e
    · rename_i i hl
      obtain ⟨h1, h2, h3⟩ := h.lent i hl
      refine checkClient_inv (s := { s with lent := none }) (fun j hj => (by cases hj)) (fun j c hj hne => ?_) h2 h3 (h.alive.2 (Or.inr ⟨client s i, List.mem_of_getElem? (get_client h2), h3⟩)) e
      have := h.gone j c hj
      rw [hl] at this
      rw [this]
      simp only [ne_eq, Option.some.injEq, reduceCtorEq, not_false_eq_true, and_true]
      exact ⟨fun hh => hh.1, fun hh => ⟨hh, fun hij => hne hij.symm⟩⟩
    · cases e
  | walked =>
    simp only [step] at e; split at e
    · rename_i hc
      simp only [Out.ok.injEq] at e; subst e
      exact ⟨fun i hi => (by rw [hc.2] at hi; cases hi), h.gone, h.alive⟩
    · cases e
  | joined =>
    simp only [step] at e; split at e
    · rename_i hc
      simp only [Out.ok.injEq] at e; subst e
      refine ⟨h.lent, h.gone, ?_⟩
      have := h.alive
      rw [hc.1] at this
      simp only [reduceCtorEq, false_iff] at this ⊢
      exact this
    · cases e

theorem inv_run (as : List Act) : ∀ {s s' : State}, Inv s → run s as = .ok s' → Inv s' := by
  induction as with
  | nil => intro s s' h e; simp only [run, Out.ok.injEq] at e; subst e; exact h
  | cons a as ih =>
    intro s s' h e
    simp only [run] at e
    cases h1 : step s a with
    | ok s1 => rw [h1] at e; exact ih (inv_step h h1) e
    | no => rw [h1] at e; cases e
    | ub => rw [h1] at e; cases e
    | terminate => rw [h1] at e; cases e

/-- **C97 (partial).** Nothing goes wrong if clients connect only while no broadcast is being given to the clients, and the server is held by a user while one is. -/
theorem safe_partial (as : List Act) (h : ∀ bs a, bs ++ [a] <+: as → ∀ s, run {} bs = .ok s → s.walking = true → a ≠ .connect ∧ 0 < s.held) :
    run {} as ≠ .ub ∧ run {} as ≠ .terminate := by
  have go : ∀ (as bs : List Act) (s : State), run {} bs = .ok s → (∀ cs a, cs ++ [a] <+: bs ++ as → ∀ s, run {} cs = .ok s → s.walking = true → a ≠ .connect ∧ 0 < s.held) →
      run s as ≠ .ub ∧ run s as ≠ .terminate := by
    intro as
    induction as with
    | nil => intro bs s _ _; exact ⟨by simp [run], by simp [run]⟩
    | cons a as ih =>
      intro bs s hs hk
      have hi := inv_run bs inv_init hs
      have hks := hk bs a ⟨as, by simp⟩ s hs
      simp only [run]
      have key : step s a ≠ .ub ∧ step s a ≠ .terminate := by
        cases a with
        | connect =>
          simp only [step]
          split
          · split
            · rename_i hw; exact absurd rfl (hks hw).1
            · simp
          · simp
        | unlend =>
          simp only [step]
          split
          · rename_i i hl
            have hh := (hks (hi.lent i hl).1).2
            simp only [checkClient, checkServer, setClient]
            split
            · rw [if_neg (by rintro ⟨_, h2, _⟩; exact absurd h2 (by show ¬ s.held = 0; omega))]; simp
            · simp
          · simp
        | dropServer => simp only [step, checkServer]; split <;> (try split) <;> simp
        | dropClient i => simp only [step, checkClient, checkServer]; split <;> (try split) <;> (try split) <;> simp
        | holdServer => simp only [step]; split <;> simp
        | holdClient i => simp only [step]; split <;> simp
        | walk => simp only [step]; split <;> simp
        | lend i => simp only [step]; split <;> simp
        | walked => simp only [step]; split <;> simp
        | joined => simp only [step]; split <;> simp
      cases h1 : step s a with
      | no => simp
      | ub => exact absurd h1 key.1
      | terminate => exact absurd h1 key.2
      | ok s' =>
        refine ih (bs ++ [a]) s' ?_ (by rw [List.append_assoc]; exact hk)
        rw [run_append, hs]; simp only [run, h1]
  exact go as [] {} rfl h

/-- **C97, nothing is leaked.** The server is in use exactly while a user holds it or a client exists; a client exists exactly while a user or the worker holds it. Once the users have dropped everything,
outside of the worker's calls, the server's destructor has begun, and can end. -/
theorem no_leak (as : List Act) (s : State) (h : run {} as = .ok s) :
    (s.phase = .alive ↔ 0 < s.held ∨ ∃ c ∈ s.clients, c.gone = false) ∧ (∀ i c, s.clients[i]? = some c → (c.gone = false ↔ 0 < c.held ∨ s.lent = some i)) ∧
    (s.held = 0 → (∀ c ∈ s.clients, c.held = 0) → s.lent = none → s.phase = .gone ∨ ∃ bs s', (∀ a ∈ bs, a = .walked ∨ a = .joined) ∧ run {} (as ++ bs) = .ok s' ∧ s'.phase = .gone) := by
  have hi := inv_run as inv_init h
  have hg : ∀ i c, s.clients[i]? = some c → (c.gone = false ↔ 0 < c.held ∨ s.lent = some i) := by
    intro i c hc
    have := hi.gone i c hc
    constructor
    · intro hf
      apply Classical.byContradiction
      intro hn
      simp only [not_or] at hn
      rw [this.2 ⟨by omega, hn.2⟩] at hf; cases hf
    · intro ho
      cases hf : c.gone with
      | false => rfl
      | true =>
        have := this.1 hf
        rcases ho with ho | ho
        · omega
        · exact absurd ho this.2
  refine ⟨hi.alive, hg, fun h0 hc hl => ?_⟩
  have hna : s.phase ≠ .alive := by
    intro hp
    rcases hi.alive.1 hp with h1 | ⟨c, hm, hf⟩
    · omega
    · obtain ⟨i, hget⟩ := List.getElem?_of_mem hm
      rcases (hg i c hget).1 hf with h1 | h1
      · have := hc c hm; omega
      · rw [hl] at h1; cases h1
  cases hp : s.phase with
  | alive => exact absurd hp hna
  | gone => exact Or.inl rfl
  | dying =>
    right
    cases hw : s.walking with
    | false => exact ⟨[.joined], { s with phase := .gone }, by simp, by rw [run_append, h]; simp [run, step, hp, hw], rfl⟩
    | true => exact ⟨[.walked, .joined], { s with walking := false, phase := .gone }, by simp, by rw [run_append, h]; simp [run, step, hp, hw, hl], rfl⟩

/-- A client is dropped while it is called; the server, which is still held, goes on, and is destroyed later. -/
example : ∃ s, run {} [.connect, .connect, .walk, .lend 0, .dropClient 0, .unlend, .lend 1, .unlend, .walked, .dropClient 1, .dropServer, .joined] = .ok s ∧ s.phase = .gone ∧
    s.clients.all (·.gone) = true := ⟨_, rfl, rfl, rfl⟩

example : ∃ s, run {} [.connect, .dropServer, .walk, .lend 0, .dropClient 0] = .ok s ∧ s.lent = some 0 ∧ 0 < s.clients.length ∧ (client s 0).held = 0 ∧ s.phase = .alive ∧ s.held = 0 := ⟨_, rfl, rfl, by decide, rfl, rfl, rfl⟩

/-- **C97, the worker ends with the server.** Once the destructor of the server has returned, its worker takes no step, and no client exists. -/
theorem gone_is_quiet (as : List Act) (s : State) (h : run {} as = .ok s) (hg : s.phase = .gone) :
    s.walking = false ∧ s.lent = none ∧ (∀ c ∈ s.clients, c.gone = true) ∧ step s .walk = .no ∧ (∀ i, step s (.lend i) = .no) ∧ step s .unlend = .no ∧ step s .walked = .no := by
  have key : ∀ (as : List Act) (s s' : State), Inv s → (s.phase = .gone → s.walking = false) → run s as = .ok s' → (s'.phase = .gone → s'.walking = false) := by
    intro as
    induction as with
    | nil => intro s s' _ hw e; simp only [run, Out.ok.injEq] at e; subst e; exact hw
    | cons a as ih =>
      intro s s' hi hw e
      simp only [run] at e
      cases h1 : step s a with
      | no => rw [h1] at e; cases e
      | ub => rw [h1] at e; cases e
      | terminate => rw [h1] at e; cases e
      | ok s1 =>
        rw [h1] at e
        refine ih s1 s' (inv_step hi h1) ?_ e
        have cs : ∀ (s s1 : State) (w : Bool), checkServer s w = .ok s1 → s1.walking = s.walking ∧ (s1.phase = .gone → s.phase = .gone) := by
          intro s s1 w e
          simp only [checkServer] at e
          repeat' split at e
          all_goals first | (cases e; done) | (injection e with e; subst e; simp)
        have cc : ∀ (s s1 : State) (i : Nat) (w : Bool), checkClient s i w = .ok s1 → s1.walking = s.walking ∧ (s1.phase = .gone → s.phase = .gone) := by
          intro s s1 i w e
          simp only [checkClient] at e
          split at e
          · exact cs (setClient s i { client s i with gone := true }) s1 w e
          · injection e with e; subst e; simp
        intro hp
        cases a with
        | dropServer =>
          simp only [step] at h1
          split at h1
          · obtain ⟨k1, k2⟩ := cs _ s1 _ h1; rw [k1]; exact hw (k2 hp)
          · cases h1
        | dropClient i =>
          simp only [step] at h1
          split at h1
          · obtain ⟨k1, k2⟩ := cc _ s1 _ _ h1; rw [k1]; exact hw (k2 hp)
          · cases h1
        | unlend =>
          simp only [step] at h1
          split at h1
          · obtain ⟨k1, k2⟩ := cc _ s1 _ _ h1; rw [k1]; exact hw (k2 hp)
          · cases h1
        | _ =>
          simp only [step, setClient] at h1
          repeat' split at h1
          all_goals first | (cases h1; done) | (injection h1 with h1; subst h1; simp_all)
  have hw := key as {} s inv_init (by simp) h hg
  have hi := inv_run as inv_init h
  have hl : s.lent = none := by
    cases e : s.lent with
    | none => rfl
    | some i => rw [(hi.lent i e).1] at hw; cases hw
  refine ⟨hw, hl, ?_, by simp [step, hg], by simp [step, hw], by simp [step, hl], by simp [step, hw]⟩
  intro c hc
  cases e : c.gone with
  | true => rfl
  | false => have := hi.alive.2 (.inr ⟨c, hc, e⟩); rw [hg] at this; cases this

example : ∃ s, run {} [.connect, .dropServer, .walk, .walked, .dropClient 0, .joined] = .ok s ∧ s.phase = .gone := ⟨_, rfl, rfl⟩

end Scalopus.C97
