import Verif.Model.UnixMutual

/-!
# C106: a client and a server do not block each other

For every size of the buffers and every history of a client and a server that send answers, broadcasts and requests of any size.
-/

namespace Scalopus.C106

open UnixMutual

/-- Every call and every write has come to its end: nobody is in `request`, and both workers are back at reading. -/
def Free (s : State) : Prop := s.app = none ∧ s.client = .reading ∧ s.server = .reading

/-- The calls that are being made can return. -/
def GoesOn (cap : Nat) (s : State) : Prop := ∃ bs s', run cap s bs = some s' ∧ Free s'

/-- **C106** in full: whatever was sent, the calls that are being made can return. -/
def NeverBlocked : Prop := ∀ cap, 0 < cap → ∀ as s, run cap {} as = some s → GoesOn cap s

/-- Both workers are writing more than the buffers hold, the client's possibly after the thread that has the lock. -/
def Both (cap : Nat) (s : State) : Prop := ∃ k m, s.server = .writing k ∧ cap < s.toClient + k ∧ (s.client = .waiting m ∨ s.client = .writing m) ∧ cap < s.toServer + s.app.getD 0 + m

theorem run_cons (cap : Nat) (a : Act) (as : List Act) (s : State) : run cap s (a :: as) = (step cap s a).bind fun t => run cap t as := rfl

theorem run_append (cap : Nat) (as bs : List Act) {s s1 s2 : State} (h1 : run cap s as = some s1) (h2 : run cap s1 bs = some s2) : run cap s (as ++ bs) = some s2 := by
  induction as generalizing s with
  | nil => obtain rfl := Option.some.inj h1; exact h2
  | cons a as ih =>
    rw [List.cons_append, run_cons]
    rw [run_cons] at h1
    cases h : step cap s a with
    | none => rw [h] at h1; cases h1
    | some t => rw [h] at h1; exact ih h1

structure Inv (cap : Nat) (s : State) : Prop where
  roomC : s.toClient ≤ cap
  roomS : s.toServer ≤ cap
  lock : s.client.isWriting = true → s.app = none
  endS : s.endedServer = true → s.server = .reading
  endC : s.endedClient = true → s.client = .reading
  serverNoLock : ∀ k, s.server ≠ .waiting k

theorem inv_init (cap : Nat) : Inv cap {} := by constructor <;> simp [Mode.isWriting]

theorem inv_step {cap : Nat} {s s' : State} (h : Inv cap s) {a : Act} (e : step cap s a = some s') : Inv cap s' := by
  obtain ⟨h1, h2, h3, h4, h5, h6⟩ := h
  cases a <;> simp only [step] at e <;> (repeat' split at e) <;> first | cases e; done | skip
  all_goals (obtain rfl := Option.some.inj e; constructor <;> simp_all [Mode.isWriting] <;> try omega)

theorem inv_run {cap : Nat} (as : List Act) : ∀ {s s' : State}, Inv cap s → run cap s as = some s' → Inv cap s' := by
  induction as with
  | nil => intro s s' h e; obtain rfl := Option.some.inj e; exact h
  | cons a as ih =>
    intro s s' h e
    rw [run_cons] at e
    cases h1 : step cap s a with
    | none => rw [h1] at e; cases e
    | some t => rw [h1] at e; exact ih (inv_step h h1) e

theorem both_step {cap : Nat} {s s' : State} (h : Inv cap s) (hb : Both cap s) {a : Act} (e : step cap s a = some s') : Both cap s' := by
  obtain ⟨k, m, b1, b2, b3, b4⟩ := hb
  obtain ⟨h1, h2, h3, h4, h5, h6⟩ := h
  have eS : s.endedServer = false := by cases hh : s.endedServer with | false => rfl | true => rw [h4 hh] at b1; cases b1
  have eC : s.endedClient = false := by cases hh : s.endedClient with | false => rfl | true => rw [h5 hh] at b3; rcases b3 with b3 | b3 <;> cases b3
  cases a with
  | serverRead n => simp [step, b1] at e
  | serverBegin n => simp [step, b1] at e
  | serverWrite =>
    simp only [step, b1, eC, Bool.false_eq_true, if_false] at e
    rw [if_neg (by omega)] at e
    split at e
    · cases e
    · obtain rfl := Option.some.inj e
      exact ⟨_, m, rfl, by simp only; omega, b3, b4⟩
  | clientRead n => rcases b3 with b3 | b3 <;> simp [step, b3] at e
  | clientBegin n => rcases b3 with b3 | b3 <;> simp [step, b3] at e
  | clientLock =>
    rcases b3 with b3 | b3
    · simp only [step, b3] at e
      split at e
      · obtain rfl := Option.some.inj e
        exact ⟨k, m, b1, b2, .inr rfl, b4⟩
      · cases e
    · simp [step, b3] at e
  | clientWrite =>
    rcases b3 with b3 | b3
    · simp [step, b3] at e
    · have ha := h3 (by rw [b3]; rfl)
      rw [ha] at b4
      simp only [Option.getD_none, Nat.add_zero] at b4
      simp only [step, b3, eS, Bool.false_eq_true, if_false] at e
      rw [if_neg (by omega)] at e
      split at e
      · cases e
      · obtain rfl := Option.some.inj e
        exact ⟨k, _, b1, b2, .inr rfl, by simp only [ha, Option.getD_none]; omega⟩
  | request n =>
    simp only [step] at e
    split at e
    · rename_i hh
      obtain rfl := Option.some.inj e
      rw [hh.1] at b4
      exact ⟨k, m, b1, b2, b3, by simp only [Option.getD_none, Option.getD_some] at b4 ⊢; omega⟩
    · cases e
  | requestWrite =>
    simp only [step] at e
    split at e
    · rename_i n ha
      rw [ha] at b4
      simp only [Option.getD_some] at b4
      simp only [eS, Bool.false_eq_true, if_false] at e
      split at e
      · obtain rfl := Option.some.inj e
        exact ⟨k, m, b1, b2, b3, by simp only [Option.getD_none]; omega⟩
      · split at e
        · cases e
        · obtain rfl := Option.some.inj e
          exact ⟨k, m, b1, b2, b3, by simp only [Option.getD_some]; omega⟩
    · cases e
  | destroyServer => obtain rfl := Option.some.inj e; exact ⟨k, m, b1, b2, b3, b4⟩
  | destroyClient => obtain rfl := Option.some.inj e; exact ⟨k, m, b1, b2, b3, b4⟩
  | joinServer => simp [step, b1] at e
  | joinClient => rcases b3 with b3 | b3 <;> simp [step, b3] at e

theorem both_run {cap : Nat} (as : List Act) : ∀ {s s' : State}, Inv cap s → Both cap s → run cap s as = some s' → Both cap s' := by
  induction as with
  | nil => intro s s' _ h e; obtain rfl := Option.some.inj e; exact h
  | cons a as ih =>
    intro s s' h hb e
    rw [run_cons] at e
    cases h1 : step cap s a with
    | none => rw [h1] at e; cases e
    | some t => rw [h1] at e; exact ih (inv_step h h1) (both_step h hb h1) e

/-- Composition of runs. -/
theorem GoesOn.after {cap : Nat} {s t : State} (as : List Act) (e : run cap s as = some t) (h : GoesOn cap t) : GoesOn cap s := by
  obtain ⟨bs, s', e', hf⟩ := h
  exact ⟨as ++ bs, s', run_append cap as bs e e', hf⟩

theorem GoesOn.step {cap : Nat} {s t : State} (a : Act) (e : UnixMutual.step cap s a = some t) (h : GoesOn cap t) : GoesOn cap s :=
  h.after [a] (by rw [run_cons, e]; rfl)

/-- The server reads everything that has arrived. -/
theorem drainS {cap : Nat} {s : State} (h : s.server = .reading) (he : s.endedServer = false) (g : GoesOn cap { s with toServer := 0 }) : GoesOn cap s := by
  by_cases h0 : s.toServer = 0
  · have : { s with toServer := 0 } = s := by cases s; simp_all
    rwa [this] at g
  · refine GoesOn.step (.serverRead s.toServer) (t := { s with toServer := 0 }) ?_ g
    simp only [UnixMutual.step]
    rw [if_pos ⟨h, he, by omega, Nat.le_refl _⟩]
    simp

theorem drainC {cap : Nat} {s : State} (h : s.client = .reading) (he : s.endedClient = false) (g : GoesOn cap { s with toClient := 0 }) : GoesOn cap s := by
  by_cases h0 : s.toClient = 0
  · have : { s with toClient := 0 } = s := by cases s; simp_all
    rwa [this] at g
  · refine GoesOn.step (.clientRead s.toClient) (t := { s with toClient := 0 }) ?_ g
    simp only [UnixMutual.step]
    rw [if_pos ⟨h, he, by omega, Nat.le_refl _⟩]
    simp

/-- If the client reads, the server's write comes to its end. -/
theorem finS {cap : Nat} (hc : 0 < cap) : ∀ (k : Nat) (s : State), s.server = .writing k → s.client = .reading → (∀ n, GoesOn cap { s with server := .reading, toClient := n }) → GoesOn cap s := by
  intro k
  induction k using Nat.strongRecOn with
  | ind k ih =>
    intro s hs hcl g
    cases he : s.endedClient with
    | true =>
      refine GoesOn.step .serverWrite (t := { s with server := .reading }) ?_ (g s.toClient)
      simp [UnixMutual.step, hs, he]
    | false =>
      refine drainC hcl he ?_
      by_cases hk : k ≤ cap
      · refine GoesOn.step .serverWrite (t := { s with server := .reading, toClient := k }) ?_ (g k)
        simp [UnixMutual.step, hs, he, hk]
      · refine GoesOn.step .serverWrite (t := { s with server := .writing (k - cap), toClient := cap }) ?_ (ih (k - cap) (by omega) { s with server := .writing (k - cap), toClient := cap } rfl hcl g)
        simp only [UnixMutual.step, hs, he]
        simp [hk]
        omega

/-- If the server reads, a request comes to its end. -/
theorem finA {cap : Nat} (hc : 0 < cap) : ∀ (k : Nat) (s : State), s.app = some k → s.server = .reading → (∀ n, GoesOn cap { s with app := none, toServer := n }) → GoesOn cap s := by
  intro k
  induction k using Nat.strongRecOn with
  | ind k ih =>
    intro s hs hcl g
    cases he : s.endedServer with
    | true =>
      refine GoesOn.step .requestWrite (t := { s with app := none }) ?_ (g s.toServer)
      simp [UnixMutual.step, hs, he]
    | false =>
      refine drainS hcl he ?_
      by_cases hk : k ≤ cap
      · refine GoesOn.step .requestWrite (t := { s with app := none, toServer := k }) ?_ (g k)
        simp [UnixMutual.step, hs, he, hk]
      · refine GoesOn.step .requestWrite (t := { s with app := some (k - cap), toServer := cap }) ?_ (ih (k - cap) (by omega) { s with app := some (k - cap), toServer := cap } rfl hcl g)
        simp only [UnixMutual.step, hs, he]
        simp [hk]
        omega

/-- And a write of the client's worker. -/
theorem finW {cap : Nat} (hc : 0 < cap) : ∀ (k : Nat) (s : State), s.client = .writing k → s.server = .reading → s.app = none → GoesOn cap s := by
  intro k
  induction k using Nat.strongRecOn with
  | ind k ih =>
    intro s hs hcl ha
    have done : ∀ n, GoesOn cap { s with client := .reading, toServer := n } := fun n => ⟨[], _, rfl, ha, rfl, hcl⟩
    cases he : s.endedServer with
    | true =>
      refine GoesOn.step .clientWrite (t := { s with client := .reading }) ?_ (done s.toServer)
      simp [UnixMutual.step, hs, he]
    | false =>
      refine drainS hcl he ?_
      by_cases hk : k ≤ cap
      · refine GoesOn.step .clientWrite (t := { s with client := .reading, toServer := k }) ?_ (done k)
        simp [UnixMutual.step, hs, he, hk]
      · refine GoesOn.step .clientWrite (t := { s with client := .writing (k - cap), toServer := cap }) ?_ (ih (k - cap) (by omega) { s with client := .writing (k - cap), toServer := cap } rfl hcl ha)
        simp only [UnixMutual.step, hs, he]
        simp [hk]
        omega

/-- If the server reads and nobody is in `request`, the client's worker comes back. -/
theorem finC {cap : Nat} (hc : 0 < cap) (s : State) (hs : s.server = .reading) (ha : s.app = none) : GoesOn cap s := by
  cases h : s.client with
  | reading => exact ⟨[], _, rfl, ha, h, hs⟩
  | writing k => exact finW hc k s h hs ha
  | waiting k =>
    refine GoesOn.step .clientLock (t := { s with client := .writing k }) ?_ (finW hc k _ rfl hs ha)
    simp [UnixMutual.step, h, ha]

theorem fin {cap : Nat} (hc : 0 < cap) (s : State) (hs : s.server = .reading) : GoesOn cap s := by
  cases h : s.app with
  | none => exact finC hc s hs h
  | some k => exact finA hc k s h hs fun n => finC hc _ hs rfl

theorem finReading {cap : Nat} (hc : 0 < cap) (s : State) (hw : ∀ k, s.server ≠ .waiting k) (hcl : s.client = .reading) : GoesOn cap s := by
  cases h : s.server with
  | reading => exact fin hc s h
  | waiting k => exact absurd h (hw k)
  | writing k => exact finS hc k s h hcl fun n => fin hc _ rfl

/-- **C106, exactly.** In every history, for every size of the buffers: the calls that are being made can return, unless both sides are writing, the server more than fits into its buffer, and the client's worker,
    with what a thread that has the lock is writing before it, more than fits into the other one. -/
theorem goes_on_iff (cap : Nat) (hc : 0 < cap) (as : List Act) (s : State) (e : run cap {} as = some s) : GoesOn cap s ↔ ¬ Both cap s := by
  have hi := inv_run as (inv_init cap) e
  constructor
  · rintro ⟨bs, s', e', hf⟩ hb
    obtain ⟨k, m, b1, _⟩ := both_run bs hi hb e'
    rw [hf.2.2] at b1
    cases b1
  · intro hb
    cases hs : s.server with
    | reading => exact fin hc s hs
    | waiting k => exact absurd hs (hi.serverNoLock k)
    | writing k =>
      by_cases hk : cap < s.toClient + k
      · -- the client has to come back to reading first
        have main : ∀ m, (s.client = .waiting m ∨ s.client = .writing m) → s.toServer + s.app.getD 0 + m ≤ cap → GoesOn cap s := by
          intro m hm hle
          have last : ∀ t : State, t.server = s.server → t.client = .writing m → t.app = none → t.toServer + m ≤ cap → GoesOn cap t := by
            intro t ht htc hta htl
            cases he : t.endedServer with
            | true =>
              refine GoesOn.step .clientWrite (t := { t with client := .reading }) ?_ (finReading hc _ (fun n hh => hi.serverNoLock n (ht ▸ hh)) rfl)
              simp [UnixMutual.step, htc, he]
            | false =>
              refine GoesOn.step .clientWrite (t := { t with client := .reading, toServer := t.toServer + m }) ?_ (finReading hc _ (fun n hh => hi.serverNoLock n (ht ▸ hh)) rfl)
              simp only [UnixMutual.step, htc, he]
              rw [if_neg (by decide), if_pos (by omega)]
          rcases hm with hm | hm
          · have lock : ∀ t : State, t.server = s.server → t.client = .waiting m → t.app = none → t.toServer + m ≤ cap → GoesOn cap t := by
              intro t ht htc hta htl
              refine GoesOn.step .clientLock (t := { t with client := .writing m }) ?_ (last _ ht rfl hta htl)
              simp [UnixMutual.step, htc, hta]
            cases ha : s.app with
            | none => exact lock s rfl hm ha (by rw [ha] at hle; simpa using hle)
            | some n =>
              rw [ha] at hle
              simp only [Option.getD_some] at hle
              have he : s.endedServer = false := by
                cases hh : s.endedServer with
                | false => rfl
                | true => rw [hi.endS hh] at hs; cases hs
              refine GoesOn.step .requestWrite (t := { s with app := none, toServer := s.toServer + n }) ?_ (lock _ rfl hm rfl (by simp only; omega))
              simp only [UnixMutual.step, ha, he]
              rw [if_neg (by decide), if_pos (by omega)]
          · exact last s rfl hm (hi.lock (by rw [hm]; rfl)) (by rw [hi.lock (by rw [hm]; rfl)] at hle; simpa using hle)
        cases hcl : s.client with
        | reading => exact finReading hc s hi.serverNoLock hcl
        | waiting m => exact main m (.inl hcl) (Nat.le_of_not_lt fun hh => hb ⟨k, m, hs, hk, .inl hcl, hh⟩)
        | writing m => exact main m (.inr hcl) (Nat.le_of_not_lt fun hh => hb ⟨k, m, hs, hk, .inr hcl, hh⟩)
      · cases he : s.endedClient with
        | true =>
          refine GoesOn.step .serverWrite (t := { s with server := .reading }) ?_ (fin hc _ rfl)
          simp [UnixMutual.step, hs, he]
        | false =>
          refine GoesOn.step .serverWrite (t := { s with server := .reading, toClient := s.toClient + k }) ?_ (fin hc _ rfl)
          simp only [UnixMutual.step, hs, he]
          rw [if_neg (by decide), if_pos (by omega)]

/-- **C106 fails:** when both sides are writing like this, they do so for ever: neither the requests nor the destructors of the two return, whatever else happens. -/
theorem both_blocked (cap : Nat) (as bs : List Act) (s s' : State) (e : run cap {} as = some s) (hb : Both cap s) (e' : run cap s bs = some s') :
    s'.server ≠ .reading ∧ s'.client ≠ .reading ∧ s'.endedServer = false ∧ s'.endedClient = false := by
  have hi := inv_run as (inv_init cap) e
  have hi' := inv_run bs hi e'
  obtain ⟨k, m, b1, _, b3, _⟩ := both_run bs hi hb e'
  have c : s'.client ≠ .reading := by rcases b3 with b3 | b3 <;> rw [b3] <;> simp
  refine ⟨by rw [b1]; simp, c, ?_, ?_⟩
  · cases hh : s'.endedServer with
    | false => rfl
    | true => rw [hi'.endS hh] at b1; cases b1
  · cases hh : s'.endedClient with
    | false => rfl
    | true => exact absurd (hi'.endC hh) c

/-- It happens for every size of the buffers: with a broadcast of the server and one of the client, and with a broadcast of the server, a request, and an endpoint of the client that answers a broadcast. -/
theorem broadcasts_block (cap : Nat) : ∃ s, run cap {} [.serverBegin (cap + 1), .clientBegin (cap + 1), .clientLock] = some s ∧ Both cap s :=
  ⟨_, rfl, _, _, rfl, by simp, .inr rfl, by simp⟩

theorem request_blocks (cap : Nat) : ∃ s, run cap {} [.request cap.succ, .serverBegin (cap + 1), .clientBegin 1] = some s ∧ Both cap s :=
  ⟨_, rfl, _, _, rfl, by simp, .inl rfl, by simp; omega⟩

theorem not_NeverBlocked : ¬ NeverBlocked := fun h => by
  obtain ⟨s, e, hb⟩ := broadcasts_block 1
  exact (goes_on_iff 1 (by decide) _ s e).1 (h 1 (by decide) _ s e) hb

/-- **C106, partial.** If the client's worker never writes, that is if the client does not broadcast and none of its endpoints answers a broadcast, then whatever is requested and however large the answers
    and the broadcasts of the server are, the calls that are being made can return. Missing: clients whose worker writes; see above. -/
theorem never_blocked_partial (cap : Nat) (hc : 0 < cap) (as : List Act) (ha : ∀ k, Act.clientBegin k ∉ as) (s : State) (e : run cap {} as = some s) : GoesOn cap s := by
  refine (goes_on_iff cap hc as s e).2 ?_
  rintro ⟨k, m, _, _, hm, _⟩
  have reads : ∀ (as : List Act) (s s' : State), (∀ k, Act.clientBegin k ∉ as) → s.client = .reading → run cap s as = some s' → s'.client = .reading := by
    intro as
    induction as with
    | nil => intro s s' _ h e; obtain rfl := Option.some.inj e; exact h
    | cons a as ih =>
      intro s s' hn h e
      rw [run_cons] at e
      cases h1 : step cap s a with
      | none => rw [h1] at e; cases e
      | some t =>
        rw [h1] at e
        refine ih t s' (fun k hk => hn k (List.mem_cons_of_mem _ hk)) ?_ e
        cases a with
        | clientBegin k => exact absurd List.mem_cons_self (hn k)
        | _ =>
          simp only [step] at h1
          (repeat' split at h1) <;> first | cases h1; done | (obtain rfl := Option.some.inj h1; simp_all)
  rw [reads as _ _ ha rfl e] at hm
  rcases hm with hm | hm <;> cases hm

/-- When the calls can return, so can both destructors, also if they are called at once. -/
theorem destructors_return (cap : Nat) (hc : 0 < cap) (as : List Act) (s : State) (e : run cap {} as = some s) (hb : ¬ Both cap s) :
    ∃ bs s', run cap s (.destroyServer :: .destroyClient :: bs) = some s' ∧ s'.endedServer = true ∧ s'.endedClient = true := by
  have hkeep : ∀ (bs : List Act) (t t' : State), t.stopServer = true ∧ t.stopClient = true → run cap t bs = some t' → t'.stopServer = true ∧ t'.stopClient = true := by
    intro bs
    induction bs with
    | nil => intro t t' h e; obtain rfl := Option.some.inj e; exact h
    | cons b bs ih =>
      intro t t' h e
      rw [run_cons] at e
      obtain ⟨u, h1, e⟩ := Option.bind_eq_some_iff.1 e
      refine ih u t' ?_ e
      cases b <;> simp only [step] at h1 <;> (repeat' split at h1) <;> first | cases h1; done | (obtain rfl := Option.some.inj h1; simp_all)
  have e1 : run cap s [.destroyServer, .destroyClient] = some { s with stopServer := true, stopClient := true } := rfl
  obtain ⟨bs, s1, e2, hf⟩ := (goes_on_iff cap hc (as ++ [.destroyServer, .destroyClient]) { s with stopServer := true, stopClient := true } (run_append cap as _ e e1)).2 hb
  have hst := hkeep bs _ s1 ⟨rfl, rfl⟩ e2
  have e3 : run cap s1 [.joinServer, .joinClient] = some { s1 with endedServer := true, endedClient := true } := by
    simp [run, step, hst.1, hst.2, hf.2.1, hf.2.2]
  exact ⟨bs ++ [.joinServer, .joinClient], _, run_append cap [.destroyServer, .destroyClient] _ e1 (run_append cap bs _ e2 e3), rfl, rfl⟩

/-- A large request and a large answer at the same time. -/
example : ∃ s, run 10 {} [.request 25, .requestWrite, .serverBegin 30, .serverWrite, .clientRead 4] = some s ∧ s.app = some 15 ∧ s.server = .writing 20 ∧ s.toServer = 10 ∧ s.toClient = 6 :=
  ⟨_, rfl, rfl, rfl, rfl, rfl⟩

end Scalopus.C106
