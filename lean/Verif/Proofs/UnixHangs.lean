import Verif.Proofs.UnixProgress

/-!
# Requests whose response is looked up too early

A request has at most one message on the wire; so if its response is looked up before its promise is stored, no other one comes.
-/

namespace Scalopus.Unix

open Protocol Spec.Requests

/-- The messages with this id, on the wire or with the client's worker. -/
def countId (c : Conn) (id : Nat) : Nat := (c.toServer ++ incoming c).countP (fun m => m.requestId = id)

/-- Every message that is no broadcast belongs to a request that was sent, and a request has at most one message. -/
structure OnceInv (c : Conn) : Prop where
  known : ∀ m ∈ c.toServer ++ incoming c, m.requestId ≠ 0 →
    ∃ (r : Nat) (q : Req), c.reqs[r]? = some q ∧ q.id = m.requestId ∧ (q.pc = .sent ∨ q.pc = .registered)
  once : ∀ id, id ≠ 0 → countId c id ≤ 1

theorem onceInv_init : OnceInv init := by constructor <;> simp [init, incoming, countId]

theorem OnceInv.congr {c c' : Conn} (h : OnceInv c)
    (hr : ∀ (r : Nat) (q : Req), c.reqs[r]? = some q → (q.pc = .sent ∨ q.pc = .registered) → ∃ q', c'.reqs[r]? = some q' ∧ q'.id = q.id ∧ (q'.pc = .sent ∨ q'.pc = .registered))
    (hm : ∀ m ∈ c'.toServer ++ incoming c', m.requestId ≠ 0 → ∃ m0 ∈ c.toServer ++ incoming c, m0.requestId = m.requestId)
    (hc : ∀ id, id ≠ 0 → countId c' id ≤ countId c id) : OnceInv c' := by
  refine ⟨fun m hm' h0 => ?_, fun id h0 => Nat.le_trans (hc id h0) (h.once id h0)⟩
  obtain ⟨m0, h1, h2⟩ := hm m hm' h0
  obtain ⟨r, q, h3, h4, h5⟩ := h.known m0 h1 (by rw [h2]; exact h0)
  obtain ⟨q', h6, h7, h8⟩ := hr r q h3 h5
  exact ⟨r, q', h6, by rw [h7, h4, h2], h8⟩

/-- It is enough to look at the counts. -/
theorem OnceInv.of_count {c c' : Conn} (h : OnceInv c)
    (hr : ∀ (r : Nat) (q : Req), c.reqs[r]? = some q → (q.pc = .sent ∨ q.pc = .registered) → ∃ q', c'.reqs[r]? = some q' ∧ q'.id = q.id ∧ (q'.pc = .sent ∨ q'.pc = .registered))
    (hc : ∀ id, id ≠ 0 → countId c' id ≤ countId c id) : OnceInv c' := by
  refine h.congr hr (fun m hm h0 => ?_) hc
  have h1 : 0 < countId c' m.requestId := List.countP_pos_iff.mpr ⟨m, hm, by simp⟩
  obtain ⟨m0, h2, h3⟩ := List.countP_pos_iff.mp (Nat.lt_of_lt_of_le h1 (hc _ h0))
  exact ⟨m0, h2, by simpa using h3⟩

theorem onceInv_step {c : Conn} (hi : IdInv c) (hn : c.reqs.length < 2 ^ 64) (hm : MapInv c) (h : OnceInv c) (a : Act) : OnceInv (step c a) := by
  have same : ∀ (r : Nat) (q : Req), c.reqs[r]? = some q → (q.pc = .sent ∨ q.pc = .registered) → ∃ q', c.reqs[r]? = some q' ∧ q'.id = q.id ∧ (q'.pc = .sent ∨ q'.pc = .registered) :=
    fun r q h1 h2 => ⟨q, h1, rfl, h2⟩
  cases a with
  | request ep p =>
    refine h.of_count (fun r q h1 h2 => ⟨q, ?_, rfl, h2⟩) (fun _ _ => Nat.le_refl _)
    simp only [step]
    rw [List.getElem?_append_left (List.getElem?_eq_some_iff.1 h1).1]; exact h1
  | send r ok =>
    cases hq : c.reqs[r]? with
    | none => have e : step c (.send r ok) = c := by simp only [step, hq]
              rw [e]; exact h
    | some q =>
      by_cases hp : q.pc = .sending
      · by_cases ho : ok = true ∧ c.running = true ∧ c.serverUp = true
        · have e : step c (.send r ok) = { updReq c r (fun q => { q with pc := .sent }) with
              toServer := c.toServer ++ [{ requestId := q.id, endpoint := q.endpoint, data := q.payload }] } := by
            simp only [step, hq, hp, if_true]; rw [if_pos ho]
          have hr' : ∀ (i : Nat) (q0 : Req), c.reqs[i]? = some q0 → (q0.pc = .sent ∨ q0.pc = .registered) → (step c (.send r ok)).reqs[i]? = some q0 := by
            intro i q0 h1 h2
            rw [e]
            show (updReq c r _).reqs[i]? = _
            rw [getElem?_updReq]
            by_cases hir : i = r
            · subst hir; rw [hq] at h1; simp at h1; subst h1; rw [hp] at h2; simp at h2
            · rw [if_neg hir]; exact h1
          have hz : countId c q.id = 0 := by
            apply Nat.eq_zero_of_not_pos
            intro hc
            obtain ⟨m0, h2, h3⟩ := List.countP_pos_iff.mp hc
            have h3 : m0.requestId = q.id := by simpa using h3
            obtain ⟨r', q', g1, g2, g3⟩ := h.known m0 h2 (by rw [h3]; exact hi.pos hn hq)
            have := hi.inj hn g1 hq (g2.trans h3)
            subst this
            rw [hq] at g1; simp at g1; subst g1; rw [hp] at g3; simp at g3
          refine ⟨?_, ?_⟩
          · intro m hmem h0
            rw [e] at hmem
            simp only [List.mem_append, List.mem_singleton] at hmem
            have old : ∀ m ∈ c.toServer ++ incoming c, m.requestId ≠ 0 → ∃ (r' : Nat) (q' : Req), (step c (.send r ok)).reqs[r']? = some q' ∧ q'.id = m.requestId ∧ (q'.pc = .sent ∨ q'.pc = .registered) := by
              intro m hm' h0
              obtain ⟨r', q', g1, g2, g3⟩ := h.known m hm' h0
              exact ⟨r', q', hr' r' q' g1 g3, g2, g3⟩
            rcases hmem with (hmem | hmem) | hmem
            · exact old m (by simp [hmem]) h0
            · subst hmem
              refine ⟨r, { q with pc := .sent }, ?_, rfl, Or.inl rfl⟩
              rw [e]
              show (updReq c r _).reqs[r]? = _
              rw [getElem?_updReq, if_pos rfl, hq]; rfl
            · exact old m (by rw [List.mem_append]; exact Or.inr hmem) h0
          · intro id h0
            have e2 : countId (step c (.send r ok)) id = countId c id + if q.id = id then 1 else 0 := by
              rw [e]
              simp only [countId, incoming, updReq_received, updReq_toClient, List.countP_append, List.countP_cons, List.countP_nil]
              split <;> simp_all <;> omega
            rw [e2]
            split
            · rename_i hid; subst hid; omega
            · exact h.once id h0
        · have e : step c (.send r ok) = updReq c r (fun q => { q with pc := .failed, fut := .error }) := by
            simp only [step, hq, hp, if_true]; rw [if_neg ho]
          rw [e]
          refine h.of_count (fun i q0 h1 h2 => ⟨q0, ?_, rfl, h2⟩) (fun _ _ => Nat.le_refl _)
          rw [getElem?_updReq]
          by_cases hir : i = r
          · subst hir; rw [hq] at h1; simp at h1; subst h1; rw [hp] at h2; simp at h2
          · rw [if_neg hir]; exact h1
      · have e : step c (.send r ok) = c := by simp only [step, hq, hp, if_false]
        rw [e]; exact h
  | register r =>
    refine h.of_count (fun i q0 h1 h2 => ?_) (fun id _ => ?_)
    · simp only [step]
      repeat' split
      all_goals (try simp only [getElem?_updReq])
      all_goals grind
    · simp only [step]
      repeat' split
      all_goals exact Nat.le_refl _
  | drop r =>
    refine h.of_count (fun i q0 h1 h2 => ?_) (fun id _ => ?_)
    · simp only [step]
      repeat' split
      all_goals (try simp only [getElem?_updReq])
      all_goals grind
    · simp only [step]
      repeat' split
      all_goals exact Nat.le_refl _
  | serve res =>
    cases hts : c.toServer with
    | nil =>
      have e : step c (.serve res) = c := by simp only [step, hts]
      rw [e]; exact h
    | cons m ms =>
      by_cases hin : m.endpoint ∈ c.serverEndpoints
      · refine h.of_count (fun i q0 h1 h2 => ⟨q0, by simp only [step, hts, hin, if_true]; exact h1, rfl, h2⟩) (fun id _ => ?_)
        cases res with
        | none =>
          simp only [step, hts, hin, if_true, countId, incoming, List.countP_append, List.countP_cons]
          omega
        | some d =>
          simp only [step, hts, hin, if_true, countId, incoming, List.countP_append, List.countP_cons, List.countP_nil]
          omega
      · refine h.of_count (fun i q0 h1 h2 => ⟨q0, by simp only [step, hts, hin, if_false]; exact h1, rfl, h2⟩) (fun id _ => ?_)
        simp only [step, hts, hin, if_false, countId, incoming, List.countP_append, List.countP_cons]
        omega
  | broadcast ep d =>
    simp only [step]
    split
    · refine h.of_count same (fun id h0 => ?_)
      have : ¬ (0 : Nat) = id := fun e => h0 e.symm
      simp [countId, incoming, List.countP_append, List.countP_cons, this]
    · exact h
  | receive =>
    simp only [step]
    split
    · rename_i hr
      split
      · rename_i m ms hms
        refine h.of_count same (fun id h0 => ?_)
        simp [countId, incoming, List.countP_append, List.countP_cons, hr.2, hms]
      · rename_i hms
        split
        · exact h
        · refine h.of_count same (fun id h0 => ?_)
          have : ¬ (0 : Nat) = id := fun e => h0 e.symm
          simp [countId, incoming, List.countP_append, List.countP_cons, hr.2, hms, this]
    · exact h
  | dispatch rep =>
    simp only [step]
    split
    · exact h
    · rename_i m hrec
      unfold dispatchMsg
      split
      · rename_i r' hr'
        refine h.of_count (fun i q0 h1 h2 => ?_) (fun id h0 => ?_)
        · simp only [getElem?_updReq]
          by_cases hir : i = r'
          · simp only [hir, if_true]
            rw [hir] at h1
            rw [h1]
            by_cases hh : q0.held = true <;> simp [hh, h2]
          · rw [if_neg hir]; exact ⟨q0, h1, rfl, h2⟩
        · simp only [countId, incoming, updReq_received, updReq_toClient, updReq_toServer, hrec, List.countP_append, Option.toList_none, Option.toList_some, List.countP_nil]
          omega
      · repeat' split
        · refine h.of_count same (fun id h0 => ?_)
          simp only [countId, incoming, hrec, List.countP_append, Option.toList_none, Option.toList_some, List.countP_nil, List.countP_cons]
          omega
        all_goals
          refine h.of_count same (fun id h0 => ?_)
          simp only [countId, incoming, hrec, List.countP_append, Option.toList_none, Option.toList_some, List.countP_nil]
          omega
  | cleanup => simp only [step]; split <;> exact h.of_count same (fun _ _ => Nat.le_refl _)
  | serverDown =>
    refine h.of_count same (fun id _ => ?_)
    simp [step, countId, incoming, List.countP_append]
  | addServerEndpoint n => exact h.of_count same (fun _ _ => Nat.le_refl _)
  | addClientEndpoint n => exact h.of_count same (fun _ _ => Nat.le_refl _)

theorem onceInv_run (as : List Act) (hn : (run init as).reqs.length < 2 ^ 64) : OnceInv (run init as) := by
  suffices H : ∀ (as : List Act) (c : Conn), IdInv c → MapInv c → OnceInv c → (run c as).reqs.length < 2 ^ 64 → OnceInv (run c as) from
    H as init idInv_init mapInv_init onceInv_init hn
  intro as
  induction as with
  | nil => intro c _ _ h _; exact h
  | cons a as ih =>
    intro c hi hm h hn
    have hl : c.reqs.length < 2 ^ 64 := Nat.lt_of_le_of_lt (length_run c (a :: as)) hn
    exact ih _ (idInv_step hi a) (mapInv_step hi hl hm a) (onceInv_step hi hl hm h a) hn

/-- Call `r` has been sent, has not returned, and no message with its id is anywhere. -/
def LostEarly (c : Conn) (r : Nat) : Prop :=
  ∃ q, c.reqs[r]? = some q ∧ q.pc = .sent ∧ ∀ m ∈ c.toServer ++ incoming c, m.requestId ≠ q.id

theorem lostEarly_step {c : Conn} (hi : IdInv c) (hn : c.reqs.length < 2 ^ 64) (hm : MapInv c) (a : Act) {r : Nat}
    (h : LostEarly c r) : LostEarly (step c a) r ∨ Lost (step c a) r := by
  obtain ⟨q, hq, hp, hno⟩ := h
  have hinj : ∀ (r' : Nat) (q' : Req), c.reqs[r']? = some q' → q.id = q'.id → r = r' :=
    fun r' q' h2 h3 => hi.inj hn hq h2 h3
  have hpos := hi.pos hn hq
  have keep : ∀ c' : Conn, c'.reqs[r]? = some q → (∀ m ∈ c'.toServer ++ incoming c', m.requestId ≠ q.id) → LostEarly c' r ∨ Lost c' r :=
    fun c' h1 h2 => Or.inl ⟨q, h1, hp, h2⟩
  cases a with
  | request ep p =>
    refine keep _ ?_ hno
    simp only [step]
    rw [List.getElem?_append_left (List.getElem?_eq_some_iff.1 hq).1]; exact hq
  | send r' ok =>
    refine keep _ ?_ ?_ <;> simp only [step]
    · repeat' split
      all_goals (try simp only [getElem?_updReq])
      all_goals grind
    · unfold incoming at *
      repeat' split
      all_goals (try simp only [updReq_received, updReq_toClient, updReq_toServer])
      all_goals grind
  | register r' =>
    by_cases hrr : r = r'
    · subst hrr
      right
      refine ⟨{ q with pc := .registered }, ?_, rfl, (hm.early r q hq (Or.inr hp)).1, ?_⟩
      · simp only [step, hq, hp, if_true]
        show (updReq c r _).reqs[r]? = _
        rw [getElem?_updReq, if_pos rfl, hq]; rfl
      · simp only [step, hq, hp, if_true]; exact hno
    · refine keep _ ?_ ?_ <;> simp only [step]
      · repeat' split
        all_goals (try simp only [getElem?_updReq])
        all_goals grind
      · unfold incoming at *
        repeat' split
        all_goals (try simp only [updReq_received, updReq_toClient, updReq_toServer])
        all_goals grind
  | drop r' =>
    refine keep _ ?_ ?_ <;> simp only [step]
    · repeat' split
      all_goals (try simp only [getElem?_updReq])
      all_goals grind
    · unfold incoming at *
      repeat' split
      all_goals exact hno
  | serve res =>
    cases hts : c.toServer with
    | nil =>
      have : step c (.serve res) = c := by simp only [step, hts]
      rw [this]; exact keep _ hq hno
    | cons m' ms =>
      rw [hts] at hno
      by_cases hin : m'.endpoint ∈ c.serverEndpoints
      · have e1 : (step c (.serve res)).reqs = c.reqs := by simp only [step, hts, hin, if_true]
        refine keep _ (by rw [e1]; exact hq) ?_
        unfold incoming at *
        cases res with
        | none => simp only [step, hts, hin, if_true]; grind
        | some d =>
          simp only [step, hts, hin, if_true]
          intro m hm
          simp only [List.mem_append, List.mem_singleton, List.mem_cons] at hm hno
          grind
      · simp only [step, hts, hin, if_false]
        refine keep _ hq ?_
        unfold incoming at *
        grind
  | broadcast ep d =>
    simp only [step]
    split
    · refine keep _ hq ?_
      unfold incoming at *
      intro m hm
      simp only [List.mem_append, List.mem_singleton] at hm hno
      grind
    · exact keep _ hq hno
  | receive =>
    simp only [step]
    split
    · rename_i hr
      split
      · rename_i m' ms hms
        refine keep _ hq ?_
        simp [incoming, hms, hr.2] at hno ⊢
        exact hno
      · rename_i hms
        split
        · exact keep _ hq hno
        · refine keep _ hq ?_
          simp [incoming, hms, hr.2] at hno ⊢
          intro m hm'
          rcases hm' with hm' | hm'
          · exact hno m hm'
          · subst hm'; exact fun e => hpos e.symm
    · exact keep _ hq hno
  | dispatch rep =>
    simp only [step]
    split
    · exact keep _ hq hno
    · rename_i m hrec
      have hmid : m.requestId ≠ q.id := hno m (by simp [incoming, hrec])
      have hno' : ∀ m ∈ c.toServer ++ c.toClient, m.requestId ≠ q.id := by
        intro m' hm'
        apply hno
        simp [incoming] at hm' ⊢
        grind
      unfold dispatchMsg
      split
      · rename_i r' hr'
        obtain ⟨q0, hq0, _, hk, _⟩ := hm.ong _ (find_some hr')
        simp only at hq0 hk
        simp at hk
        have hrr : r ≠ r' := by
          intro e; subst e
          rw [hq] at hq0; simp at hq0; subst hq0
          exact hmid hk.2
        refine keep _ ?_ ?_
        · simp only [getElem?_updReq, hrr, if_false]; exact hq
        · simpa [incoming] using hno'
      · repeat' split
        · refine keep _ hq ?_
          intro m' hm'
          simp [incoming] at hm' hno'
          grind
        all_goals exact keep _ hq (by simpa [incoming] using hno')
  | cleanup => simp only [step]; split; exact keep _ hq hno; exact keep _ hq hno
  | serverDown =>
    refine keep _ hq ?_
    intro m hm
    apply hno
    simp [step, incoming] at hm ⊢
    grind
  | addServerEndpoint n => exact keep _ hq hno
  | addClientEndpoint n => exact keep _ hq hno

theorem lostEarly_run (as : List Act) : ∀ {c : Conn}, IdInv c → MapInv c → (run c as).reqs.length < 2 ^ 64 →
    ∀ {r : Nat}, LostEarly c r → LostEarly (run c as) r ∨ Lost (run c as) r := by
  induction as with
  | nil => intro c _ _ _ r h; exact Or.inl h
  | cons a as ih =>
    intro c hi hm hn r h
    have hl : c.reqs.length < 2 ^ 64 := Nat.lt_of_le_of_lt (length_run c (a :: as)) hn
    rcases lostEarly_step hi hl hm a h with h | h
    · exact ih (idInv_step hi a) (mapInv_step hi hl hm a) hn h
    · exact Or.inr (lost_run as (idInv_step hi a) (mapInv_step hi hl hm a) hn h)

/-- A response that is looked up while the call has not stored its promise, and is not answered, leaves nothing behind. -/
theorem lostEarly_dispatch {c : Conn} (hi : IdInv c) (hn : c.reqs.length < 2 ^ 64) (hm : MapInv c) (ho : OnceInv c) {r : Nat} {q : Req} {m : Msg} (hq : c.reqs[r]? = some q) (hp : q.pc = .sent)
    (hrec : c.received = some m) (hid : m.requestId = q.id) (rep : Option Bytes) (hrep : rep = none ∨ m.endpoint ∉ c.clientEndpoints) : LostEarly (step c (.dispatch rep)) r := by
  have hpos := hi.pos hn hq
  have h1 : ∀ m' ∈ c.toServer ++ c.toClient, m'.requestId ≠ q.id := by
    intro m' hm' e
    have h2 := ho.once q.id hpos
    have h3 : 0 < (c.toServer ++ c.toClient).countP (fun x => x.requestId = q.id) := List.countP_pos_iff.mpr ⟨m', hm', by simpa using e⟩
    simp only [countId, incoming, hrec, List.countP_append, Option.toList_some, List.countP_cons, List.countP_nil, hid] at h2 h3
    simp at h2 h3
    omega
  have hf : find c.ongoing (m.endpoint, m.requestId) = none := by
    cases hfc : find c.ongoing (m.endpoint, m.requestId) with
    | none => rfl
    | some r' =>
      obtain ⟨q', hq', hp', hk', _⟩ := hm.ong _ (find_some hfc)
      simp only at hq' hk'
      simp at hk'
      have := hi.inj hn hq hq' (hid.symm.trans hk'.2)
      subst this
      rw [hq] at hq'; simp at hq'; subst hq'
      rw [hp] at hp'; cases hp'
  refine ⟨q, ?_, hp, ?_⟩
  · simp only [step, hrec, dispatchMsg, hf]
    repeat' split
    all_goals exact hq
  · have e : (step c (.dispatch rep)).toServer = c.toServer ∧ incoming (step c (.dispatch rep)) = c.toClient := by
      rcases hrep with rfl | hrep
      · simp only [step, hrec, dispatchMsg, hf]
        repeat' split
        all_goals (first | (rename_i hh; cases hh) | exact ⟨rfl, by simp [incoming]⟩)
      · simp only [step, hrec, dispatchMsg, hf, hrep, if_false]
        exact ⟨trivial, by simp [incoming]⟩
    rw [e.1, e.2]
    exact h1

/-! ## Every request can get there -/

/-- What the steps that follow leave as it is: the connection is up and call `r` has been sent. -/
structure Sent (c : Conn) (r : Nat) (q : Req) : Prop where
  hq : c.reqs[r]? = some q
  hp : q.pc = .sent
  run : c.running = true
  up : c.serverUp = true

/-- The client's worker handles what it has received, and its endpoints do not answer. -/
theorem dispatch_none {c : Conn} (hi : IdInv c) (hn : c.reqs.length < 2 ^ 64) (hm : MapInv c) {r : Nat} {q : Req} (h : Sent c r q) :
    Sent (step c (.dispatch none)) r q ∧ (step c (.dispatch none)).toServer = c.toServer ∧ (step c (.dispatch none)).toClient = c.toClient ∧ (step c (.dispatch none)).received = none ∧
      (step c (.dispatch none)).calls = c.calls ∧ (step c (.dispatch none)).reqs.length = c.reqs.length := by
  cases hrec : c.received with
  | none => have e : step c (.dispatch none) = c := by simp only [step, hrec]
            rw [e]; exact ⟨h, rfl, rfl, hrec, rfl, rfl⟩
  | some m =>
    cases hf : find c.ongoing (m.endpoint, m.requestId) with
    | none =>
      simp only [step, hrec, dispatchMsg, hf]
      repeat' split
      all_goals (first | (rename_i hh; cases hh) | exact ⟨⟨h.hq, h.hp, h.run, h.up⟩, rfl, rfl, rfl, rfl, rfl⟩)
    | some r' =>
      obtain ⟨q', hq', hp', _, _⟩ := hm.ong _ (find_some hf)
      have hrr : r ≠ r' := by
        rintro rfl
        rw [h.hq] at hq'; simp at hq'; subst hq'
        rw [h.hp] at hp'; cases hp'
      simp only [step, hrec, dispatchMsg, hf]
      refine ⟨⟨?_, h.hp, h.run, h.up⟩, rfl, rfl, rfl, rfl, by simp⟩
      simp only [getElem?_updReq, hrr, if_false]; exact h.hq

/-- The response to call `r` is looked up before the call has stored its promise, and an endpoint of the client answers it. -/
theorem dispatch_answered {c : Conn} (hi : IdInv c) (hn : c.reqs.length < 2 ^ 64) (hm : MapInv c) {r : Nat} {q : Req} (h : Sent c r q) {m : Msg} (hrec : c.received = some m) (hid : m.requestId = q.id)
    (he : m.endpoint ∈ c.clientEndpoints) (x : Bytes) :
    step c (.dispatch (some x)) = { c with received := none, toServer := c.toServer ++ [{ requestId := m.requestId, endpoint := m.endpoint, data := x }] } := by
  have hf : find c.ongoing (m.endpoint, m.requestId) = none := by
    cases hfc : find c.ongoing (m.endpoint, m.requestId) with
    | none => rfl
    | some r' =>
      obtain ⟨q', hq', hp', hk', _⟩ := hm.ong _ (find_some hfc)
      simp only at hq' hk'
      simp at hk'
      have := hi.inj hn h.hq hq' (hid.symm.trans hk'.2)
      subst this
      rw [h.hq] at hq'; simp at hq'; subst hq'
      rw [h.hp] at hp'; cases hp'
  simp only [step, hrec, dispatchMsg, hf, he, h.run, h.up, and_self, if_true]

/-- Endpoints are never removed. -/
theorem endpoints_step (c : Conn) (a : Act) (e : Bytes) : (e ∈ c.clientEndpoints → e ∈ (step c a).clientEndpoints) ∧ (e ∈ c.serverEndpoints → e ∈ (step c a).serverEndpoints) := by
  cases a with
  | addServerEndpoint n => exact ⟨id, fun h => List.mem_cons_of_mem _ h⟩
  | addClientEndpoint n => exact ⟨fun h => List.mem_cons_of_mem _ h, id⟩
  | _ =>
    simp only [step, dispatchMsg]
    repeat' split
    all_goals exact ⟨id, id⟩

theorem endpoints_run (as : List Act) : ∀ (c : Conn) (e : Bytes), (e ∈ c.clientEndpoints → e ∈ (run c as).clientEndpoints) ∧ (e ∈ c.serverEndpoints → e ∈ (run c as).serverEndpoints) := by
  induction as with
  | nil => intro c e; exact ⟨id, id⟩
  | cons a as ih =>
    intro c e
    exact ⟨fun h => (ih _ e).1 ((endpoints_step c a e).1 h), fun h => (ih _ e).2 ((endpoints_step c a e).2 h)⟩

/-- What was called stays. -/
theorem calls_step (c : Conn) (a : Act) : ∀ x ∈ c.calls, x ∈ (step c a).calls := by
  intro x hx
  cases a with
  | serve res =>
    simp only [step]
    repeat' split
    all_goals simp [hx]
  | _ =>
    simp only [step, dispatchMsg]
    repeat' split
    all_goals exact hx

theorem calls_run (as : List Act) : ∀ (c : Conn), ∀ x ∈ c.calls, x ∈ (run c as).calls := by
  induction as with
  | nil => intro c x h; exact h
  | cons a as ih => intro c x h; exact ih _ x (calls_step c a x h)

theorem inv_run (as : List Act) : ∀ {c : Conn}, IdInv c → MapInv c → (run c as).reqs.length < 2 ^ 64 → IdInv (run c as) ∧ MapInv (run c as) := by
  induction as with
  | nil => intro c hi hm _; exact ⟨hi, hm⟩
  | cons a as ih =>
    intro c hi hm hn
    have hl : c.reqs.length < 2 ^ 64 := Nat.lt_of_le_of_lt (length_run c (a :: as)) hn
    exact ih (idInv_step hi a) (mapInv_step hi hl hm a) hn

theorem receive_next {c : Conn} {m : Msg} {l : List Msg} (h1 : c.running = true) (h2 : c.received = none) (h3 : c.toClient = m :: l) :
    step c .receive = { c with received := some m, toClient := l } := by
  simp only [step, h1, h2, h3, and_self, if_true]

/-- The client's worker gets to a message on the wire. -/
theorem gets_to : ∀ (pre : List Msg) (c : Conn) (m : Msg) (post : List Msg), IdInv c → MapInv c → c.reqs.length < 2 ^ 64 → c.toClient = pre ++ m :: post → ∀ (r : Nat) (q : Req), Sent c r q →
    ∃ bs, Sent (run c bs) r q ∧ (run c bs).received = some m ∧ (run c bs).calls = c.calls ∧ (run c bs).reqs.length = c.reqs.length := by
  intro pre
  induction pre with
  | nil =>
    intro c m post hi hm hn hc r q h
    obtain ⟨h1, h2, h3, h4, h5, h6⟩ := dispatch_none hi hn hm h
    have e := receive_next h1.run h4 (h3.trans hc)
    refine ⟨[.dispatch none, .receive], ?_, ?_, ?_, ?_⟩ <;> simp only [run, List.foldl_cons, List.foldl_nil] <;> rw [e]
    · exact ⟨h1.hq, h1.hp, h1.run, h1.up⟩
    · exact h5
    · exact h6
  | cons m0 pre ih =>
    intro c m post hi hm hn hc r q h
    obtain ⟨h1, h2, h3, h4, h5, h6⟩ := dispatch_none hi hn hm h
    have e := receive_next h1.run h4 (h3.trans hc)
    have hi2 := idInv_step (idInv_step hi (.dispatch none)) .receive
    have hm2 := mapInv_step (idInv_step hi (.dispatch none)) (by rw [h6]; exact hn) (mapInv_step hi hn hm (.dispatch none)) .receive
    have l2 : (step (step c (.dispatch none)) .receive).reqs.length = c.reqs.length := by rw [e]; exact h6
    obtain ⟨bs, g1, g2, g3, g4⟩ := ih (step (step c (.dispatch none)) .receive) m post hi2 hm2 (by rw [l2]; exact hn) (by rw [e]; rfl) r q (by rw [e]; exact ⟨h1.hq, h1.hp, h1.run, h1.up⟩)
    refine ⟨.dispatch none :: .receive :: bs, g1, g2, ?_, g4.trans l2⟩
    exact g3.trans (by rw [e]; exact h5)

/-- The server gets to a message on the wire and answers it. -/
theorem gets_answered (d : Bytes) : ∀ (pre : List Msg) (c : Conn) (m : Msg), c.toServer = pre ++ [m] → m.endpoint ∈ c.serverEndpoints → ∀ (r : Nat) (q : Req), Sent c r q →
    ∃ bs, Sent (run c bs) r q ∧ (∃ l, (run c bs).toClient = l ++ [{ requestId := m.requestId, endpoint := m.endpoint, data := d }]) ∧
      { endpoint := m.endpoint, id := m.requestId, payload := m.data, result := some d } ∈ (run c bs).calls ∧ (run c bs).reqs.length = c.reqs.length := by
  intro pre
  induction pre with
  | nil =>
    intro c m hc hs r q h
    refine ⟨[.serve (some d)], ?_, ?_, ?_, ?_⟩ <;> simp only [run, List.foldl_cons, List.foldl_nil, step, hc, List.nil_append, hs, if_true]
    · exact ⟨h.hq, h.hp, h.run, h.up⟩
    · exact ⟨_, rfl⟩
    · simp
  | cons m0 pre ih =>
    intro c m hc hs r q h
    have key : ∀ c' : Conn, step c (.serve none) = c' → c'.toServer = pre ++ [m] ∧ c'.serverEndpoints = c.serverEndpoints ∧ Sent c' r q ∧ c'.reqs.length = c.reqs.length := by
      intro c' e
      subst e
      by_cases hin : m0.endpoint ∈ c.serverEndpoints <;> simp only [step, hc, List.cons_append, hin, if_true, if_false] <;> exact ⟨trivial, trivial, ⟨h.hq, h.hp, h.run, h.up⟩, trivial⟩
    obtain ⟨k1, k2, k3, k4⟩ := key _ rfl
    obtain ⟨bs, g1, g2, g3, g4⟩ := ih (step c (.serve none)) m k1 (by rw [k2]; exact hs) r q k3
    exact ⟨.serve none :: bs, g1, g2, g3, g4.trans k4⟩

end Scalopus.Unix
