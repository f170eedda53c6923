import Verif.Proofs.Unix
import Mathlib.Data.List.Induction

/-!
# Requests over the unix transport: values are final, answers are not lost, progress
-/

namespace Scalopus.Unix

open Protocol Spec.Requests

theorem sysRun_apply (s : System) (as : List (Nat × Act)) (i : Nat) :
    sysRun s as i = run (s i) (as.filterMap fun a => if a.1 = i then some a.2 else none) := by
  induction as generalizing s with
  | nil => rfl
  | cons a as ih =>
    show sysRun (sysStep s a) as i = _
    rw [ih]
    by_cases h : a.1 = i
    · simp [h, run, sysStep]
    · have : i ≠ a.1 := fun e => h e.symm
      simp [h, sysStep, this]

/-- Endpoint, payload and id of a call never change. A value never changes. A dropped future stays dropped. -/
theorem req_step {c : Conn} (hm : MapInv c) (a : Act) {r : Nat} {q : Req} (hq : c.reqs[r]? = some q) :
    ∃ q', (step c a).reqs[r]? = some q' ∧ q'.endpoint = q.endpoint ∧ q'.payload = q.payload ∧ q'.id = q.id ∧
      (∀ d, q.fut = .value d → q'.fut = .value d) ∧ (q.held = false → q'.held = false) := by
  have h5 := hm.valued
  have h1 := hm.ong
  have triv : ∃ q', some q = some q' ∧ q'.endpoint = q.endpoint ∧ q'.payload = q.payload ∧ q'.id = q.id ∧
      (∀ d, q.fut = .value d → q'.fut = .value d) ∧ (q.held = false → q'.held = false) :=
    ⟨q, rfl, rfl, rfl, rfl, fun _ h => h, fun h => h⟩
  cases a with
  | request ep p =>
    simp only [step]
    rw [List.getElem?_append_left (List.getElem?_eq_some_iff.1 hq).1, hq]; exact triv
  | dispatch rep =>
    simp only [step]
    split
    · rw [hq]; exact triv
    · unfold dispatchMsg
      split
      · rename_i m hrec r' hr'
        obtain ⟨q0, hq0, _, _, hw⟩ := h1 _ (find_some hr')
        simp only [getElem?_updReq] at hq0 ⊢
        by_cases hrr : r = r'
        · subst hrr
          simp only [hq] at hq0
          simp only [Option.some.injEq] at hq0
          subst hq0
          simp only [hq, if_true, Option.map_some]
          refine ⟨_, rfl, ?_⟩
          cases hh : q.held <;> simp [hw, hh]
        · simp only [hrr, if_false, hq]; exact triv
      · repeat' split
        all_goals (simp only [hq]; exact triv)
  | _ =>
    simp only [step]
    repeat' split
    all_goals (try simp only [getElem?_updReq])
    all_goals grind

theorem req_run (as : List Act) : ∀ {c : Conn}, IdInv c → MapInv c → (run c as).reqs.length < 2 ^ 64 →
    ∀ {r : Nat} {q : Req}, c.reqs[r]? = some q →
    ∃ q', (run c as).reqs[r]? = some q' ∧ q'.endpoint = q.endpoint ∧ q'.payload = q.payload ∧ q'.id = q.id ∧
      (∀ d, q.fut = .value d → q'.fut = .value d) ∧ (q.held = false → q'.held = false) := by
  induction as with
  | nil => intro c _ _ _ r q hq; exact ⟨q, hq, rfl, rfl, rfl, fun _ h => h, fun h => h⟩
  | cons a as ih =>
    intro c hi hm hn r q hq
    have hl : c.reqs.length < 2 ^ 64 := Nat.lt_of_le_of_lt (length_run c (a :: as)) hn
    obtain ⟨q1, hq1, e1, e2, e3, e4, e5⟩ := req_step hm a hq
    obtain ⟨q2, hq2, f1, f2, f3, f4, f5⟩ := ih (idInv_step hi a) (mapInv_step hi hl hm a) hn hq1
    exact ⟨q2, hq2, f1.trans e1, f2.trans e2, f3.trans e3, fun d h => f4 d (e4 d h), fun h => f5 (e5 h)⟩

theorem Resolved.step {c : Conn} (hm : MapInv c) (a : Act) {r : Nat} (h : Resolved c r) : Resolved (step c a) r := by
  obtain ⟨q, hq, hr⟩ := h
  obtain ⟨q', hq', _, _, _, hv, hh⟩ := req_step hm a hq
  refine ⟨q', hq', ?_⟩
  rcases hr with ⟨d, hd⟩ | hr
  · exact Or.inl ⟨d, hv d hd⟩
  · exact Or.inr (hh hr)

theorem dispatchMsg_none (c : Conn) (m : Msg) (rep : Option Bytes)
    (h : find c.ongoing (m.endpoint, m.requestId) = none) :
    (dispatchMsg c m rep).reqs = c.reqs ∧ (dispatchMsg c m rep).ongoing = c.ongoing ∧
    (dispatchMsg c m rep).received = c.received ∧ (dispatchMsg c m rep).toClient = c.toClient := by
  simp only [dispatchMsg, h]
  repeat' split
  all_goals exact ⟨rfl, rfl, rfl, rfl⟩

/-- Call `r` waits in the map and a message for it is at position `k` of the incoming messages. -/
def OnTheWay (c : Conn) (r k : Nat) : Prop :=
  ∃ q m, c.reqs[r]? = some q ∧ q.held = true ∧ ((q.endpoint, q.id), r) ∈ c.ongoing ∧ (incoming c)[k]? = some m ∧
    m.endpoint = q.endpoint ∧ m.requestId = q.id

/-- Worker steps that are left. -/
def left (c : Conn) (k : Nat) : Nat := 2 * k + if c.received.isSome then 1 else 2

/-- Steps that keep what matters for a waiting call and only append incoming messages. -/
theorem onTheWay_keep {c c' : Conn} {r k : Nat} {q : Req} {m : Msg}
    (hq : c'.reqs[r]? = some q) (hh : q.held = true) (ho : ((q.endpoint, q.id), r) ∈ c'.ongoing)
    (hk : (incoming c)[k]? = some m) (he : m.endpoint = q.endpoint) (hid : m.requestId = q.id)
    (hrec : c'.received = c.received) (hcl : ∃ l, c'.toClient = c.toClient ++ l) :
    ∃ k', OnTheWay c' r k' ∧ (if c'.received.isSome = c.received.isSome then 0 else 1) + left c' k' ≤ left c k := by
  refine ⟨k, ⟨q, m, hq, hh, ho, ?_, he, hid⟩, ?_⟩
  · obtain ⟨l, hl⟩ := hcl
    unfold incoming at *
    rw [hrec, hl, ← List.append_assoc]
    rw [List.getElem?_append_left (List.getElem?_eq_some_iff.1 hk).1]
    exact hk
  · simp [left, hrec]

theorem onTheWay_step {c : Conn} (hi : IdInv c) (hn : c.reqs.length < 2 ^ 64) (hm : MapInv c) (a : Act) {r k : Nat}
    (h : OnTheWay c r k) :
    Resolved (step c a) r ∨
    ∃ k', OnTheWay (step c a) r k' ∧
      (if (step c a).received.isSome = c.received.isSome then 0 else 1) + left (step c a) k' ≤ left c k := by
  obtain ⟨q, m, hq, hh, ho, hk, he, hid⟩ := h
  have hong := hm.ong
  have hpc : q.pc = .registered ∧ q.fut = .waiting := by
    obtain ⟨q', hq', h1, _, h2⟩ := hong _ ho
    simp only at hq'
    rw [hq] at hq'
    simp at hq'; subst hq'; exact ⟨h1, h2⟩
  cases a with
  | request ep p =>
    right
    refine onTheWay_keep (q := q) ?_ hh ho hk he hid rfl ⟨[], by simp [step]⟩
    simp only [step]
    rw [List.getElem?_append_left (List.getElem?_eq_some_iff.1 hq).1]; exact hq
  | send r' ok =>
    right
    refine onTheWay_keep (q := q) ?_ hh ?_ hk he hid ?_ ⟨[], ?_⟩ <;> simp only [step]
    · repeat' split
      all_goals (try simp only [getElem?_updReq])
      all_goals grind
    · repeat' split
      all_goals exact ho
    · repeat' split
      all_goals rfl
    · repeat' split
      all_goals simp
  | register r' =>
    right
    refine onTheWay_keep (q := q) ?_ hh ?_ hk he hid ?_ ⟨[], ?_⟩ <;> simp only [step]
    · repeat' split
      all_goals (try simp only [getElem?_updReq])
      all_goals grind
    · split
      · rename_i q' hq'
        split
        · simp only [mem_insert]
          by_cases hkk : ((q.endpoint, q.id) : Key) = (q'.endpoint, q'.id)
          · right
            simp at hkk
            have := hi.inj hn hq hq' hkk.2
            subst this; simp [hkk]
          · exact Or.inl ⟨ho, hkk⟩
        · exact ho
      · exact ho
    · repeat' split
      all_goals rfl
    · repeat' split
      all_goals simp
  | drop r' =>
    by_cases hrr : r = r'
    · left
      subst hrr
      simp only [step, hq]
      rw [if_pos (Or.inl hpc.1)]
      refine ⟨{ q with held := false }, ?_, Or.inr rfl⟩
      simp [getElem?_updReq, hq]
    · right
      refine onTheWay_keep (q := q) ?_ hh ?_ hk he hid ?_ ⟨[], ?_⟩ <;> simp only [step]
      · repeat' split
        all_goals (try simp only [getElem?_updReq])
        all_goals grind
      · repeat' split
        all_goals exact ho
      · repeat' split
        all_goals rfl
      · repeat' split
        all_goals simp
  | serve res =>
    right
    have hall : (step c (.serve res)).reqs = c.reqs ∧ (step c (.serve res)).ongoing = c.ongoing ∧
        (step c (.serve res)).received = c.received ∧ ∃ l, (step c (.serve res)).toClient = c.toClient ++ l := by
      cases hts : c.toServer with
      | nil =>
        have : step c (.serve res) = c := by simp only [step, hts]
        rw [this]; exact ⟨rfl, rfl, rfl, [], by simp⟩
      | cons m' ms =>
        by_cases hin : m'.endpoint ∈ c.serverEndpoints
        · cases res with
          | none => simp only [step, hts, hin, if_true]; exact ⟨trivial, trivial, trivial, [], by simp⟩
          | some d => simp only [step, hts, hin, if_true]; exact ⟨trivial, trivial, trivial, _, rfl⟩
        · simp only [step, hts, hin, if_false]; exact ⟨trivial, trivial, trivial, [], by simp⟩
    obtain ⟨h1, h2, h3, h4⟩ := hall
    exact onTheWay_keep (q := q) (by rw [h1]; exact hq) hh (by rw [h2]; exact ho) hk he hid h3 h4
  | broadcast ep d =>
    right
    simp only [step]
    split
    · exact onTheWay_keep (q := q) hq hh ho hk he hid rfl ⟨_, rfl⟩
    · exact onTheWay_keep (q := q) hq hh ho hk he hid rfl ⟨[], by simp⟩
  | receive =>
    right
    simp only [step]
    split
    · rename_i hr
      split
      · rename_i m' ms hms
        refine ⟨k, ⟨q, m, hq, hh, ho, ?_, he, hid⟩, ?_⟩
        · simpa [incoming, hms, hr.2] using hk
        · simp [left, hr.2]; omega
      · rename_i hms
        exfalso
        simp [incoming, hms, hr.2] at hk
    · exact onTheWay_keep (q := q) hq hh ho hk he hid rfl ⟨[], by simp⟩
  | dispatch rep =>
    cases hrec : c.received with
    | none =>
      have hst : step c (.dispatch rep) = c := by simp only [step, hrec]
      rw [hst, ← hrec]
      right; exact onTheWay_keep (q := q) hq hh ho hk he hid rfl ⟨[], by simp⟩
    | some m' =>
      have hst : step c (.dispatch rep) = dispatchMsg { c with received := none } m' rep := by simp only [step, hrec]
      rw [hst, ← hrec]
      by_cases hkey : (m'.endpoint, m'.requestId) = (q.endpoint, q.id)
      · left
        unfold dispatchMsg
        have hf : find c.ongoing (m'.endpoint, m'.requestId) = some r := by
          cases hfc : find c.ongoing (m'.endpoint, m'.requestId) with
          | none => exact absurd (by rw [hkey]; exact ho) (find_none hfc r)
          | some r' =>
            obtain ⟨q', hq', _, hk', _⟩ := hong _ (find_some hfc)
            simp only at hq' hk'
            rw [hkey] at hk'
            simp at hk'
            rw [hi.inj hn hq hq' hk'.2]
        simp only [hf]
        refine ⟨{ q with fut := .value m'.data }, ?_, Or.inl ⟨_, rfl⟩⟩
        simp [getElem?_updReq, hq, hh]
      · right
        have hk0 : k ≠ 0 := by
          intro h0
          subst h0
          simp [incoming, hrec] at hk
          subst hk
          exact hkey (by rw [he, hid])
        obtain ⟨k', rfl⟩ := Nat.exists_eq_succ_of_ne_zero hk0
        have hkc : c.toClient[k']? = some m := by simpa [incoming, hrec] using hk
        have main : ∀ c' : Conn, c'.reqs[r]? = some q → ((q.endpoint, q.id), r) ∈ c'.ongoing → c'.received = none →
            c'.toClient = c.toClient → ∃ k'', OnTheWay c' r k'' ∧
            (if c'.received.isSome = c.received.isSome then 0 else 1) + left c' k'' ≤ left c (k' + 1) := by
          intro c' h1 h2 h3 h4
          refine ⟨k', ⟨q, m, h1, hh, h2, ?_, he, hid⟩, ?_⟩
          · simp [incoming, h3, h4, hkc]
          · simp [left, h3, hrec]; omega
        cases hf : find c.ongoing (m'.endpoint, m'.requestId) with
        | some r' =>
          simp only [dispatchMsg, hf]
          have hrr : r ≠ r' := by
            intro e; subst e
            obtain ⟨q', hq', _, hk', _⟩ := hong _ (find_some hf)
            simp only at hq' hk'
            rw [hq] at hq'; simp at hq'; subst hq'
            exact hkey hk'
          refine main _ ?_ ?_ rfl rfl
          · simp only [getElem?_updReq, hrr, if_false]; exact hq
          · simp only [mem_erase, updReq_ongoing]; exact ⟨ho, fun e => hkey e.symm⟩
        | none =>
          obtain ⟨h1, h2, h3, h4⟩ := dispatchMsg_none { c with received := none } m' rep hf
          exact main _ (by rw [h1]; exact hq) (by rw [h2]; exact ho) h3 h4
  | cleanup =>
    right
    simp only [step]
    split
    · refine onTheWay_keep (q := q) hq hh ?_ hk he hid rfl ⟨[], by simp⟩
      simp only [List.mem_filter]
      exact ⟨ho, by simp [hq, hh]⟩
    · exact onTheWay_keep (q := q) hq hh ho hk he hid rfl ⟨[], by simp⟩
  | serverDown => right; exact onTheWay_keep (q := q) hq hh ho hk he hid rfl ⟨[], by simp [step]⟩
  | addServerEndpoint n => right; exact onTheWay_keep (q := q) hq hh ho hk he hid rfl ⟨[], by simp [step]⟩
  | addClientEndpoint n => right; exact onTheWay_keep (q := q) hq hh ho hk he hid rfl ⟨[], by simp [step]⟩

theorem resolved_run (as : List Act) : ∀ {c : Conn}, IdInv c → MapInv c → (run c as).reqs.length < 2 ^ 64 →
    ∀ {r : Nat}, Resolved c r → Resolved (run c as) r := by
  intro c hi hm hn r h
  obtain ⟨q, hq, hr⟩ := h
  obtain ⟨q', hq', _, _, _, hv, hh⟩ := req_run as hi hm hn hq
  refine ⟨q', hq', ?_⟩
  rcases hr with ⟨d, hd⟩ | hr
  · exact Or.inl ⟨d, hv d hd⟩
  · exact Or.inr (hh hr)

theorem onTheWay_run (as : List Act) : ∀ {c : Conn}, IdInv c → MapInv c → (run c as).reqs.length < 2 ^ 64 →
    ∀ {r k : Nat}, OnTheWay c r k → left c k ≤ workerSteps c as → Resolved (run c as) r := by
  induction as with
  | nil =>
    intro c _ _ _ r k _ hl
    simp only [workerSteps, left] at hl
    split at hl <;> omega
  | cons a as ih =>
    intro c hi hm hn r k ho hl
    have hlen : c.reqs.length < 2 ^ 64 := Nat.lt_of_le_of_lt (length_run c (a :: as)) hn
    simp only [workerSteps] at hl
    rcases onTheWay_step hi hlen hm a ho with h | ⟨k', hk', hle⟩
    · exact resolved_run as (idInv_step hi a) (mapInv_step hi hlen hm a) hn h
    · exact ih (idInv_step hi a) (mapInv_step hi hlen hm a) hn hk' (by omega)

/-- Answers that have been produced are on the way or have arrived. -/
structure AnsInv (c : Conn) : Prop where
  calls : ∀ x ∈ c.calls, x.id ≠ 0 →
    ∃ (r : Nat) (q : Req), c.reqs[r]? = some q ∧ q.id = x.id ∧ (q.pc = .sent ∨ q.pc = .registered)
  ans : ∀ (r : Nat) (q : Req) (d : Bytes), c.reqs[r]? = some q → (q.pc = .sent ∨ q.pc = .registered) →
    AnsweredBy c.calls q d →
    (∃ m ∈ incoming c, m.endpoint = q.endpoint ∧ m.requestId = q.id) ∨ (∃ d, q.fut = .value d) ∨ q.held = false

theorem AnsInv.congr {c c' : Conn} (h : AnsInv c) (h2 : c'.reqs = c.reqs)
    (h4 : ∀ m ∈ incoming c, m ∈ incoming c') (h5 : c'.calls = c.calls) : AnsInv c' := by
  constructor
  · rw [h2, h5]; exact h.calls
  · rw [h2, h5]
    intro r q d hq hp ha
    rcases h.ans r q d hq hp ha with ⟨m, hm, h1⟩ | h1
    · exact Or.inl ⟨m, h4 m hm, h1⟩
    · exact Or.inr h1

theorem ansInv_init : AnsInv init := by constructor <;> simp [init, AnsweredBy]

theorem ansInv_step {c : Conn} (hi : IdInv c) (hn : c.reqs.length < 2 ^ 64) (hm : MapInv c) (hmsg : MsgInv c)
    (h : AnsInv c) (a : Act)
    (hnr : ∀ d m, a = .dispatch d → c.received = some m → ∀ q ∈ c.reqs, q.pc = .sent → q.id ≠ m.requestId) :
    AnsInv (step c a) := by
  have hpos : ∀ (r : Nat) (q : Req), c.reqs[r]? = some q → q.id ≠ 0 := fun r q hq => hi.pos hn hq
  have hinj : ∀ (r r' : Nat) (q q' : Req), c.reqs[r]? = some q → c.reqs[r']? = some q' → q.id = q'.id → r = r' :=
    fun r r' q q' h1 h2 h3 => hi.inj hn h1 h2 h3
  cases a with
  | request ep p =>
    have hnew : ∀ (r : Nat) (q : Req), (step c (.request ep p)).reqs[r]? = some q →
        c.reqs[r]? = some q ∨ q.pc = .sending := by
      intro r q hq
      simp only [step] at hq
      rw [List.getElem?_append] at hq
      split at hq
      · exact Or.inl hq
      · have := List.mem_of_getElem? hq
        simp at this
        subst this; exact Or.inr rfl
    have hold : ∀ (r : Nat) (q : Req), c.reqs[r]? = some q → (step c (.request ep p)).reqs[r]? = some q := by
      intro r q hq
      simp only [step]
      rw [List.getElem?_append_left (List.getElem?_eq_some_iff.1 hq).1]; exact hq
    constructor
    · intro x hx h0
      obtain ⟨r, q, hq, hr⟩ := h.calls x hx h0
      exact ⟨r, q, hold r q hq, hr⟩
    · intro r q d hq hp ha
      rcases hnew r q hq with h' | h'
      · exact h.ans r q d h' hp ha
      · rw [h'] at hp; simp at hp
  | send r ok =>
    obtain ⟨g1, g2⟩ := h
    simp only [AnsweredBy] at g2
    simp only [step]
    repeat' split
    · constructor
      · simp only [getElem?_updReq, updReq_calls]; grind
      · simp only [getElem?_updReq, updReq_calls, incoming, updReq_received, updReq_toClient, AnsweredBy] at g2 ⊢
        grind
    · constructor
      · simp only [getElem?_updReq, updReq_calls]; grind
      · simp only [getElem?_updReq, updReq_calls, incoming, updReq_received, updReq_toClient, AnsweredBy] at g2 ⊢
        grind
    all_goals exact ⟨g1, g2⟩
  | register r =>
    obtain ⟨g1, g2⟩ := h
    simp only [AnsweredBy] at g2
    simp only [step]
    repeat' split
    · constructor
      · simp only [getElem?_updReq, updReq_calls]; grind
      · simp only [getElem?_updReq, updReq_calls, incoming, updReq_received, updReq_toClient, AnsweredBy] at g2 ⊢
        grind
    all_goals exact ⟨g1, g2⟩
  | drop r =>
    obtain ⟨g1, g2⟩ := h
    simp only [AnsweredBy] at g2
    simp only [step]
    repeat' split
    · constructor
      · simp only [getElem?_updReq, updReq_calls]; grind
      · simp only [getElem?_updReq, updReq_calls, incoming, updReq_received, updReq_toClient, AnsweredBy] at g2 ⊢
        grind
    all_goals exact ⟨g1, g2⟩
  | serve res =>
    simp only [step]
    split
    · exact h
    · rename_i m ms hms
      split
      · have hk := hmsg.known m (by simp [hms])
        clear hnr
        have hsub : ∀ m' ∈ incoming c, m' ∈ c.received.toList ++ (match res with
            | some d => c.toClient ++ [{ requestId := m.requestId, endpoint := m.endpoint, data := d }]
            | none => c.toClient) := by
          intro m' hm'
          unfold incoming at hm'
          cases res <;> simp at hm' ⊢ <;> grind
        constructor
        · intro x hx h0
          simp only [List.mem_append, List.mem_singleton] at hx
          rcases hx with hx | hx
          · exact h.calls x hx h0
          · subst hx; exact hk h0
        · intro r q d hq hp ha
          simp only [AnsweredBy, List.mem_append, List.mem_singleton] at ha
          rcases ha with ha | ha
          · rcases h.ans r q d hq hp ha with ⟨m', hm', h1⟩ | h1
            · exact Or.inl ⟨m', hsub m' hm', h1⟩
            · exact Or.inr h1
          · left
            simp only [Call.mk.injEq] at ha
            obtain ⟨e1, e2, e3, e4⟩ := ha
            subst e4
            exact ⟨{ requestId := m.requestId, endpoint := m.endpoint, data := d }, by simp [incoming], e1.symm, e2.symm⟩
      · exact h.congr rfl (fun m hm => hm) rfl
  | broadcast ep d =>
    simp only [step]
    split
    · exact h.congr rfl (fun m hm => by simp [incoming] at hm ⊢; grind) rfl
    · exact h
  | receive =>
    simp only [step]
    repeat' split
    · rename_i hr _ m ms hms
      refine h.congr rfl ?_ rfl
      intro m' hm'
      simp [incoming, hms, hr.2] at hm' ⊢
      exact hm'
    · exact h
    · rename_i hr _ hms _
      refine h.congr rfl ?_ rfl
      intro m' hm'
      simp [incoming, hms, hr.2] at hm'
    · exact h
  | dispatch rep =>
    simp only [step]
    split
    · exact h
    · rename_i m hrec
      have hns := hnr rep m rfl hrec
      obtain ⟨g1, g2⟩ := h
      unfold dispatchMsg
      split
      · rename_i r hf
        have hmem := find_some hf
        obtain ⟨q, hq, hpc, hk, hw⟩ := hm.ong _ hmem
        simp only at hq hk
        simp only [Prod.mk.injEq] at hk
        constructor
        · simp only [getElem?_updReq, updReq_calls]; grind
        · simp only [getElem?_updReq, updReq_calls, incoming, updReq_received, updReq_toClient, AnsweredBy, hrec] at g2 ⊢
          intro r' q' d hq' hp ha
          by_cases hrr : r' = r
          · subst hrr
            simp only [if_true, hq, Option.map_some, Option.some.injEq] at hq'
            cases hh : q.held
            · simp only [hh] at hq'
              simp at hq'
              subst hq'; exact Or.inr (Or.inr hh)
            · simp only [hh, if_true] at hq'
              subst hq'; exact Or.inr (Or.inl ⟨_, rfl⟩)
          · simp only [hrr, if_false] at hq'
            rcases g2 r' q' d hq' hp ha with ⟨m', hm', h1⟩ | h1
            · left
              refine ⟨m', ?_, h1⟩
              simp at hm' ⊢
              rcases hm' with hm' | hm'
              · subst hm'
                exact absurd (hinj r' r q' q hq' hq (by rw [← h1.2, hk.2])) hrr
              · exact hm'
            · exact Or.inr h1
      · rename_i hnone
        have hfn := find_none hnone
        have hquiet : AnsInv { c with received := none } := by
          constructor
          · exact g1
          · intro r q d hq hp ha
            rcases g2 r q d hq hp ha with ⟨m', hm', h1⟩ | h1
            · simp [incoming, hrec] at hm'
              rcases hm' with hm' | hm'
              · subst hm'
                rcases hp with hp | hp
                · exact absurd h1.2.symm (hns q (List.mem_of_getElem? hq) hp)
                · cases hfut : q.fut with
                  | waiting =>
                    cases hh : q.held
                    · exact Or.inr (Or.inr rfl)
                    · have := hm.kept r q hq hp hfut hh
                      rw [← h1.1, ← h1.2] at this
                      exact absurd this (hfn r)
                  | value d => exact Or.inr (Or.inl ⟨d, rfl⟩)
                  | error => exact absurd hfut (hm.noError r q hq hp)
              · exact Or.inl ⟨m', by simp [incoming, hm'], h1⟩
            · exact Or.inr h1
        repeat' split
        all_goals exact hquiet.congr rfl (fun m hm => hm) rfl
  | cleanup => simp only [step]; split; exact h.congr rfl (fun m hm => hm) rfl; exact h
  | serverDown => exact h.congr rfl (fun m hm => hm) rfl
  | addServerEndpoint n => exact h.congr rfl (fun m hm => hm) rfl
  | addClientEndpoint n => exact h.congr rfl (fun m hm => hm) rfl

theorem noReply_of_registeredFirst (as : List Act) : ∀ (c : Conn), RegisteredFirst c as → NoReplyWhileUnregistered c as := by
  induction as with
  | nil => intro c _; trivial
  | cons a as ih => intro c h; exact ⟨fun d m h1 h2 => h.1 (some d) m h1 h2, ih _ h.2⟩

theorem ansInv_run (as : List Act) (hn : (run init as).reqs.length < 2 ^ 64)
    (hq : RegisteredFirst init as) : AnsInv (run init as) := by
  suffices H : ∀ (as : List Act) (c : Conn), IdInv c → MapInv c → MsgInv c → AnsInv c → (run c as).reqs.length < 2 ^ 64 →
      RegisteredFirst c as → AnsInv (run c as) from
    H as init idInv_init mapInv_init msgInv_init ansInv_init hn hq
  intro as
  induction as with
  | nil => intro c _ _ _ h _ _; exact h
  | cons a as ih =>
    intro c hi hm hmsg h hn hq
    have hl : c.reqs.length < 2 ^ 64 := Nat.lt_of_le_of_lt (length_run c (a :: as)) hn
    have hl' : (step c a).reqs.length < 2 ^ 64 := Nat.lt_of_le_of_lt (length_run (step c a) as) hn
    exact ih (step c a) (idInv_step hi a) (mapInv_step hi hl hm a)
      (msgInv_step hi hl hm hmsg a (fun d m h1 h2 => hq.1 (some d) m h1 h2) hl')
      (ansInv_step hi hl hm hmsg h a hq.1) hn hq.2

end Scalopus.Unix

namespace Scalopus.Unix

open Protocol Spec.Requests

/-- Call `r` has been sent, is not completed, and no message with its id is anywhere. -/
def Lost (c : Conn) (r : Nat) : Prop :=
  ∃ q, c.reqs[r]? = some q ∧ q.pc = .registered ∧ q.fut = .waiting ∧
    ∀ m ∈ c.toServer ++ incoming c, m.requestId ≠ q.id

theorem lost_step {c : Conn} (hi : IdInv c) (hn : c.reqs.length < 2 ^ 64) (hm : MapInv c) (a : Act) {r : Nat}
    (h : Lost c r) : Lost (step c a) r := by
  obtain ⟨q, hq, hp, hf, hno⟩ := h
  have hinj : ∀ (r' : Nat) (q' : Req), c.reqs[r']? = some q' → q.id = q'.id → r = r' :=
    fun r' q' h2 h3 => hi.inj hn hq h2 h3
  have hpos := hi.pos hn hq
  have keep : ∀ c' : Conn, c'.reqs[r]? = some q → (∀ m ∈ c'.toServer ++ incoming c', m.requestId ≠ q.id) → Lost c' r :=
    fun c' h1 h2 => ⟨q, h1, hp, hf, h2⟩
  cases a with
  | request ep p =>
    refine keep _ ?_ hno
    simp only [step]
    rw [List.getElem?_append_left (List.getElem?_eq_some_iff.1 hq).1]; exact hq
  | send r' ok =>
    refine keep _ ?_ ?_ <;> simp only [step]
    · repeat' split
      all_goals (try simp only [getElem?_updReq])
      all_goals grind
    · unfold incoming at *
      repeat' split
      all_goals (try simp only [updReq_received, updReq_toClient, updReq_toServer])
      all_goals grind
  | register r' =>
    refine keep _ ?_ ?_ <;> simp only [step]
    · repeat' split
      all_goals (try simp only [getElem?_updReq])
      all_goals grind
    · unfold incoming at *
      repeat' split
      all_goals (try simp only [updReq_received, updReq_toClient, updReq_toServer])
      all_goals grind
  | drop r' =>
    by_cases hrr : r = r'
    · subst hrr
      simp only [step, hq]
      rw [if_pos (Or.inl hp)]
      exact ⟨{ q with held := false }, by simp [getElem?_updReq, hq], hp, hf, hno⟩
    · refine keep _ ?_ ?_ <;> simp only [step]
      · repeat' split
        all_goals (try simp only [getElem?_updReq])
        all_goals grind
      · unfold incoming at *
        repeat' split
        all_goals exact hno
  | serve res =>
    cases hts : c.toServer with
    | nil =>
      have : step c (.serve res) = c := by simp only [step, hts]
      rw [this]; exact keep _ hq hno
    | cons m' ms =>
      rw [hts] at hno
      by_cases hin : m'.endpoint ∈ c.serverEndpoints
      · have e1 : (step c (.serve res)).reqs = c.reqs := by simp only [step, hts, hin, if_true]
        refine keep _ (by rw [e1]; exact hq) ?_
        unfold incoming at *
        cases res with
        | none => simp only [step, hts, hin, if_true]; grind
        | some d =>
          simp only [step, hts, hin, if_true]
          intro m hm
          simp only [List.mem_append, List.mem_singleton, List.mem_cons] at hm hno
          grind
      · simp only [step, hts, hin, if_false]
        refine keep _ hq ?_
        unfold incoming at *
        grind
  | broadcast ep d =>
    simp only [step]
    split
    · refine keep _ hq ?_
      unfold incoming at *
      intro m hm
      simp only [List.mem_append, List.mem_singleton] at hm hno
      grind
    · exact keep _ hq hno
  | receive =>
    simp only [step]
    split
    · rename_i hr
      split
      · rename_i m' ms hms
        refine keep _ hq ?_
        simp [incoming, hms, hr.2] at hno ⊢
        exact hno
      · rename_i hms
        split
        · exact keep _ hq hno
        · refine keep _ hq ?_
          simp [incoming, hms, hr.2] at hno ⊢
          intro m hm'
          rcases hm' with hm' | hm'
          · exact hno m hm'
          · subst hm'; exact fun e => hpos e.symm
    · exact keep _ hq hno
  | dispatch rep =>
    simp only [step]
    split
    · exact keep _ hq hno
    · rename_i m hrec
      have hmid : m.requestId ≠ q.id := hno m (by simp [incoming, hrec])
      have hno' : ∀ m ∈ c.toServer ++ c.toClient, m.requestId ≠ q.id := by
        intro m' hm'
        apply hno
        simp [incoming] at hm' ⊢
        grind
      unfold dispatchMsg
      split
      · rename_i r' hr'
        obtain ⟨q0, hq0, _, hk, _⟩ := hm.ong _ (find_some hr')
        simp only at hq0 hk
        simp at hk
        have hrr : r ≠ r' := by
          intro e; subst e
          rw [hq] at hq0; simp at hq0; subst hq0
          exact hmid hk.2
        refine keep _ ?_ ?_
        · simp only [getElem?_updReq, hrr, if_false]; exact hq
        · simpa [incoming] using hno'
      · repeat' split
        · refine keep _ hq ?_
          intro m' hm'
          simp [incoming] at hm' hno'
          grind
        all_goals exact keep _ hq (by simpa [incoming] using hno')
  | cleanup => simp only [step]; split; exact keep _ hq hno; exact keep _ hq hno
  | serverDown =>
    refine keep _ hq ?_
    intro m hm
    apply hno
    simp [step, incoming] at hm ⊢
    grind
  | addServerEndpoint n => exact keep _ hq hno
  | addClientEndpoint n => exact keep _ hq hno

theorem lost_run (as : List Act) : ∀ {c : Conn}, IdInv c → MapInv c → (run c as).reqs.length < 2 ^ 64 →
    ∀ {r : Nat}, Lost c r → Lost (run c as) r := by
  induction as with
  | nil => intro c _ _ _ r h; exact h
  | cons a as ih =>
    intro c hi hm hn r h
    have hl : c.reqs.length < 2 ^ 64 := Nat.lt_of_le_of_lt (length_run c (a :: as)) hn
    exact ih (idInv_step hi a) (mapInv_step hi hl hm a) hn (lost_step hi hl hm a h)

/-- Counting through positions. -/
theorem length_filter_range (l : List Req) (p : Req → Bool) :
    (l.filter p).length = ((List.range l.length).filter (fun r => (l[r]?).any p)).length := by
  induction l using List.reverseRecOn with
  | nil => rfl
  | append_singleton l x ih =>
    rw [List.filter_append, List.length_append, ih, List.length_append, List.length_singleton, List.range_succ,
      List.filter_append, List.length_append]
    have h1 : (List.range l.length).filter (fun r => ((l ++ [x])[r]?).any p) =
        (List.range l.length).filter (fun r => (l[r]?).any p) := by
      apply List.filter_congr
      intro r hr
      rw [List.getElem?_append_left (List.mem_range.1 hr)]
    have h2 : ((l ++ [x])[l.length]?).any p = p x := by simp
    rw [h1]
    cases hx : p x <;> simp [List.filter_cons, hx]

theorem count_idx (l : List Req) (p : Req → Bool) (ix : List Nat) (hnd : ix.Nodup)
    (h : ∀ r, r ∈ ix ↔ ∃ q, l[r]? = some q ∧ p q = true) : ix.length = (l.filter p).length := by
  rw [length_filter_range]
  apply List.Perm.length_eq
  rw [List.perm_ext_iff_of_nodup hnd (List.Nodup.sublist List.filter_sublist List.nodup_range)]
  intro r
  rw [h, List.mem_filter, List.mem_range]
  constructor
  · rintro ⟨q, hq, hp⟩
    exact ⟨(List.getElem?_eq_some_iff.1 hq).1, by simp [hq, hp]⟩
  · rintro ⟨hlt, ha⟩
    refine ⟨l[r], by simp [hlt], ?_⟩
    simpa [hlt] using ha

end Scalopus.Unix
