import Verif.Proofs.UnixEach

/-!
# Requests over the unix transport: the answer of one request, whatever happens to the others
-/

namespace Scalopus.Unix

open Protocol Spec.Requests

/-- What is on the wire with the id of call `r` belongs to it, and so does its value. -/
structure MsgFor (c : Conn) (r : Nat) : Prop where
  srv : ∀ (q : Req), c.reqs[r]? = some q → (q.pc = .sent ∨ ((q.endpoint, q.id), r) ∈ c.ongoing) →
    ∀ m ∈ c.toServer, m.requestId = q.id → m.endpoint = q.endpoint ∧ m.data = q.payload
  cli : ∀ (q : Req), c.reqs[r]? = some q → (q.pc = .sent ∨ ((q.endpoint, q.id), r) ∈ c.ongoing) →
    ∀ m ∈ incoming c, m.requestId = q.id → m.endpoint = q.endpoint ∧ AnsweredBy c.calls q m.data
  val : ∀ (q : Req) (d : Bytes), c.reqs[r]? = some q → q.fut = .value d → AnsweredBy c.calls q d

theorem MsgFor.congr {c c' : Conn} {r : Nat} (h : MsgFor c r) (h1 : c'.ongoing = c.ongoing) (h2 : c'.reqs = c.reqs)
    (h3 : ∀ m ∈ c'.toServer, m ∈ c.toServer) (h4 : ∀ m ∈ incoming c', m ∈ incoming c ∨ m.requestId = 0)
    (h5 : c'.calls = c.calls) (hi : IdInv c) (hn : c.reqs.length < 2 ^ 64) : MsgFor c' r := by
  have hpos : ∀ (q : Req), c.reqs[r]? = some q → q.id ≠ 0 := fun q hq => hi.pos hn hq
  obtain ⟨g2, g3, g4⟩ := h
  constructor
  · rw [h1, h2]; grind
  · rw [h1, h2, h5]; grind
  · rw [h2, h5]; exact g4

theorem msgFor_init (r : Nat) : MsgFor init r := by
  constructor <;> simp [init]

theorem msgFor_step {c : Conn} (hi : IdInv c) (hn : c.reqs.length < 2 ^ 64) (hm : MapInv c) (hkn : KnownInv c) {r : Nat} (h : MsgFor c r) (a : Act)
    (hnr : ∀ d m q, a = .dispatch (some d) → c.received = some m → c.reqs[r]? = some q → q.pc = .sent → m.endpoint ∈ c.clientEndpoints → q.id ≠ m.requestId) : MsgFor (step c a) r := by
  have hpos : ∀ (r : Nat) (q : Req), c.reqs[r]? = some q → q.id ≠ 0 := fun r q hq => hi.pos hn hq
  have hinj : ∀ (r r' : Nat) (q q' : Req), c.reqs[r]? = some q → c.reqs[r']? = some q' → q.id = q'.id → r = r' :=
    fun r r' q q' h1 h2 h3 => hi.inj hn h1 h2 h3
  cases a with
  | request ep p =>
    clear hnr
    have hnew : ∀ (r : Nat) (q : Req), (step c (.request ep p)).reqs[r]? = some q →
        c.reqs[r]? = some q ∨ q.pc = .sending ∧ q.fut = .waiting := by
      intro r q hq
      simp only [step] at hq
      rw [List.getElem?_append] at hq
      split at hq
      · exact Or.inl hq
      · have := List.mem_of_getElem? hq
        simp at this
        subst this; exact Or.inr ⟨rfl, rfl⟩
    have hold : ∀ (r : Nat) (q : Req), c.reqs[r]? = some q → (step c (.request ep p)).reqs[r]? = some q := by
      intro r q hq
      simp only [step]
      rw [List.getElem?_append_left (List.getElem?_eq_some_iff.1 hq).1]; exact hq
    have hong : ∀ e ∈ c.ongoing, ∃ q, c.reqs[e.2]? = some q := fun e he => by
      obtain ⟨q, hq, _⟩ := hm.ong e he; exact ⟨q, hq⟩
    have hnew' : ∀ (r : Nat) (q : Req), (step c (.request ep p)).reqs[r]? = some q →
        (q.pc = .sent ∨ ((q.endpoint, q.id), r) ∈ c.ongoing) → c.reqs[r]? = some q := by
      intro r q hq ho
      rcases ho with ho | ho
      · rcases hnew r q hq with h | h
        · exact h
        · rw [h.1] at ho; simp at ho
      · obtain ⟨q', hq'⟩ := hong _ ho
        have := hold _ _ hq'
        simp only at this hq'
        rw [hq] at this
        simp at this; subst this; exact hq'
    obtain ⟨g2, g3, g4⟩ := h
    constructor
    · intro q hq ho
      exact g2 q (hnew' r q hq ho) ho
    · intro q hq ho
      exact g3 q (hnew' r q hq ho) ho
    · intro q d hq hf
      rcases hnew r q hq with h | h
      · exact g4 q d h hf
      · rw [h.2] at hf; cases hf
  | send r' ok =>
    clear hnr
    obtain ⟨g2, g3, g4⟩ := h
    obtain ⟨k1, k2⟩ := hkn
    have hong := hm.ong
    have hearly := hm.early
    simp only [step]
    repeat' split
    · constructor
      · simp only [getElem?_updReq, updReq_ongoing] at g2 ⊢
        intro q' hq' ho m hm' hid
        simp only [List.mem_append, List.mem_singleton] at hm'
        grind
      · simp only [getElem?_updReq, incoming, updReq_received, updReq_toClient, updReq_ongoing, updReq_calls] at k1 g3 ⊢
        unfold AnsweredBy at *; grind
      · simp only [getElem?_updReq, updReq_calls]; unfold AnsweredBy at *; grind
    · constructor
      · simp only [getElem?_updReq, updReq_ongoing, updReq_toServer] at g2 ⊢; grind
      · simp only [getElem?_updReq, incoming, updReq_received, updReq_toClient, updReq_ongoing, updReq_calls] at k1 g3 ⊢
        unfold AnsweredBy at *; grind
      · simp only [getElem?_updReq, updReq_calls]; unfold AnsweredBy at *; grind
    all_goals exact ⟨g2, g3, g4⟩
  | register r' =>
    clear hnr
    obtain ⟨g2, g3, g4⟩ := h
    have hong := hm.ong
    have hearly := hm.early
    simp only [step]
    repeat' split
    · constructor
      · simp only [getElem?_updReq, mem_insert, updReq_toServer] at g2 ⊢
        grind
      · simp only [getElem?_updReq, incoming, updReq_received, updReq_toClient, mem_insert, updReq_calls] at g3 ⊢
        unfold AnsweredBy at *; grind
      · simp only [getElem?_updReq, updReq_calls]; unfold AnsweredBy at *; grind
    all_goals exact ⟨g2, g3, g4⟩
  | drop r' =>
    clear hnr
    obtain ⟨g2, g3, g4⟩ := h
    simp only [step]
    repeat' split
    · constructor
      · simp only [getElem?_updReq, updReq_toServer, updReq_ongoing] at g2 ⊢
        grind
      · simp only [getElem?_updReq, incoming, updReq_received, updReq_toClient, updReq_ongoing, updReq_calls] at g3 ⊢
        unfold AnsweredBy at *; grind
      · simp only [getElem?_updReq, updReq_calls]; unfold AnsweredBy at *; grind
    all_goals exact ⟨g2, g3, g4⟩
  | serve res =>
    clear hnr
    simp only [step]
    split
    · exact h
    · rename_i m ms hms
      split
      · obtain ⟨g2, g3, g4⟩ := h
        rw [hms] at g2
        cases res with
        | none =>
          constructor
          · simp only; grind
          · simp only [incoming, AnsweredBy] at g3 ⊢; grind
          · simp only [AnsweredBy] at g4 ⊢; grind
        | some d =>
          constructor
          · simp only; grind
          · simp only [incoming, AnsweredBy] at g3 ⊢
            intro q hq ho m' hm' hid
            simp only [List.mem_append, List.mem_singleton] at hm' g3
            grind
          · simp only [AnsweredBy] at g4 ⊢; grind
      · exact h.congr rfl rfl (by rw [hms]; intro m hm; exact List.mem_cons_of_mem _ hm) (fun m hm => Or.inl hm) rfl hi hn
  | broadcast ep d =>
    simp only [step]
    split
    · refine h.congr rfl rfl (fun m hm => hm) ?_ rfl hi hn
      intro m hm
      simp only [incoming, List.mem_append, List.mem_singleton] at hm ⊢
      grind
    · exact h
  | receive =>
    simp only [step]
    repeat' split
    · rename_i m ms hms
      refine h.congr rfl rfl (fun m hm => hm) ?_ rfl hi hn
      intro m' hm'
      simp only [incoming, hms] at hm' ⊢
      left; simp at hm' ⊢; exact Or.inr hm'
    · exact h
    · refine h.congr rfl rfl (fun m hm => hm) ?_ rfl hi hn
      intro m' hm'
      simp only [incoming] at hm' ⊢
      simp at hm'
      grind
    · exact h
  | dispatch rep =>
    simp only [step]
    split
    · exact h
    · rename_i m hrec
      have hin : m ∈ incoming c := by simp [incoming, hrec]
      have hsub : ∀ m' ∈ c.toClient, m' ∈ incoming c := by intro m' hm'; simp [incoming, hm']
      unfold dispatchMsg
      split
      · rename_i r' hr
        have hmem := find_some hr
        obtain ⟨q, hq, hpc, hk, hw⟩ := hm.ong _ hmem
        simp only at hq hk
        have hk' : (m.endpoint, m.requestId) = (q.endpoint, q.id) := hk
        have hans : r' = r → AnsweredBy c.calls q m.data := fun e => by
          subst e
          exact (h.cli q hq (Or.inr (by rw [← hk']; exact hmem)) m hin (by simp at hk'; exact hk'.2)).2
        clear hnr
        obtain ⟨g2, g3, g4⟩ := h
        constructor
        · simp only [getElem?_updReq, mem_erase, updReq_toServer, updReq_ongoing] at g2 ⊢; grind
        · simp only [getElem?_updReq, incoming, updReq_received, updReq_toClient, updReq_ongoing, updReq_calls,
            mem_erase] at g3 ⊢
          unfold AnsweredBy at *; grind
        · simp only [getElem?_updReq, updReq_calls]; unfold AnsweredBy at *; grind
      · rename_i hnone
        have hquiet : MsgFor { c with received := none } r :=
          h.congr rfl rfl (fun m hm => hm) (by intro m' hm'; left; simp [incoming] at hm' ⊢; exact Or.inr hm') rfl hi hn
        repeat' split
        · rename_i d _
          have hns := fun q => hnr d m q rfl hrec
          have hfn := find_none hnone
          have hcli := h.cli
          obtain ⟨g2, g3, g4⟩ := hquiet
          constructor
          · intro q hq ho m' hm' hid
            simp only [List.mem_append, List.mem_singleton] at hm'
            rcases hm' with hm' | hm'
            · exact g2 q hq ho m' hm' hid
            · exfalso
              subst hm'
              simp only at hid hq ho
              rcases ho with ho | ho
              · exact hns q hq ho (by assumption) hid.symm
              · have := (hcli q hq (Or.inr ho) m hin hid).1
                apply hfn r
                simp only
                rw [this, hid]; exact ho
          · exact g3
          · exact g4
        all_goals exact hquiet
  | cleanup =>
    simp only [step]
    split
    · obtain ⟨g2, g3, g4⟩ := h
      constructor
      · intro q hq ho
        exact g2 q hq (ho.imp_right (fun h => (List.mem_filter.1 h).1))
      · intro q hq ho
        exact g3 q hq (ho.imp_right (fun h => (List.mem_filter.1 h).1))
      · exact g4
    · exact h
  | serverDown => exact h.congr rfl rfl (by simp [step]) (fun m hm => Or.inl hm) rfl hi hn
  | addServerEndpoint n => exact h.congr rfl rfl (fun m hm => hm) (fun m hm => Or.inl hm) rfl hi hn
  | addClientEndpoint n => exact h.congr rfl rfl (fun m hm => hm) (fun m hm => Or.inl hm) rfl hi hn

theorem knownInv_run (as : List Act) : KnownInv (run init as) := by
  induction as using List.reverseRecOn with
  | nil => exact knownInv_init
  | append_singleton as a ih => rw [run_append]; exact knownInv_step ih a

end Scalopus.Unix
