import Verif.Proofs.UnixProgress

/-!
# Requests over the unix transport: the fate of one request, whatever happens to the others
-/

namespace Scalopus.Unix

open Protocol Spec.Requests

/-- In all schedules, every id on the wire, or handled by the server, is that of a request that was sent. -/
structure KnownInv (c : Conn) : Prop where
  wire : ∀ m ∈ c.toServer ++ incoming c, m.requestId ≠ 0 →
    ∃ (r : Nat) (q : Req), c.reqs[r]? = some q ∧ q.id = m.requestId ∧ (q.pc = .sent ∨ q.pc = .registered)
  calls : ∀ x ∈ c.calls, x.id ≠ 0 →
    ∃ (r : Nat) (q : Req), c.reqs[r]? = some q ∧ q.id = x.id ∧ (q.pc = .sent ∨ q.pc = .registered)

theorem knownInv_init : KnownInv init := by constructor <;> simp [init, incoming]

theorem KnownInv.congr {c c' : Conn} (h : KnownInv c) (h2 : c'.reqs = c.reqs)
    (h3 : ∀ m ∈ c'.toServer, m ∈ c.toServer) (h4 : ∀ m ∈ incoming c', m ∈ incoming c ∨ m.requestId = 0) (h5 : c'.calls = c.calls) : KnownInv c' := by
  obtain ⟨g1, g2⟩ := h
  constructor
  · rw [h2]; intro m hm; grind
  · rw [h2, h5]; exact g2

theorem knownInv_step {c : Conn} (h : KnownInv c) (a : Act) : KnownInv (step c a) := by
  cases a with
  | request ep p =>
    have hold : ∀ (r : Nat) (q : Req), c.reqs[r]? = some q → (step c (.request ep p)).reqs[r]? = some q := by
      intro r q hq
      simp only [step]
      rw [List.getElem?_append_left (List.getElem?_eq_some_iff.1 hq).1]; exact hq
    obtain ⟨g1, g2⟩ := h
    constructor
    · intro m hm h0
      obtain ⟨r, q, hq, hr⟩ := g1 m hm h0
      exact ⟨r, q, hold r q hq, hr⟩
    · intro x hx h0
      obtain ⟨r, q, hq, hr⟩ := g2 x hx h0
      exact ⟨r, q, hold r q hq, hr⟩
  | send r ok =>
    obtain ⟨g1, g2⟩ := h
    simp only [step]
    repeat' split
    · constructor
      · simp only [getElem?_updReq, incoming, updReq_received, updReq_toClient] at g1 ⊢; grind
      · simp only [getElem?_updReq, updReq_calls]; grind
    · constructor
      · simp only [getElem?_updReq, incoming, updReq_received, updReq_toClient, updReq_toServer] at g1 ⊢; grind
      · simp only [getElem?_updReq, updReq_calls]; grind
    all_goals exact ⟨g1, g2⟩
  | register r =>
    obtain ⟨g1, g2⟩ := h
    simp only [step]
    repeat' split
    · constructor
      · simp only [getElem?_updReq, incoming, updReq_received, updReq_toClient, updReq_toServer] at g1 ⊢; grind
      · simp only [getElem?_updReq, updReq_calls]; grind
    all_goals exact ⟨g1, g2⟩
  | drop r =>
    obtain ⟨g1, g2⟩ := h
    simp only [step]
    repeat' split
    · constructor
      · simp only [getElem?_updReq, incoming, updReq_received, updReq_toClient, updReq_toServer] at g1 ⊢; grind
      · simp only [getElem?_updReq, updReq_calls]; grind
    all_goals exact ⟨g1, g2⟩
  | serve res =>
    simp only [step]
    split
    · exact h
    · rename_i m ms hms
      split
      · obtain ⟨g1, g2⟩ := h
        rw [hms] at g1
        have hk := g1 m (by simp)
        constructor
        · intro m' hm' h0
          cases res with
          | none =>
            refine g1 m' ?_ h0
            simp only [incoming, List.mem_append, List.mem_cons] at hm' ⊢
            grind
          | some d =>
            simp only [incoming, List.mem_append, List.mem_singleton] at hm'
            rcases hm' with hm' | hm' | hm' | hm'
            · exact g1 m' (by simp [hm']) h0
            · exact g1 m' (by simp only [incoming, List.mem_append]; exact Or.inr (Or.inl hm')) h0
            · exact g1 m' (by simp only [incoming, List.mem_append]; exact Or.inr (Or.inr hm')) h0
            · subst hm'; exact hk h0
        · intro x hx h0
          simp only [List.mem_append, List.mem_singleton] at hx
          rcases hx with hx | hx
          · exact g2 x hx h0
          · subst hx; exact hk h0
      · exact h.congr rfl (by rw [hms]; intro m hm; exact List.mem_cons_of_mem _ hm) (fun m hm => Or.inl hm) rfl
  | broadcast ep d =>
    simp only [step]
    split
    · refine h.congr rfl (fun m hm => hm) ?_ rfl
      intro m hm
      simp only [incoming, List.mem_append, List.mem_singleton] at hm ⊢
      grind
    · exact h
  | receive =>
    simp only [step]
    repeat' split
    · rename_i m ms hms
      refine h.congr rfl (fun m hm => hm) ?_ rfl
      intro m' hm'
      simp only [incoming, hms] at hm' ⊢
      left; simp at hm' ⊢; exact Or.inr hm'
    · exact h
    · refine h.congr rfl (fun m hm => hm) ?_ rfl
      intro m' hm'
      simp only [incoming] at hm' ⊢
      simp at hm'
      grind
    · exact h
  | dispatch rep =>
    simp only [step]
    split
    · exact h
    · rename_i m hrec
      have hin : m ∈ incoming c := by simp [incoming, hrec]
      have hk := h.wire m (by simp [hin])
      unfold dispatchMsg
      split
      · obtain ⟨g1, g2⟩ := h
        constructor
        · simp only [getElem?_updReq, incoming, updReq_received, updReq_toClient, updReq_toServer] at g1 ⊢; grind
        · simp only [getElem?_updReq, updReq_calls]; grind
      · have hquiet : KnownInv { c with received := none } :=
          h.congr rfl (fun m hm => hm) (by intro m' hm'; left; simp [incoming] at hm' ⊢; exact Or.inr hm') rfl
        repeat' split
        · obtain ⟨g1, g2⟩ := hquiet
          constructor
          · intro m' hm'
            simp only [List.mem_append, List.mem_singleton] at hm'
            simp only [List.mem_append] at g1
            rcases hm' with (hm' | hm') | hm'
            · exact g1 m' (Or.inl hm')
            · subst hm'; exact hk
            · exact g1 m' (Or.inr hm')
          · exact g2
        all_goals exact hquiet
  | cleanup => simp only [step]; split; exact h.congr rfl (fun m hm => hm) (fun m hm => Or.inl hm) rfl; exact h
  | serverDown => exact h.congr rfl (fun m hm => by simp [step] at hm) (fun m hm => Or.inl hm) rfl
  | addServerEndpoint n => exact h.congr rfl (fun m hm => hm) (fun m hm => Or.inl hm) rfl
  | addClientEndpoint n => exact h.congr rfl (fun m hm => hm) (fun m hm => Or.inl hm) rfl

/-- An answer to call `r` that has been produced is on the way or has arrived. -/
def AnsFor (c : Conn) (r : Nat) : Prop :=
  ∀ (q : Req) (d : Bytes), c.reqs[r]? = some q → (q.pc = .sent ∨ q.pc = .registered) → AnsweredBy c.calls q d →
    (∃ m ∈ incoming c, m.endpoint = q.endpoint ∧ m.requestId = q.id) ∨ (∃ d, q.fut = .value d) ∨ q.held = false

theorem AnsFor.congr {c c' : Conn} {r : Nat} (h : AnsFor c r) (h2 : c'.reqs = c.reqs) (h4 : ∀ m ∈ incoming c, m ∈ incoming c') (h5 : c'.calls = c.calls) : AnsFor c' r := by
  unfold AnsFor
  rw [h2, h5]
  intro q d hq hp ha
  rcases h q d hq hp ha with ⟨m, hm, h1⟩ | h1
  · exact Or.inl ⟨m, h4 m hm, h1⟩
  · exact Or.inr h1

theorem ansFor_step {c : Conn} (hi : IdInv c) (hn : c.reqs.length < 2 ^ 64) (hm : MapInv c) (hk : KnownInv c) {r : Nat} (h : AnsFor c r) (a : Act)
    (hnr : ∀ d m q, a = .dispatch d → c.received = some m → c.reqs[r]? = some q → q.pc = .sent → q.id ≠ m.requestId) :
    AnsFor (step c a) r := by
  have hpos : ∀ (r : Nat) (q : Req), c.reqs[r]? = some q → q.id ≠ 0 := fun r q hq => hi.pos hn hq
  have hinj : ∀ (r r' : Nat) (q q' : Req), c.reqs[r]? = some q → c.reqs[r']? = some q' → q.id = q'.id → r = r' :=
    fun r r' q q' h1 h2 h3 => hi.inj hn h1 h2 h3
  have hcalls := hk.calls
  cases a with
  | request ep p =>
    intro q d hq hp ha
    simp only [step] at hq
    rw [List.getElem?_append] at hq
    split at hq
    · exact h q d hq hp ha
    · have := List.mem_of_getElem? hq
      simp at this
      subst this; simp at hp
  | send r' ok =>
    clear hnr
    simp only [AnsFor, AnsweredBy] at h
    simp only [step]
    repeat' split
    · simp only [AnsFor, getElem?_updReq, updReq_calls, incoming, updReq_received, updReq_toClient, AnsweredBy] at h ⊢
      grind
    · simp only [AnsFor, getElem?_updReq, updReq_calls, incoming, updReq_received, updReq_toClient, AnsweredBy] at h ⊢
      grind
    all_goals exact h
  | register r' =>
    clear hnr
    simp only [AnsFor, AnsweredBy] at h
    simp only [step]
    repeat' split
    · simp only [AnsFor, getElem?_updReq, updReq_calls, incoming, updReq_received, updReq_toClient, AnsweredBy] at h ⊢
      grind
    all_goals exact h
  | drop r' =>
    clear hnr
    simp only [AnsFor, AnsweredBy] at h
    simp only [step]
    repeat' split
    · simp only [AnsFor, getElem?_updReq, updReq_calls, incoming, updReq_received, updReq_toClient, AnsweredBy] at h ⊢
      grind
    all_goals exact h
  | serve res =>
    simp only [step]
    split
    · exact h
    · rename_i m ms hms
      split
      · clear hnr
        have hsub : ∀ m' ∈ incoming c, m' ∈ c.received.toList ++ (match res with
            | some d => c.toClient ++ [{ requestId := m.requestId, endpoint := m.endpoint, data := d }]
            | none => c.toClient) := by
          intro m' hm'
          unfold incoming at hm'
          cases res <;> simp at hm' ⊢ <;> grind
        intro q d hq hp ha
        simp only [AnsweredBy, List.mem_append, List.mem_singleton] at ha
        rcases ha with ha | ha
        · rcases h q d hq hp ha with ⟨m', hm', h1⟩ | h1
          · exact Or.inl ⟨m', hsub m' hm', h1⟩
          · exact Or.inr h1
        · left
          simp only [Call.mk.injEq] at ha
          obtain ⟨e1, e2, e3, e4⟩ := ha
          subst e4
          exact ⟨{ requestId := m.requestId, endpoint := m.endpoint, data := d }, by simp [incoming], e1.symm, e2.symm⟩
      · exact h.congr rfl (fun m hm => hm) rfl
  | broadcast ep d =>
    simp only [step]
    split
    · exact h.congr rfl (fun m hm => by simp [incoming] at hm ⊢; grind) rfl
    · exact h
  | receive =>
    simp only [step]
    repeat' split
    · rename_i hr _ m ms hms
      refine h.congr rfl ?_ rfl
      intro m' hm'
      simp [incoming, hms, hr.2] at hm' ⊢
      exact hm'
    · exact h
    · rename_i hr _ hms _
      refine h.congr rfl ?_ rfl
      intro m' hm'
      simp [incoming, hms, hr.2] at hm'
    · exact h
  | dispatch rep =>
    simp only [step]
    split
    · exact h
    · rename_i m hrec
      have hns := fun q => hnr rep m q rfl hrec
      unfold dispatchMsg
      split
      · rename_i r' hf
        have hmem := find_some hf
        obtain ⟨q, hq, hpc, hk, hw⟩ := hm.ong _ hmem
        simp only at hq hk
        simp only [Prod.mk.injEq] at hk
        simp only [AnsFor, getElem?_updReq, updReq_calls, incoming, updReq_received, updReq_toClient, AnsweredBy, hrec] at h ⊢
        intro q' d hq' hp ha
        by_cases hrr : r = r'
        · subst hrr
          simp only [if_true, hq, Option.map_some, Option.some.injEq] at hq'
          cases hh : q.held
          · simp only [hh] at hq'
            simp at hq'
            subst hq'; exact Or.inr (Or.inr hh)
          · simp only [hh, if_true] at hq'
            subst hq'; exact Or.inr (Or.inl ⟨_, rfl⟩)
        · simp only [hrr, if_false] at hq'
          rcases h q' d hq' hp ha with ⟨m', hm', h1⟩ | h1
          · left
            refine ⟨m', ?_, h1⟩
            simp at hm' ⊢
            rcases hm' with hm' | hm'
            · subst hm'
              exact absurd (hinj r r' q' q hq' hq (by rw [← h1.2, hk.2])) hrr
            · exact hm'
          · exact Or.inr h1
      · rename_i hnone
        have hfn := find_none hnone
        have hquiet : AnsFor { c with received := none } r := by
          intro q d hq hp ha
          rcases h q d hq hp ha with ⟨m', hm', h1⟩ | h1
          · simp [incoming, hrec] at hm'
            rcases hm' with hm' | hm'
            · subst hm'
              rcases hp with hp | hp
              · exact absurd h1.2.symm (hns q hq hp)
              · cases hfut : q.fut with
                | waiting =>
                  cases hh : q.held
                  · exact Or.inr (Or.inr rfl)
                  · have := hm.kept r q hq hp hfut hh
                    rw [← h1.1, ← h1.2] at this
                    exact absurd this (hfn r)
                | value d => exact Or.inr (Or.inl ⟨d, rfl⟩)
                | error => exact absurd hfut (hm.noError r q hq hp)
            · exact Or.inl ⟨m', by simp [incoming, hm'], h1⟩
          · exact Or.inr h1
        repeat' split
        all_goals exact hquiet.congr rfl (fun m hm => hm) rfl
  | cleanup => simp only [step]; split; exact h.congr rfl (fun m hm => hm) rfl; exact h
  | serverDown => exact h.congr rfl (fun m hm => hm) rfl
  | addServerEndpoint n => exact h.congr rfl (fun m hm => hm) rfl
  | addClientEndpoint n => exact h.congr rfl (fun m hm => hm) rfl

end Scalopus.Unix
