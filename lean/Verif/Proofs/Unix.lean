import Verif.Model.Unix
import Verif.Spec.Requests

/-!
# Requests over the unix transport: invariants
-/

namespace Scalopus.Unix

open Protocol Spec.Requests

theorem getElem?_updReq (c : Conn) (r i : Nat) (f : Req → Req) :
    (updReq c r f).reqs[i]? = if i = r then (c.reqs[i]?).map f else c.reqs[i]? := by
  unfold updReq
  simp only [List.getElem?_modify]
  by_cases h : r = i
  · subst h; simp
  · have : i ≠ r := fun e => h e.symm
    simp [h, this]

@[simp] theorem updReq_length (c : Conn) (r : Nat) (f : Req → Req) : (updReq c r f).reqs.length = c.reqs.length := by
  simp [updReq]

@[simp] theorem updReq_counter (c : Conn) (r f) : (updReq c r f).counter = c.counter := rfl
@[simp] theorem updReq_ongoing (c : Conn) (r f) : (updReq c r f).ongoing = c.ongoing := rfl
@[simp] theorem updReq_toServer (c : Conn) (r f) : (updReq c r f).toServer = c.toServer := rfl
@[simp] theorem updReq_toClient (c : Conn) (r f) : (updReq c r f).toClient = c.toClient := rfl
@[simp] theorem updReq_received (c : Conn) (r f) : (updReq c r f).received = c.received := rfl
@[simp] theorem updReq_running (c : Conn) (r f) : (updReq c r f).running = c.running := rfl
@[simp] theorem updReq_serverUp (c : Conn) (r f) : (updReq c r f).serverUp = c.serverUp := rfl
@[simp] theorem updReq_calls (c : Conn) (r f) : (updReq c r f).calls = c.calls := rfl

theorem mem_erase {m : List (Key × Nat)} {k : Key} {e : Key × Nat} : e ∈ erase m k ↔ e ∈ m ∧ e.1 ≠ k := by
  simp [erase]

theorem mem_insert {m : List (Key × Nat)} {k : Key} {r : Nat} {e : Key × Nat} :
    e ∈ insert m k r ↔ (e ∈ m ∧ e.1 ≠ k) ∨ e = (k, r) := by
  simp [insert, mem_erase]

theorem find_some {m : List (Key × Nat)} {k : Key} {r : Nat} (h : find m k = some r) : (k, r) ∈ m := by
  unfold find at h
  simp only [Option.map_eq_some_iff] at h
  obtain ⟨e, he, rfl⟩ := h
  have h1 := List.mem_of_find?_eq_some he
  have h2 := List.find?_some he
  simp at h2
  rw [← h2]; exact h1

theorem find_none {m : List (Key × Nat)} {k : Key} (h : find m k = none) : ∀ r, (k, r) ∉ m := by
  unfold find at h
  simp only [Option.map_eq_none_iff, List.find?_eq_none] at h
  intro r hr
  exact h _ hr (by simp)

/-- The messages that are on their way to the client. -/
def incoming (c : Conn) : List Msg := c.received.toList ++ c.toClient

/-- Ids and counter; holds for any number of requests. -/
structure IdInv (c : Conn) : Prop where
  cnt : c.counter = (c.reqs.length + 1) % 2 ^ 64
  ids : ∀ (r : Nat) (q : Req), c.reqs[r]? = some q → q.id = (r + 1) % 2 ^ 64

theorem idInv_updReq {c : Conn} (h : IdInv c) (r : Nat) (f : Req → Req) (hf : ∀ q, (f q).id = q.id) :
    IdInv (updReq c r f) := by
  refine ⟨by simpa using h.cnt, ?_⟩
  intro i q hq
  rw [getElem?_updReq] at hq
  split at hq
  · simp only [Option.map_eq_some_iff] at hq
    obtain ⟨q', h1, rfl⟩ := hq
    rw [hf]; exact h.ids _ _ h1
  · exact h.ids _ _ hq

/-- Only the fields `counter` and `reqs` matter. -/
theorem IdInv.congr {c c' : Conn} (h : IdInv c) (h1 : c'.counter = c.counter) (h2 : c'.reqs = c.reqs) : IdInv c' := by
  refine ⟨by rw [h1, h2]; exact h.cnt, by rw [h2]; exact h.ids⟩

theorem idInv_step {c : Conn} (h : IdInv c) (a : Act) : IdInv (step c a) := by
  cases a with
  | request ep p =>
    refine ⟨?_, ?_⟩
    · simp only [step, List.length_append, List.length_singleton]
      rw [h.cnt]; omega
    · intro r q hq
      simp only [step] at hq
      rw [List.getElem?_append] at hq
      split at hq
      · exact h.ids _ _ hq
      · rename_i hlt
        have hr : r - c.reqs.length = 0 := by
          rcases Nat.eq_zero_or_pos (r - c.reqs.length) with h0 | h0
          · exact h0
          · rw [List.getElem?_eq_none (by simp; omega)] at hq; simp at hq
        rw [hr] at hq
        simp at hq
        have : r = c.reqs.length := by omega
        rw [← hq, this]; exact h.cnt
  | send r ok =>
    simp only [step]
    split
    · split
      · split
        · exact (idInv_updReq h r _ (by simp)).congr rfl rfl
        · exact idInv_updReq h r _ (by simp)
      · exact h
    · exact h
  | register r =>
    simp only [step]
    split
    · split
      · exact (idInv_updReq h r _ (by simp)).congr rfl rfl
      · exact h
    · exact h
  | drop r =>
    simp only [step]
    split
    · split
      · exact idInv_updReq h r _ (by simp)
      · exact h
    · exact h
  | serve res =>
    simp only [step]
    split
    · exact h
    · split <;> exact h.congr rfl rfl
  | broadcast ep d => simp only [step]; split; exact h.congr rfl rfl; exact h
  | receive =>
    simp only [step]
    split
    · split
      · exact h.congr rfl rfl
      · split; exact h; exact h.congr rfl rfl
    · exact h
  | dispatch rep =>
    simp only [step]
    split
    · exact h
    · unfold dispatchMsg
      split
      · exact (idInv_updReq (c := { c with received := none }) (h.congr rfl rfl) _ _ (by intro q; split <;> rfl)).congr rfl rfl
      · split
        · split
          · split <;> exact h.congr rfl rfl
          · exact h.congr rfl rfl
        · exact h.congr rfl rfl
  | cleanup => simp only [step]; split; exact h.congr rfl rfl; exact h
  | serverDown => exact h.congr rfl rfl
  | addServerEndpoint n => exact h.congr rfl rfl
  | addClientEndpoint n => exact h.congr rfl rfl

theorem idInv_init : IdInv init := ⟨by simp [init], by simp [init]⟩

theorem run_append (c : Conn) (as bs : List Act) : run c (as ++ bs) = run (run c as) bs := by
  simp [run]

theorem idInv_run {c : Conn} (h : IdInv c) (as : List Act) : IdInv (run c as) := by
  induction as generalizing c with
  | nil => exact h
  | cons a as ih => exact ih (idInv_step h a)

theorem IdInv.inj {c : Conn} (h : IdInv c) (hn : c.reqs.length < 2 ^ 64) {r r' : Nat} {q q' : Req}
    (hr : c.reqs[r]? = some q) (hr' : c.reqs[r']? = some q') (he : q.id = q'.id) : r = r' := by
  have h1 := h.ids _ _ hr
  have h2 := h.ids _ _ hr'
  have l1 := (List.getElem?_eq_some_iff.1 hr).1
  have l2 := (List.getElem?_eq_some_iff.1 hr').1
  omega

theorem IdInv.pos {c : Conn} (h : IdInv c) (hn : c.reqs.length < 2 ^ 64) {r : Nat} {q : Req}
    (hr : c.reqs[r]? = some q) : q.id ≠ 0 := by
  have h1 := h.ids _ _ hr
  have l1 := (List.getElem?_eq_some_iff.1 hr).1
  omega

theorem length_step (c : Conn) (a : Act) : c.reqs.length ≤ (step c a).reqs.length := by
  cases a <;> simp only [step, dispatchMsg] <;> repeat' split
  all_goals simp [updReq]

theorem length_run (c : Conn) (as : List Act) : c.reqs.length ≤ (run c as).reqs.length := by
  induction as generalizing c with
  | nil => simp [run]
  | cons a as ih => exact Nat.le_trans (length_step c a) (ih _)

/-- The map of outstanding requests against the calls. -/
structure MapInv (c : Conn) : Prop where
  ong : ∀ e ∈ c.ongoing, ∃ q, c.reqs[e.2]? = some q ∧ q.pc = .registered ∧ e.1 = (q.endpoint, q.id) ∧ q.fut = .waiting
  nodup : (c.ongoing.map (·.2)).Nodup
  kept : ∀ (r : Nat) (q : Req), c.reqs[r]? = some q → q.pc = .registered → q.fut = .waiting → q.held = true →
    ((q.endpoint, q.id), r) ∈ c.ongoing
  early : ∀ (r : Nat) (q : Req), c.reqs[r]? = some q → q.pc = .sending ∨ q.pc = .sent → q.fut = .waiting ∧ q.held = true
  valued : ∀ (r : Nat) (q : Req) (d : Bytes), c.reqs[r]? = some q → q.fut = .value d → q.pc = .registered
  noError : ∀ (r : Nat) (q : Req), c.reqs[r]? = some q → q.pc = .registered → q.fut ≠ .error

theorem MapInv.congr {c c' : Conn} (h : MapInv c) (h1 : c'.ongoing = c.ongoing) (h2 : c'.reqs = c.reqs) : MapInv c' := by
  refine ⟨?_, ?_, ?_, ?_, ?_, ?_⟩
  · rw [h1, h2]; exact h.ong
  · rw [h1]; exact h.nodup
  · rw [h1, h2]; exact h.kept
  · rw [h2]; exact h.early
  · rw [h2]; exact h.valued
  · rw [h2]; exact h.noError

theorem mapInv_init : MapInv init := by
  constructor <;> simp [init]

theorem mapInv_step {c : Conn} (hi : IdInv c) (hn : c.reqs.length < 2 ^ 64) (h : MapInv c) (a : Act) :
    MapInv (step c a) := by
  cases a with
  | request ep p =>
    have hlt : ∀ (r : Nat) (q : Req), (step c (.request ep p)).reqs[r]? = some q →
        c.reqs[r]? = some q ∨ q.pc = .sending ∧ q.fut = .waiting ∧ q.held = true := by
      intro r q hq
      simp only [step] at hq
      rw [List.getElem?_append] at hq
      split at hq
      · exact Or.inl hq
      · have := List.mem_of_getElem? hq
        simp at this
        subst this; exact Or.inr ⟨rfl, rfl, rfl⟩
    have hold : ∀ (r : Nat) (q : Req), c.reqs[r]? = some q → (step c (.request ep p)).reqs[r]? = some q := by
      intro r q hq
      simp only [step]
      rw [List.getElem?_append_left (List.getElem?_eq_some_iff.1 hq).1]; exact hq
    have ho : (step c (.request ep p)).ongoing = c.ongoing := rfl
    obtain ⟨h1, h2, h3, h4, h5, h6⟩ := h
    constructor <;> grind
  | send r ok =>
    obtain ⟨h1, h2, h3, h4, h5, h6⟩ := h
    simp only [step]
    repeat' split
    all_goals constructor <;> (try simp only [updReq_ongoing]) <;> (try simp only [getElem?_updReq]) <;> grind
  | register r =>
    simp only [step]
    repeat' split
    · rename_i q hq hpc
      have hfresh : ∀ e ∈ c.ongoing, e.1 ≠ (q.endpoint, q.id) := by
        intro e he hk
        obtain ⟨q', hq', hp', hk', _⟩ := h.ong e he
        rw [hk] at hk'
        simp at hk'
        have := hi.inj hn hq hq' hk'.2
        subst this
        rw [hq] at hq'
        simp at hq'
        rw [hq'] at hpc
        rw [hpc] at hp'; simp at hp'
      have hidx : ∀ e ∈ c.ongoing, e.2 ≠ r := by
        intro e he hk
        obtain ⟨q', hq', hp', hk', _⟩ := h.ong e he
        rw [hk, hq] at hq'
        simp at hq'
        rw [hq'] at hpc
        rw [hpc] at hp'; simp at hp'
      have her : erase c.ongoing (q.endpoint, q.id) = c.ongoing := by
        unfold erase
        rw [List.filter_eq_self]
        intro e he
        simpa using hfresh e he
      obtain ⟨h1, h2, h3, h4, h5, h6⟩ := h
      constructor
      · simp only [mem_insert, getElem?_updReq]; grind
      · simp only [insert, her, List.map_append, List.map_cons, List.map_nil]
        rw [List.nodup_append]
        refine ⟨h2, by simp, ?_⟩
        intro a ha b hb
        simp only [List.mem_map] at ha
        obtain ⟨e, he, rfl⟩ := ha
        simp at hb
        subst hb
        exact hidx e he
      · simp only [mem_insert, getElem?_updReq]; grind
      · simp only [getElem?_updReq]; grind
      · simp only [getElem?_updReq]; grind
      · simp only [getElem?_updReq]; grind
    · exact h
    · exact h
  | drop r =>
    obtain ⟨h1, h2, h3, h4, h5, h6⟩ := h
    simp only [step]
    repeat' split
    all_goals constructor <;> (try simp only [updReq_ongoing]) <;> (try simp only [getElem?_updReq]) <;> grind
  | serve res =>
    simp only [step]
    repeat' split
    all_goals exact h.congr rfl rfl
  | broadcast ep d => simp only [step]; split <;> exact h.congr rfl rfl
  | receive =>
    simp only [step]
    repeat' split
    all_goals exact h.congr rfl rfl
  | dispatch rep =>
    simp only [step]
    split
    · exact h
    · rename_i m hm
      unfold dispatchMsg
      split
      · rename_i r hr
        have hmem := find_some hr
        have huniq : ∀ e ∈ c.ongoing, e.2 = r → e.1 = (m.endpoint, m.requestId) := by
          intro e he hk
          obtain ⟨q, hq, _, hk1, _⟩ := h.ong e he
          obtain ⟨q', hq', _, hk2, _⟩ := h.ong _ hmem
          simp only at hq' hk2
          rw [hk] at hq
          rw [hq] at hq'
          simp at hq'
          subst hq'
          rw [hk1, hk2]
        have hkey : ∀ e ∈ c.ongoing, e.1 = (m.endpoint, m.requestId) → e.2 = r := by
          intro e he hk
          obtain ⟨q, hq, _, hk1, _⟩ := h.ong e he
          obtain ⟨q', hq', _, hk2, _⟩ := h.ong _ hmem
          simp only at hq' hk2
          exact hi.inj hn hq hq' (by rw [hk, hk2] at hk1; simp at hk1; exact hk1.2.symm)
        obtain ⟨h1, h2, h3, h4, h5, h6⟩ := h
        constructor
        · simp only [mem_erase, updReq_ongoing, getElem?_updReq]; grind
        · simp only [erase, updReq_ongoing]
          exact List.Sublist.nodup (List.Sublist.map _ List.filter_sublist) h2
        · simp only [mem_erase, updReq_ongoing, getElem?_updReq]; grind
        · simp only [getElem?_updReq]; grind
        · simp only [getElem?_updReq]; grind
        · simp only [getElem?_updReq]; grind
      · repeat' split
        all_goals exact h.congr rfl rfl
  | cleanup =>
    simp only [step]
    split
    · obtain ⟨h1, h2, h3, h4, h5, h6⟩ := h
      constructor
      · intro e he
        exact h1 e (List.mem_filter.1 he).1
      · exact List.Sublist.nodup (List.Sublist.map _ List.filter_sublist) h2
      · intro r q hq hp hf hh
        simp only [List.mem_filter]
        exact ⟨h3 r q hq hp hf hh, by simp only at hq; simp [hq, hh]⟩
      · exact h4
      · exact h5
      · exact h6
    · exact h
  | serverDown => exact h.congr rfl rfl
  | addServerEndpoint n => exact h.congr rfl rfl
  | addClientEndpoint n => exact h.congr rfl rfl

/-- Messages and answers. -/
structure MsgInv (c : Conn) : Prop where
  known : ∀ m ∈ c.toServer ++ incoming c, m.requestId ≠ 0 →
    ∃ (r : Nat) (q : Req), c.reqs[r]? = some q ∧ q.id = m.requestId ∧ (q.pc = .sent ∨ q.pc = .registered)
  srv : ∀ (r : Nat) (q : Req), c.reqs[r]? = some q → (q.pc = .sent ∨ ((q.endpoint, q.id), r) ∈ c.ongoing) →
    ∀ m ∈ c.toServer, m.requestId = q.id → m.endpoint = q.endpoint ∧ m.data = q.payload
  cli : ∀ (r : Nat) (q : Req), c.reqs[r]? = some q → (q.pc = .sent ∨ ((q.endpoint, q.id), r) ∈ c.ongoing) →
    ∀ m ∈ incoming c, m.requestId = q.id → m.endpoint = q.endpoint ∧ AnsweredBy c.calls q m.data
  val : ∀ (r : Nat) (q : Req) (d : Bytes), c.reqs[r]? = some q → q.fut = .value d → AnsweredBy c.calls q d

theorem MsgInv.congr {c c' : Conn} (h : MsgInv c) (h1 : c'.ongoing = c.ongoing) (h2 : c'.reqs = c.reqs)
    (h3 : ∀ m ∈ c'.toServer, m ∈ c.toServer) (h4 : ∀ m ∈ incoming c', m ∈ incoming c ∨ m.requestId = 0)
    (h5 : c'.calls = c.calls) (hi : IdInv c) (hn : c.reqs.length < 2 ^ 64) : MsgInv c' := by
  have hpos : ∀ (r : Nat) (q : Req), c.reqs[r]? = some q → q.id ≠ 0 := fun r q hq => hi.pos hn hq
  obtain ⟨g1, g2, g3, g4⟩ := h
  constructor
  · rw [h2]; intro m hm; grind
  · rw [h1, h2]; grind
  · rw [h1, h2, h5]; grind
  · rw [h2, h5]; exact g4

theorem msgInv_init : MsgInv init := by
  constructor <;> simp [init, incoming]

theorem msgInv_step {c : Conn} (hi : IdInv c) (hn : c.reqs.length < 2 ^ 64) (hm : MapInv c) (h : MsgInv c) (a : Act)
    (hnr : ∀ d m, a = .dispatch (some d) → c.received = some m → ∀ q ∈ c.reqs, q.pc = .sent → q.id ≠ m.requestId)
    (hn' : (step c a).reqs.length < 2 ^ 64) :
    MsgInv (step c a) := by
  have hpos : ∀ (r : Nat) (q : Req), c.reqs[r]? = some q → q.id ≠ 0 := fun r q hq => hi.pos hn hq
  have hinj : ∀ (r r' : Nat) (q q' : Req), c.reqs[r]? = some q → c.reqs[r']? = some q' → q.id = q'.id → r = r' :=
    fun r r' q q' h1 h2 h3 => hi.inj hn h1 h2 h3
  cases a with
  | request ep p =>
    have hi' := idInv_step hi (.request ep p)
    have hnew : ∀ (r : Nat) (q : Req), (step c (.request ep p)).reqs[r]? = some q →
        c.reqs[r]? = some q ∨ q.pc = .sending ∧ q.fut = .waiting := by
      intro r q hq
      simp only [step] at hq
      rw [List.getElem?_append] at hq
      split at hq
      · exact Or.inl hq
      · have := List.mem_of_getElem? hq
        simp at this
        subst this; exact Or.inr ⟨rfl, rfl⟩
    have hold : ∀ (r : Nat) (q : Req), c.reqs[r]? = some q → (step c (.request ep p)).reqs[r]? = some q := by
      intro r q hq
      simp only [step]
      rw [List.getElem?_append_left (List.getElem?_eq_some_iff.1 hq).1]; exact hq
    have hong : ∀ e ∈ c.ongoing, ∃ q, c.reqs[e.2]? = some q := fun e he => by
      obtain ⟨q, hq, _⟩ := hm.ong e he; exact ⟨q, hq⟩
    have hnew' : ∀ (r : Nat) (q : Req), (step c (.request ep p)).reqs[r]? = some q →
        (q.pc = .sent ∨ ((q.endpoint, q.id), r) ∈ c.ongoing) → c.reqs[r]? = some q := by
      intro r q hq ho
      rcases ho with ho | ho
      · rcases hnew r q hq with h | h
        · exact h
        · rw [h.1] at ho; simp at ho
      · obtain ⟨q', hq'⟩ := hong _ ho
        have := hold _ _ hq'
        simp only at this hq'
        rw [hq] at this
        simp at this; subst this; exact hq'
    have ho : (step c (.request ep p)).ongoing = c.ongoing := rfl
    have e1 : (step c (.request ep p)).toServer = c.toServer := rfl
    have e2 : incoming (step c (.request ep p)) = incoming c := rfl
    have e3 : (step c (.request ep p)).calls = c.calls := rfl
    obtain ⟨g1, g2, g3, g4⟩ := h
    constructor
    · rw [e1, e2]; grind
    · rw [e1, ho]; grind
    · rw [e2, e3, ho]; grind
    · rw [e3]; grind
  | send r ok =>
    obtain ⟨g1, g2, g3, g4⟩ := h
    have hong := hm.ong
    have hearly := hm.early
    simp only [step]
    repeat' split
    · constructor
      · simp only [getElem?_updReq, incoming, updReq_received, updReq_toClient] at g1 ⊢; grind
      · simp only [getElem?_updReq, updReq_ongoing] at g2 ⊢
        intro r' q' hq' ho m hm' hid
        simp only [List.mem_append, List.mem_singleton] at hm'
        grind
      · simp only [getElem?_updReq, incoming, updReq_received, updReq_toClient, updReq_ongoing, updReq_calls] at g1 g3 ⊢
        unfold AnsweredBy at *; grind
      · simp only [getElem?_updReq, updReq_calls]; unfold AnsweredBy at *; grind
    · constructor
      · simp only [getElem?_updReq, incoming, updReq_received, updReq_toClient, updReq_toServer] at g1 ⊢; grind
      · simp only [getElem?_updReq, updReq_ongoing, updReq_toServer] at g2 ⊢; grind
      · simp only [getElem?_updReq, incoming, updReq_received, updReq_toClient, updReq_ongoing, updReq_calls] at g1 g3 ⊢
        unfold AnsweredBy at *; grind
      · simp only [getElem?_updReq, updReq_calls]; unfold AnsweredBy at *; grind
    · exact ⟨g1, g2, g3, g4⟩
    · exact ⟨g1, g2, g3, g4⟩
  | register r =>
    obtain ⟨g1, g2, g3, g4⟩ := h
    have hong := hm.ong
    have hearly := hm.early
    simp only [step]
    repeat' split
    · constructor
      · simp only [getElem?_updReq, incoming, updReq_received, updReq_toClient, updReq_toServer] at g1 ⊢; grind
      · simp only [getElem?_updReq, mem_insert, updReq_toServer] at g2 ⊢
        grind
      · simp only [getElem?_updReq, incoming, updReq_received, updReq_toClient, mem_insert, updReq_calls] at g1 g3 ⊢
        unfold AnsweredBy at *; grind
      · simp only [getElem?_updReq, updReq_calls]; unfold AnsweredBy at *; grind
    · exact ⟨g1, g2, g3, g4⟩
    · exact ⟨g1, g2, g3, g4⟩
  | drop r =>
    obtain ⟨g1, g2, g3, g4⟩ := h
    simp only [step]
    repeat' split
    · constructor
      · simp only [getElem?_updReq, incoming, updReq_received, updReq_toClient, updReq_toServer] at g1 ⊢; grind
      · simp only [getElem?_updReq, updReq_toServer, updReq_ongoing] at g2 ⊢
        grind
      · simp only [getElem?_updReq, incoming, updReq_received, updReq_toClient, updReq_ongoing, updReq_calls] at g1 g3 ⊢
        unfold AnsweredBy at *; grind
      · simp only [getElem?_updReq, updReq_calls]; unfold AnsweredBy at *; grind
    · exact ⟨g1, g2, g3, g4⟩
    · exact ⟨g1, g2, g3, g4⟩
  | serve res =>
    simp only [step]
    split
    · exact h
    · rename_i m ms hms
      split
      · obtain ⟨g1, g2, g3, g4⟩ := h
        rw [hms] at g1 g2
        cases res with
        | none =>
          constructor
          · simp only [incoming] at g1 ⊢; grind
          · simp only; grind
          · simp only [incoming, AnsweredBy] at g3 ⊢; grind
          · simp only [AnsweredBy] at g4 ⊢; grind
        | some d =>
          constructor
          · simp only [incoming] at g1 ⊢
            intro m' hm'
            simp only [List.mem_append, List.mem_singleton] at hm' g1
            grind
          · simp only; grind
          · simp only [incoming, AnsweredBy] at g1 g3 ⊢
            intro r q hq ho m' hm' hid
            simp only [List.mem_append, List.mem_singleton] at hm' g3
            grind
          · simp only [AnsweredBy] at g4 ⊢; grind
      · exact h.congr rfl rfl (by rw [hms]; intro m hm; exact List.mem_cons_of_mem _ hm) (fun m hm => Or.inl hm) rfl hi hn
  | broadcast ep d =>
    simp only [step]
    split
    · refine h.congr rfl rfl (fun m hm => hm) ?_ rfl hi hn
      intro m hm
      simp only [incoming, List.mem_append, List.mem_singleton] at hm ⊢
      grind
    · exact h
  | receive =>
    simp only [step]
    repeat' split
    · rename_i m ms hms
      refine h.congr rfl rfl (fun m hm => hm) ?_ rfl hi hn
      intro m' hm'
      simp only [incoming, hms] at hm' ⊢
      left; simp at hm' ⊢; exact Or.inr hm'
    · exact h
    · refine h.congr rfl rfl (fun m hm => hm) ?_ rfl hi hn
      intro m' hm'
      simp only [incoming] at hm' ⊢
      simp at hm'
      grind
    · exact h
  | dispatch rep =>
    simp only [step]
    split
    · exact h
    · rename_i m hrec
      have hin : m ∈ incoming c := by simp [incoming, hrec]
      have hsub : ∀ m' ∈ c.toClient, m' ∈ incoming c := by intro m' hm'; simp [incoming, hm']
      unfold dispatchMsg
      split
      · rename_i r hr
        have hmem := find_some hr
        obtain ⟨q, hq, hpc, hk, hw⟩ := hm.ong _ hmem
        simp only at hq hk
        have hk' : (m.endpoint, m.requestId) = (q.endpoint, q.id) := hk
        have hans := h.cli r q hq (Or.inr (by rw [← hk']; exact hmem)) m hin (by simp at hk'; exact hk'.2)
        obtain ⟨g1, g2, g3, g4⟩ := h
        constructor
        · simp only [getElem?_updReq, incoming, updReq_received, updReq_toClient, updReq_toServer] at g1 ⊢; grind
        · simp only [getElem?_updReq, mem_erase, updReq_toServer, updReq_ongoing] at g2 ⊢; grind
        · simp only [getElem?_updReq, incoming, updReq_received, updReq_toClient, updReq_ongoing, updReq_calls,
            mem_erase] at g1 g3 ⊢
          unfold AnsweredBy at *; grind
        · simp only [getElem?_updReq, updReq_calls]; unfold AnsweredBy at *; grind
      · rename_i hnone
        have hquiet : MsgInv { c with received := none } :=
          h.congr rfl rfl (fun m hm => hm) (by intro m' hm'; left; simp [incoming] at hm' ⊢; exact Or.inr hm') rfl hi hn
        repeat' split
        · rename_i d _
          have hns := hnr d m rfl hrec
          have hfn := find_none hnone
          have hcli := h.cli
          obtain ⟨g1, g2, g3, g4⟩ := hquiet
          constructor
          · intro m' hm'
            simp only [List.mem_append, List.mem_singleton] at hm'
            have hk := h.known m (by simp [hin])
            simp only [List.mem_append] at g1
            rcases hm' with (hm' | hm') | hm'
            · exact g1 m' (Or.inl hm')
            · subst hm'; exact hk
            · exact g1 m' (Or.inr hm')
          · intro r q hq ho m' hm' hid
            simp only [List.mem_append, List.mem_singleton] at hm'
            rcases hm' with hm' | hm'
            · exact g2 r q hq ho m' hm' hid
            · exfalso
              subst hm'
              simp only at hid hq ho
              rcases ho with ho | ho
              · exact hns q (List.mem_of_getElem? hq) ho hid.symm
              · have := (hcli r q hq (Or.inr ho) m hin hid).1
                apply hfn r
                simp only
                rw [this, hid]; exact ho
          · exact g3
          · exact g4
        all_goals exact hquiet
  | cleanup =>
    simp only [step]
    split
    · obtain ⟨g1, g2, g3, g4⟩ := h
      constructor
      · exact g1
      · intro r q hq ho
        exact g2 r q hq (ho.imp_right (fun h => (List.mem_filter.1 h).1))
      · intro r q hq ho
        exact g3 r q hq (ho.imp_right (fun h => (List.mem_filter.1 h).1))
      · exact g4
    · exact h
  | serverDown => exact h.congr rfl rfl (by simp [step]) (fun m hm => Or.inl hm) rfl hi hn
  | addServerEndpoint n => exact h.congr rfl rfl (fun m hm => hm) (fun m hm => Or.inl hm) rfl hi hn
  | addClientEndpoint n => exact h.congr rfl rfl (fun m hm => hm) (fun m hm => Or.inl hm) rfl hi hn

theorem msgInv_run (as : List Act) (hn : (run init as).reqs.length < 2 ^ 64)
    (hq : NoReplyWhileUnregistered init as) : MsgInv (run init as) := by
  suffices H : ∀ (as : List Act) (c : Conn), IdInv c → MapInv c → MsgInv c → (run c as).reqs.length < 2 ^ 64 →
      NoReplyWhileUnregistered c as → MsgInv (run c as) from
    H as init idInv_init mapInv_init msgInv_init hn hq
  intro as
  induction as with
  | nil => intro c _ _ h _ _; exact h
  | cons a as ih =>
    intro c hi hm h hn hq
    have hl : c.reqs.length < 2 ^ 64 := Nat.lt_of_le_of_lt (length_run c (a :: as)) hn
    have hl' : (step c a).reqs.length < 2 ^ 64 := Nat.lt_of_le_of_lt (length_run (step c a) as) hn
    exact ih (step c a) (idInv_step hi a) (mapInv_step hi hl hm a) (msgInv_step hi hl hm h a hq.1 hl') hn hq.2

theorem mapInv_run (as : List Act) (hn : (run init as).reqs.length < 2 ^ 64) : MapInv (run init as) := by
  suffices H : ∀ (as : List Act) (c : Conn), IdInv c → MapInv c → (run c as).reqs.length < 2 ^ 64 → MapInv (run c as) from
    H as init idInv_init mapInv_init hn
  intro as
  induction as with
  | nil => intro c _ h _; exact h
  | cons a as ih =>
    intro c hi h hn
    have hl : c.reqs.length < 2 ^ 64 := Nat.lt_of_le_of_lt (length_run c (a :: as)) hn
    exact ih (step c a) (idInv_step hi a) (mapInv_step hi hl h a) hn

end Scalopus.Unix
