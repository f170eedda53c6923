import Verif.Model.CutSend
import Verif.Props.C03_Wire

/-!
# C113: A message that could not be sent does not affect others
-/

namespace Scalopus.C113

open Protocol Spec.Wire CutSend UnixClient

/-- The messages for which sending succeeded according to the results. -/
def succeeded : List Attempt → List Bool → List Msg
  | a :: l, true :: r => a.msg :: succeeded l r
  | _ :: l, false :: r => succeeded l r
  | _, _ => []

/-- **C113** in full: the other side gets exactly the messages for which sending succeeded, in order, and then nothing. -/
def OnlySucceeded : Prop :=
  ∀ (fd : Nat) (l : List Attempt), fd ≠ 0 → (∀ a ∈ l, Fits a.msg) →
    let ms := succeeded l (attempts fd l).1
    ∃ e, receiveMany { bytes := (attempts fd l).2 } (ms.length + 1) = .ok (ms, e) ∧ e.bytes = []

/-- A message is sent as a whole, or nothing of it. -/
def Whole (fd : Nat) (a : Attempt) : Prop := (send fd a.msg a.accepted).1 = false → (send fd a.msg a.accepted).2 = []

theorem sendLoop_ok (ps : List Bytes) : ∀ os, (sendLoop ps os).1 = true → (sendLoop ps os).2 = ps.flatten := by
  induction ps with
  | nil => intro os _; rfl
  | cons p ps ih =>
    intro os h
    cases os with
    | nil =>
      simp only [sendLoop, List.flatten_cons] at h ⊢
      rw [ih [] h]
    | cons o os =>
      cases o with
      | none =>
        simp only [sendLoop, List.flatten_cons] at h ⊢
        rw [ih os h]
      | some k =>
        simp only [sendLoop] at h ⊢
        split
        · rename_i hk
          rw [if_pos hk] at h
          cases h
        · rename_i hk
          rw [if_neg hk] at h
          simp only [List.flatten_cons]
          rw [ih os h]

theorem send_true {fd : Nat} (hfd : fd ≠ 0) (a : Attempt) (h : (send fd a.msg a.accepted).1 = true) : (send fd a.msg a.accepted).2 = encode a.msg := by
  simp only [send, if_neg hfd] at h ⊢
  exact sendLoop_ok _ _ h

theorem attempts_bytes (fd : Nat) (hfd : fd ≠ 0) (l : List Attempt) (h : ∀ a ∈ l, Whole fd a) : (attempts fd l).2 = (succeeded l (attempts fd l).1).flatMap encode := by
  induction l with
  | nil => rfl
  | cons a l ih =>
    have ih' := ih fun b hb => h b (List.mem_cons_of_mem _ hb)
    simp only [attempts]
    cases hb : (send fd a.msg a.accepted).1 with
    | true =>
      simp only [succeeded, List.flatMap_cons]
      rw [send_true hfd a hb, ih']
    | false =>
      simp only [succeeded]
      rw [h a List.mem_cons_self hb, ih', List.nil_append]

theorem succeeded_mem (l : List Attempt) (r : List Bool) (m : Msg) (h : m ∈ succeeded l r) : ∃ a ∈ l, a.msg = m := by
  induction l generalizing r with
  | nil => cases r <;> cases h
  | cons a l ih =>
    cases r with
    | nil => cases h
    | cons b r =>
      cases b with
      | true =>
        rcases List.mem_cons.1 h with e | e
        · exact ⟨a, List.mem_cons_self, e.symm⟩
        · obtain ⟨x, hx, e⟩ := ih r e; exact ⟨x, List.mem_cons_of_mem _ hx, e⟩
      | false => obtain ⟨x, hx, e⟩ := ih r h; exact ⟨x, List.mem_cons_of_mem _ hx, e⟩

/-- **C113, partial.** This holds if a message that is not sent as a whole is not sent at all. Missing: messages that break off. -/
theorem only_succeeded_partial (fd : Nat) (l : List Attempt) (hfd : fd ≠ 0) (hf : ∀ a ∈ l, Fits a.msg) (hw : ∀ a ∈ l, Whole fd a) :
    let ms := succeeded l (attempts fd l).1
    ∃ e, receiveMany { bytes := (attempts fd l).2 } (ms.length + 1) = .ok (ms, e) ∧ e.bytes = [] := by
  intro ms
  obtain ⟨bytes, h1, e, h2, h3⟩ := C03.messages_round_trip fd hfd ms (by
    intro m hm
    obtain ⟨a, ha, e⟩ := succeeded_mem _ _ _ hm
    exact e ▸ hf a ha) [] (by simp [NoShortRead])
  rw [C03.sentBytes_eq fd hfd] at h1
  refine ⟨e, ?_, h3⟩
  rw [attempts_bytes fd hfd l hw]
  rw [← Option.some.inj h1] at h2
  exact h2

/-- The bytes of a message of which the kernel took all but the data, and `k` bytes of that. -/
theorem cut_bytes (fd : Nat) (hfd : fd ≠ 0) (m : Msg) (hf : Fits m) (k : Nat) (hk : k < m.data.length) :
    send fd m [none, none, none, none, some k] = (false, leBytes 8 m.requestId ++ (leBytes 2 m.endpoint.length ++ (m.endpoint ++ (leBytes 4 m.data.length ++ m.data.take k)))) := by
  obtain ⟨_, hn, _⟩ := hf
  simp [send, hfd, sendParts, sendLoop, hk, Nat.mod_eq_of_lt hn]

/-- **C113 fails (1):** a message breaks off in its data, and the next ones are sent before the other side reads. It reads the message of which sending failed, with data that ends with the first bytes of
    the next ones, and goes on in the middle of these. -/
theorem cut_swallows (fd : Nat) (hfd : fd ≠ 0) (m : Msg) (hf : Fits m) (k : Nat) (hk : k < m.data.length) (l : List Attempt)
    (hl : m.data.length - k ≤ (attempts fd l).2.length) :
    (attempts fd (⟨m, [none, none, none, none, some k]⟩ :: l)).1 = false :: (attempts fd l).1 ∧
    receive { bytes := (attempts fd (⟨m, [none, none, none, none, some k]⟩ :: l)).2 } =
      .ok (true, { m with data := m.data.take k ++ (attempts fd l).2.take (m.data.length - k) }, { bytes := (attempts fd l).2.drop (m.data.length - k) }) := by
  have hcut := cut_bytes fd hfd m hf k hk
  simp only [attempts, hcut]
  refine ⟨trivial, ?_⟩
  generalize hr : (attempts fd l).2 = rest at hl
  -- the stream is the encoding of another message, followed by the rest
  have hd : (m.data.take k ++ rest.take (m.data.length - k)).length = m.data.length := by
    rw [List.length_append, List.length_take, List.length_take]; omega
  have := receive_encode ⟨m.requestId, m.endpoint, m.data.take k ++ rest.take (m.data.length - k)⟩ (rest.drop (m.data.length - k)) []
    ⟨hf.1, hf.2.1, by show (_ : Nat) < _; rw [hd]; exact hf.2.2⟩ (by simp [NoShortRead])
  have hb : encode ⟨m.requestId, m.endpoint, m.data.take k ++ rest.take (m.data.length - k)⟩ ++ rest.drop (m.data.length - k) =
      (leBytes 8 m.requestId ++ (leBytes 2 m.endpoint.length ++ (m.endpoint ++ (leBytes 4 m.data.length ++ m.data.take k)))) ++ rest := by
    simp only [encode, sendParts, hd, Nat.mod_eq_of_lt hf.2.1, List.take_length]
    simp only [List.flatten_cons, List.flatten_nil, List.append_assoc, List.append_nil, List.take_append_drop]
  rw [hb] at this
  rw [this]
  simp

/-- **C113 fails (2):** a message breaks off in its data, and the other side reads before the next is sent. The message of which sending failed is accepted with its data cut off, unless exactly whole
    blocks of 4096 bytes of them arrived. -/
theorem cut_accepted (fd : Nat) (hfd : fd ≠ 0) (m : Msg) (hf : Fits m) (k : Nat) (hk : k < m.data.length) (h0 : k % 4096 ≠ 0) :
    (send fd m [none, none, none, none, some k]).1 = false ∧
    receive { bytes := (send fd m [none, none, none, none, some k]).2 } = .ok (true, { m with data := m.data.take k }, { bytes := [] }) := by
  have hcut := cut_bytes fd hfd m hf k hk
  rw [hcut]
  refine ⟨rfl, ?_⟩
  have henc : encode m = (leBytes 8 m.requestId ++ (leBytes 2 m.endpoint.length ++ (m.endpoint ++ (leBytes 4 m.data.length ++ m.data.take k)))) ++ m.data.drop k := by
    simp [encode, sendParts, Nat.mod_eq_of_lt hf.2.1]
  have hlen : (leBytes 8 m.requestId ++ (leBytes 2 m.endpoint.length ++ (m.endpoint ++ (leBytes 4 m.data.length ++ m.data.take k)))).length = 14 + m.endpoint.length + k := by
    simp [List.length_take]; omega
  have htake : (encode m).take (14 + m.endpoint.length + k) = leBytes 8 m.requestId ++ (leBytes 2 m.endpoint.length ++ (m.endpoint ++ (leBytes 4 m.data.length ++ m.data.take k))) := by
    rw [henc, List.take_left' hlen]
  have := C10.broken_exact m hf (14 + m.endpoint.length + k) (by rw [henc, List.length_append, hlen, List.length_drop]; omega) m.endpoint.length k rfl (by omega)
  rw [htake] at this
  simp only
  rw [this]
  have e1 : ¬ (14 + m.endpoint.length + k = 0) := by omega
  have e2 : ¬ (14 + m.endpoint.length + k < 8) := by omega
  have e3 : ¬ (14 + m.endpoint.length + k = 8) := by omega
  have e4 : ¬ (14 + m.endpoint.length + k < 10) := by omega
  have e5 : ¬ (14 + m.endpoint.length + k < 10 + m.endpoint.length) := by omega
  have e6 : ¬ (14 + m.endpoint.length + k = 10 + m.endpoint.length) := by omega
  have e7 : ¬ (14 + m.endpoint.length + k < 14 + m.endpoint.length) := by omega
  simp [e1, e2, e3, e4, e5, e6, e7, h0]

/-- **C113 fails (3):** the next message can vanish as a whole, though sending it succeeded: it is taken for data of the one before, and those that follow are read correctly. Nobody finds out. -/
theorem next_vanishes (fd : Nat) (hfd : fd ≠ 0) (m next : Msg) (hf : Fits m) (k : Nat) (hk : k < m.data.length) (hn : (encode next).length = m.data.length - k) (ms : List Msg)
    (hms : ∀ x ∈ ms, Fits x) :
    let l : List Attempt := ⟨m, [none, none, none, none, some k]⟩ :: ⟨next, []⟩ :: ms.map fun x => ⟨x, []⟩
    (attempts fd l).1 = false :: true :: ms.map (fun _ => true) ∧
    ∃ e, receiveMany { bytes := (attempts fd l).2 } (ms.length + 2) = .ok ({ m with data := m.data.take k ++ encode next } :: ms, e) := by
  have hall : ∀ ms : List Msg, attempts fd (ms.map fun x => ⟨x, []⟩) = (ms.map fun _ => true, ms.flatMap encode) := by
    intro ms
    induction ms with
    | nil => rfl
    | cons x ms ih => simp [attempts, C03.send_ok fd hfd, ih]
  have hrest : attempts fd (⟨next, []⟩ :: ms.map fun x => ⟨x, []⟩) = (true :: ms.map fun _ => true, encode next ++ ms.flatMap encode) := by
    simp only [attempts, C03.send_ok fd hfd, hall]
  have h := cut_swallows fd hfd m hf k hk (⟨next, []⟩ :: ms.map fun x => ⟨x, []⟩) (by rw [hrest]; simp; omega)
  rw [hrest] at h
  rw [List.take_left' hn, List.drop_left' hn] at h
  intro l
  refine ⟨h.1, ?_⟩
  obtain ⟨bytes, h1, e, h2, h3⟩ := C03.messages_round_trip fd hfd ms hms [] (by simp [NoShortRead])
  rw [C03.sentBytes_eq fd hfd] at h1
  rw [← Option.some.inj h1] at h2
  refine ⟨e, ?_⟩
  show receiveMany _ ((ms.length + 1) + 1) = _
  rw [receiveMany]
  change (match receive { bytes := (attempts fd (⟨m, [none, none, none, none, some k]⟩ :: ⟨next, []⟩ :: ms.map fun x => ⟨x, []⟩)).2 } with
    | .ok (true, m, e) => _ | .ok (false, _, e) => _ | .throws w => _ | .ub => _ | .terminate => _) = _
  rw [h.2]
  simp only [h2]

/-- The same for answers: a request is fulfilled with an answer that nobody gave, and the one whose answer vanished with it is not fulfilled by it. -/
theorem wrong_answer (fd : Nat) (hfd : fd ≠ 0) (m : Msg) (hf : Fits m) (k : Nat) (hk : k < m.data.length) (l : List Attempt) (hl : m.data.length - k ≤ (attempts fd l).2.length)
    (pending : List Key) (hp : (m.endpoint, m.requestId) ∈ pending) :
    onReadable pending { bytes := (attempts fd (⟨m, [none, none, none, none, some k]⟩ :: l)).2 } =
      .ok { lost := false, fulfilled := some ((m.endpoint, m.requestId), m.data.take k ++ (attempts fd l).2.take (m.data.length - k)), unsolicited := none } := by
  unfold onReadable
  rw [(cut_swallows fd hfd m hf k hk l hl).2]
  simp [Res.bind, hp]

theorem not_OnlySucceeded : ¬ OnlySucceeded := by
  intro h
  obtain ⟨e, h1, _⟩ := h 3 [⟨⟨1, [101], [7, 8]⟩, [none, none, none, none, some 1]⟩] (by decide) (by decide)
  have h2 := (cut_accepted 3 (by decide) ⟨1, [101], [7, 8]⟩ (by decide) 1 (by decide) (by decide)).2
  have hb : (attempts 3 [⟨⟨1, [101], [7, 8]⟩, [none, none, none, none, some 1]⟩]).2 = (send 3 ⟨1, [101], [7, 8]⟩ [none, none, none, none, some 1]).2 := by decide
  have hs : succeeded [⟨⟨1, [101], [7, 8]⟩, [none, none, none, none, some 1]⟩] (attempts 3 [⟨⟨1, [101], [7, 8]⟩, [none, none, none, none, some 1]⟩]).1 = [] := by decide
  rw [hb, hs] at h1
  simp only [List.length_nil, Nat.zero_add, receiveMany, h2] at h1
  cases h1

/-- Two messages of which the kernel takes nothing of the first. -/
example : ∀ a ∈ ([⟨⟨1, [101], [7]⟩, [some 0]⟩, ⟨⟨2, [101], [8]⟩, []⟩] : List Attempt), Fits a.msg ∧ Whole 3 a := by
  unfold Whole
  decide +kernel

/-- A request that breaks off 15 bytes before its end, then a request without data for an endpoint of one letter: that one vanishes. -/
example : Fits ⟨1, [101], List.replicate 20 7⟩ ∧ 5 < (List.replicate 20 (7 : UInt8)).length ∧ (encode ⟨2, [101], []⟩).length = 20 - 5 := by decide

end Scalopus.C113
