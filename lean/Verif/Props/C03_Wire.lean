import Verif.Proofs.Protocol
import Verif.Model.UnixClient

/-!
# C03, C04, C05, C10: the wire protocol
-/

namespace Scalopus.C03

open Protocol Spec.Wire

/-- The bytes on the stream after sending `ms` one after the other, if every send succeeds. -/
def sentBytes (fd : Nat) : List Msg → Option Bytes
  | [] => some []
  | m :: ms =>
    match send fd m [] with
    | (true, bs) => (sentBytes fd ms).map (bs ++ ·)
    | (false, _) => none

theorem send_ok (fd : Nat) (hfd : fd ≠ 0) (m : Msg) : send fd m [] = (true, encode m) := by
  simp [send, hfd, sendParts, sendLoop, encode]

theorem sentBytes_eq (fd : Nat) (hfd : fd ≠ 0) (ms : List Msg) : sentBytes fd ms = some (ms.flatMap encode) := by
  induction ms with
  | nil => rfl
  | cons m ms ih => simp [sentBytes, send_ok fd hfd, ih]

theorem receiveMany_gen (ms : List Msg) :
    ∀ (avail : List (Option Nat)) (k : Nat), (∀ m ∈ ms, Fits m) →
      NoShortRead avail (ms.flatMap fun m => messageReads m.endpoint.length m.data.length) →
      receiveMany { bytes := ms.flatMap encode, avail := avail } (ms.length + k) =
        (receiveMany (Env.mk [] (avail.drop
            (ms.flatMap fun m => messageReads m.endpoint.length m.data.length).length)) k).bind
          (fun r => .ok (ms ++ r.1, r.2)) := by
  induction ms with
  | nil =>
    intro avail k _ _
    simp only [List.length_nil, Nat.zero_add, List.flatMap_nil, List.drop_zero]
    cases receiveMany { bytes := [], avail := avail } k <;> rfl
  | cons m ms ih =>
    intro avail k hf hr
    simp only [List.flatMap_cons, noShortRead_append] at hr ⊢
    rw [show (m :: ms).length + k = (ms.length + k) + 1 by simp; omega]
    simp only [receiveMany]
    rw [receive_encode m _ avail (hf m (by simp)) hr.1]
    simp only
    rw [ih _ k (fun m hm => hf m (by simp [hm])) hr.2]
    rw [List.drop_drop, List.length_append]
    cases receiveMany { bytes := [], avail := _ } k <;> rfl

/-- **C03.** Whatever messages (with fields that fit their wire format) are sent over a connection, reading the
    connection gives back exactly these messages in order, and then nothing more, as long as no `read` call returns less
    than it asked for. -/
theorem messages_round_trip (fd : Nat) (hfd : fd ≠ 0) (ms : List Msg) (hfit : ∀ m ∈ ms, Fits m)
    (avail : List (Option Nat))
    (hr : NoShortRead avail ((ms.flatMap fun m => messageReads m.endpoint.length m.data.length) ++ [8])) :
    ∃ bytes, sentBytes fd ms = some bytes ∧
      ∃ e, receiveMany { bytes := bytes, avail := avail } (ms.length + 1) = .ok (ms, e) ∧ e.bytes = [] := by
  refine ⟨_, sentBytes_eq fd hfd ms, ?_⟩
  rw [noShortRead_append] at hr
  rw [receiveMany_gen ms avail 1 hfit hr.1]
  generalize avail.drop _ = as at hr
  have hstart : as = [] ∨ ∃ n as', as = some n :: as' := by
    cases as with
    | nil => exact Or.inl rfl
    | cons a as' =>
      cases a with
      | none => simp [NoShortRead] at hr
      | some n => exact Or.inr ⟨n, as', rfl⟩
  simp only [receiveMany, receive_empty as hstart, Res.bind]
  exact ⟨_, by rw [List.append_nil], rfl⟩

/-- The hypotheses are met, for example, by two messages read in full. -/
example : NoShortRead [some 8, some 2, some 5, some 4, some 3]
    (([⟨1, [104, 101, 108, 108, 111], [1, 2, 3]⟩, ⟨2, [], []⟩] : List Msg).flatMap
      (fun m => messageReads m.endpoint.length m.data.length) ++ [8]) := by
  have b : ∀ n, n ≤ 8 → blocks n = [n] := fun n hn => blocks_le (by unfold chunkSize; omega)
  simp [messageReads, b, NoShortRead]

end Scalopus.C03

namespace Scalopus.C04

open Protocol Spec.Wire

/-- The full property C04 (false, see `framing_depends_on_splits`): whatever amounts the kernel hands out, an accepted
    message is the message that was sent. -/
def FramingIndependentOfSplits : Prop :=
  ∀ (m : Msg) (avail : List (Option Nat)) (m' : Msg) (e : Env), Fits m →
    receive { bytes := encode m, avail := avail } = .ok (true, m', e) → m' = m

/-- **C04, what goes wrong in general.** For every message (with a name of at most 4096 bytes) and every `k` below the
    data length, if the read of the data gets `k` bytes first, the message is accepted with its data cut to `k` bytes and
    the remaining data is left on the stream, to be taken for the next message. -/
theorem short_read_truncates (m : Msg) (hf : Fits m) (hn : m.endpoint.length ≤ 4096) (k : Nat) (hk : 0 < k)
    (hkd : k < m.data.length) (hkc : k < 4096) (rest : Bytes) :
    receive { bytes := encode m ++ rest, avail := [some 8, some 2, some m.endpoint.length, some 4, some k] } =
      .ok (true, { m with data := m.data.take k }, { bytes := m.data.drop k ++ rest }) := by
  obtain ⟨hi, hn', hd⟩ := hf
  have h1 : encode m ++ rest = leBytes 8 m.requestId ++ (leBytes 2 m.endpoint.length ++
      (m.endpoint ++ (leBytes 4 m.data.length ++ (m.data ++ rest)))) := by
    simp [encode, sendParts, Nat.mod_eq_of_lt hn']
  have e1 : (256 : Nat) ^ 8 = 2 ^ 64 := by decide
  have e2 : (256 : Nat) ^ 2 = 2 ^ 16 := by decide
  have e3 : (256 : Nat) ^ 4 = 2 ^ 32 := by decide
  have hb : ∀ j, j ≤ 4096 → ∀ as, NoShortRead (some j :: as) (blocks j) := by
    intro j hj as
    rw [blocks_le hj]
    simp only [NoShortRead]
    exact ⟨by omega, by cases as <;> trivial⟩
  rw [h1]
  unfold receive
  rw [readData_full _ _ _ 8 (by simp) (hb 8 (by omega) _)]
  simp only [length_leBytes, leVal_leBytes, Nat.lt_irrefl, if_false]
  rw [blocks_le (show 8 ≤ chunkSize by unfold chunkSize; omega)]
  simp only [List.length_singleton, List.drop_one, List.tail_cons]
  rw [readData_full _ _ _ 2 (by simp) (hb 2 (by omega) _)]
  simp only [length_leBytes, leVal_leBytes, Nat.lt_irrefl, if_false]
  rw [blocks_le (show 2 ≤ chunkSize by unfold chunkSize; omega), e2, Nat.mod_eq_of_lt hn']
  simp only [List.length_singleton, List.drop_one, List.tail_cons]
  rw [readData_full _ _ _ m.endpoint.length rfl (hb _ hn _)]
  simp only [Nat.lt_irrefl, if_false]
  rw [blocks_le (show m.endpoint.length ≤ chunkSize from hn)]
  simp only [List.length_singleton, List.drop_one, List.tail_cons]
  rw [readData_full _ _ _ 4 (by simp) (hb 4 (by omega) _)]
  simp only [length_leBytes, leVal_leBytes, Nat.lt_irrefl, if_false]
  rw [blocks_le (show 4 ≤ chunkSize by unfold chunkSize; omega), e3, Nat.mod_eq_of_lt hd]
  simp only [List.length_singleton, List.drop_one, List.tail_cons]
  have hr : Protocol.read { bytes := m.data ++ rest, avail := [some k] } (min m.data.length chunkSize) =
      (some (m.data.take k), { bytes := m.data.drop k ++ rest }) := by
    have : min (max k 1) (min m.data.length chunkSize) = k := by unfold chunkSize; omega
    simp only [Protocol.read, this]
    rw [List.take_append_of_le_length (by omega), List.drop_append_of_le_length (by omega)]
  have hl : (m.data.take k).length = k := by rw [List.length_take]; omega
  have hrd : readData { bytes := m.data ++ rest, avail := [some k] } m.data.length =
      (true, m.data.take k, { bytes := m.data.drop k ++ rest }) := by
    unfold readData
    rw [readLoop_short _ _ _ _ _ hr (by omega) (by unfold chunkSize; omega) (by omega)]
    rfl
  rw [hrd]
  simp [Nat.mod_eq_of_lt hi]

/-- **C04 is violated**: a two byte payload that arrives one byte at a time is accepted as a one byte payload. -/
theorem framing_depends_on_splits : ¬ FramingIndependentOfSplits := by
  intro h
  have hf : Fits ⟨1, [101], [1, 2]⟩ := by decide
  have := short_read_truncates ⟨1, [101], [1, 2]⟩ hf (by decide) 1 (by decide) (by decide) (by decide) []
  rw [List.append_nil] at this
  have := h _ _ _ _ hf this
  simp at this

/-- **C04, partial.** Whatever the individual amounts are, the message is received as sent if every `read` call gets all
    the bytes it asks for. Missing from the full property: splits at other places. -/
theorem framing_independent_of_splits_partial (m : Msg) (avail : List (Option Nat)) (rest : Bytes) (hf : Fits m)
    (hr : NoShortRead avail (messageReads m.endpoint.length m.data.length)) :
    ∃ e, receive { bytes := encode m ++ rest, avail := avail } = .ok (true, m, e) ∧ e.bytes = rest :=
  ⟨_, receive_encode m rest avail hf hr, rfl⟩

example : NoShortRead [some 10, some 6000, some 5000, some 4, some 4096, some 904]
    (messageReads 4000 5000) := by
  have b : ∀ n, n ≤ 4000 → blocks n = [n] := fun n hn => blocks_le (by unfold chunkSize; omega)
  simp [messageReads, b, blocks_gt, chunkSize, NoShortRead]

end Scalopus.C04

namespace Scalopus.C05

open Protocol Spec.Wire

/-- The full property C05 (false for payloads, see `oversized_payload_violation`): a message of any size does not change how
    the next message is read. -/
def OversizedHarmless : Prop :=
  ∀ (m next : Msg), Fits next →
    ∃ m' e, receiveMany { bytes := encode m ++ encode next } 2 = .ok ([m', next], e)

/-- **C05, partial.** A name of any length does not disturb the framing: the name is cut to its length modulo 2^16 and the
    next message is read as sent. Missing from the full property: payloads of 2^32 bytes and more. -/
theorem oversized_name_keeps_framing_partial (m next : Msg) (hd : m.data.length < 2 ^ 32) (hf : Fits next) :
    ∃ e, receiveMany { bytes := encode m ++ encode next } 2 =
      .ok ([{ requestId := m.requestId % 2 ^ 64
              endpoint := m.endpoint.take (m.endpoint.length % 2 ^ 16)
              data := m.data }, next], e) := by
  have h1 := receive_encode_gen m (encode next) [] (by simp [NoShortRead])
  rw [Nat.mod_eq_of_lt hd, List.take_length, List.drop_length, List.nil_append, List.drop_nil] at h1
  have h2 := receive_encode next [] [] hf (by simp [NoShortRead])
  rw [List.append_nil] at h2
  simp only [receiveMany, h1, h2]
  exact ⟨_, rfl⟩

/-- **C05.** After a payload of `2^32` bytes or more, exactly the excess bytes stay on the stream in front of the next
    message. -/
theorem oversized_payload_leftover (m : Msg) (rest : Bytes) :
    ∃ m', receive { bytes := encode m ++ rest } =
      .ok (true, m', { bytes := m.data.drop (m.data.length % 2 ^ 32) ++ rest }) := by
  have h1 := receive_encode_gen m rest [] (by simp [NoShortRead])
  rw [List.drop_nil] at h1
  exact ⟨_, h1⟩

theorem encode_zero : encode {} = List.replicate 14 0 := by decide

/-- **C05, what goes wrong in general.** After a payload of `n` zero bytes, with `n` a positive multiple of `2^32`, an empty
    message that nobody sent is received. -/
theorem phantom_message (n : Nat) (hn : n % 2 ^ 32 = 0) (hp : 14 ≤ n) (id : Nat) (name rest : Bytes) :
    ∃ m' e, receiveMany { bytes := encode ⟨id, name, List.replicate n 0⟩ ++ rest } 2 = .ok ([m', {}], e) := by
  have h1 := receive_encode_gen ⟨id, name, List.replicate n 0⟩ rest [] trivial
  simp only [List.length_replicate] at h1
  rw [hn, List.take_zero, List.drop_zero, List.drop_nil] at h1
  have hsplit : List.replicate n (0 : UInt8) = encode {} ++ List.replicate (n - 14) 0 := by
    rw [encode_zero, List.replicate_append_replicate]
    congr 1; omega
  rw [hsplit, List.append_assoc] at h1
  have h2 := receive_encode {} (List.replicate (n - 14) 0 ++ rest) [] (by decide) trivial
  rw [hsplit]
  simp only [receiveMany, h1, h2]
  exact ⟨_, _, rfl⟩

/-- **C05 is violated**: after a payload of `2^32` zero bytes, an empty message that nobody sent is received instead of the
    next message. -/
theorem oversized_payload_violation : ¬ OversizedHarmless := by
  intro h
  obtain ⟨n, hn, hp⟩ : ∃ n : Nat, n % 2 ^ 32 = 0 ∧ 14 ≤ n := ⟨2 ^ 32, by decide, by decide⟩
  obtain ⟨m', e, he⟩ := h ⟨1, [101], List.replicate n 0⟩ ⟨2, [101], [7]⟩ (by decide)
  obtain ⟨m'', e', he'⟩ := phantom_message n hn hp 1 [101] (encode ⟨2, [101], [7]⟩)
  rw [he] at he'
  simp at he'

end Scalopus.C05

namespace Scalopus.C10

open Protocol Spec.Wire UnixClient

/-- The full property C10 (false): when the stream breaks after any number of bytes of the answer, the request is either
    not fulfilled or fulfilled with the complete answer. -/
def NoCorruptedAnswer : Prop :=
  ∀ (answer : Msg) (cut : Nat), Fits answer → answer.requestId ≠ 0 →
    ∀ o, onReadable [(answer.endpoint, answer.requestId)] { bytes := (encode answer).take cut } = .ok o →
      ∀ k v, o.fulfilled = some (k, v) → v = answer.data

/-- Length of everything in front of the payload. -/
def headerLength (m : Msg) : Nat := 8 + 2 + m.endpoint.length + 4

/-- **C10, what goes wrong in general.** If the connection breaks after the header of the answer and before its payload,
    the waiting request is fulfilled with an empty answer. -/
theorem broken_before_payload_fulfils_empty (answer : Msg) (hf : Fits answer) (hd : answer.data ≠ []) :
    onReadable [(answer.endpoint, answer.requestId)] { bytes := (encode answer).take (headerLength answer) } =
      .ok { lost := true, fulfilled := some ((answer.endpoint, answer.requestId), []), unsolicited := none } := by
  obtain ⟨hi, hn, hl⟩ := hf
  have h1 : (encode answer).take (headerLength answer) =
      leBytes 8 answer.requestId ++ (leBytes 2 answer.endpoint.length ++
        (answer.endpoint ++ (leBytes 4 answer.data.length ++ []))) := by
    have : encode answer = (leBytes 8 answer.requestId ++ (leBytes 2 answer.endpoint.length ++
        (answer.endpoint ++ leBytes 4 answer.data.length))) ++ answer.data := by
      simp [encode, sendParts, Nat.mod_eq_of_lt hn]
    rw [this, List.append_nil, List.take_left']
    simp [headerLength]; omega
  have e1 : (256 : Nat) ^ 8 = 2 ^ 64 := by decide
  have e2 : (256 : Nat) ^ 2 = 2 ^ 16 := by decide
  have e3 : (256 : Nat) ^ 4 = 2 ^ 32 := by decide
  have hr : receive { bytes := (encode answer).take (headerLength answer) } =
      .ok (false, { answer with data := [] }, { bytes := [] }) := by
    rw [h1]
    unfold receive
    rw [readData_full _ _ _ 8 (by simp) (by simp [NoShortRead])]
    simp only [length_leBytes, leVal_leBytes, Nat.lt_irrefl, if_false]
    rw [readData_full _ _ _ 2 (by simp) (by simp [NoShortRead])]
    simp only [length_leBytes, leVal_leBytes, Nat.lt_irrefl, if_false, e2, Nat.mod_eq_of_lt hn]
    rw [readData_full _ _ _ answer.endpoint.length rfl (by simp [NoShortRead])]
    simp only [Nat.lt_irrefl, if_false]
    rw [readData_full _ _ _ 4 (by simp) (by simp [NoShortRead])]
    simp only [length_leBytes, leVal_leBytes, Nat.lt_irrefl, if_false, e3, Nat.mod_eq_of_lt hl]
    have hpos : answer.data.length ≠ 0 := by
      intro hc; exact hd (List.length_eq_zero_iff.1 hc)
    have hrd : readData { bytes := [], avail := [] } answer.data.length = (false, [], { bytes := [] }) := by
      unfold readData
      rw [readLoop_eof _ _ _ _ (read_empty [] (Or.inl rfl) _) hpos]
      rfl
    simp only [List.drop_nil]
    rw [hrd]
    simp [Nat.mod_eq_of_lt hi, e1]
  unfold onReadable
  rw [hr]
  simp [Res.bind]

/-- **C10 is violated.** -/
theorem corrupted_answer_possible : ¬ NoCorruptedAnswer := by
  intro h
  have := broken_before_payload_fulfils_empty ⟨1, [101], [7]⟩ (by decide) (by decide)
  have := h ⟨1, [101], [7]⟩ _ (by decide) (by decide) _ this _ _ rfl
  simp at this

/-- Breaking inside a header field makes the client read past the end of a buffer. -/
theorem broken_inside_header_is_ub :
    onReadable [([101], 1)] { bytes := (encode ⟨1, [101], [7]⟩).take 3 } = .ub := by
  have h : readData { bytes := (encode ⟨1, [101], [7]⟩).take 3 } 8 =
      (true, (encode ⟨1, [101], [7]⟩).take 3, { bytes := [] }) := by
    have : (encode ⟨1, [101], [7]⟩).take 3 = [1, 0, 0] := by decide
    rw [this]
    unfold readData
    rw [readLoop_short _ { bytes := [] } _ _ [1, 0, 0] rfl (by decide) (by decide) (by decide)]
    rfl
  unfold onReadable receive
  rw [h]
  rfl

/-- **C10, partial.** When the connection breaks between messages, no request is fulfilled (request ids are never 0, C08);
    when the answer arrives completely, it is delivered unchanged. Missing from the full property: breaks inside a
    message. -/
theorem no_corrupted_answer_partial (pending : List Key) (answer : Msg) (hf : Fits answer)
    (hids : ∀ k ∈ pending, k.2 ≠ 0) (hp : (answer.endpoint, answer.requestId) ∈ pending) (rest : Bytes) :
    (∃ o, onReadable pending { bytes := [] } = .ok o ∧ o.lost = true ∧ o.fulfilled = none) ∧
    (∃ o, onReadable pending { bytes := encode answer ++ rest } = .ok o ∧ o.lost = false ∧
      o.fulfilled = some ((answer.endpoint, answer.requestId), answer.data)) := by
  constructor
  · have hr := receive_empty [] (Or.inl rfl)
    have hnot : ¬ (([], 0) : Key) ∈ pending := fun hc => hids _ hc rfl
    unfold onReadable
    rw [hr]
    simp only [Res.bind]
    rw [if_neg hnot]
    exact ⟨_, rfl, rfl, rfl⟩
  · unfold onReadable
    rw [receive_encode answer rest [] hf (by simp [NoShortRead])]
    simp only [Res.bind]
    rw [if_pos hp]
    exact ⟨_, rfl, rfl, rfl⟩

example : Fits ⟨3, [101], [7, 8]⟩ ∧ (∀ k ∈ [(([101], 3) : Key)], k.2 ≠ 0) := by decide

/-! ### Every offset -/

/-- A field of `n` bytes of which only `bs` arrive before the end: all of it is stored, and the call succeeds unless whole blocks (or nothing) arrived. -/
theorem readLoop_cut (bs : Bytes) : ∀ (n : Nat) (acc : Bytes), bs.length < n → readLoop { bytes := bs } n acc = (decide (bs.length % 4096 ≠ 0), acc ++ bs, { bytes := [] }) := by
  generalize hl : bs.length = l
  induction l using Nat.strongRecOn generalizing bs with
  | ind l ih =>
    intro n acc hn
    have hr : read { bytes := bs } (min n chunkSize) = (some (bs.take (min n chunkSize)), { bytes := bs.drop (min n chunkSize) }) := rfl
    by_cases h0 : l = 0
    · have : bs = [] := List.length_eq_zero_iff.1 (by omega)
      subst this
      rw [List.take_nil, List.drop_nil] at hr
      rw [readLoop_eof _ _ _ _ hr (by omega)]
      simp [h0]
    · by_cases hc : l < 4096
      · have e1 : bs.take (min n chunkSize) = bs := List.take_of_length_le (by unfold chunkSize; omega)
        have e2 : bs.drop (min n chunkSize) = [] := List.drop_eq_nil_of_le (by unfold chunkSize; omega)
        rw [e1, e2] at hr
        rw [readLoop_short _ _ _ _ _ hr (by omega) (by unfold chunkSize; omega) (by omega)]
        simp [Nat.mod_eq_of_lt hc, h0]
      · have hm : min n chunkSize = 4096 := by unfold chunkSize; omega
        rw [hm] at hr
        have e1 : (bs.take 4096).length = 4096 := by rw [List.length_take]; omega
        rw [readLoop_more _ _ _ _ _ (by rw [hm]; exact hr) e1 (by unfold chunkSize; omega), e1]
        rw [ih (l - 4096) (by omega) (bs.drop 4096) (by simp [hl]) (n - 4096) _ (by omega)]
        have : (l - 4096) % 4096 = l % 4096 := by omega
        rw [this]
        simp

theorem readData_cut (bs : Bytes) (n : Nat) (h : bs.length < n) : readData { bytes := bs } n = (decide (bs.length % 4096 ≠ 0), bs, { bytes := [] }) := by
  unfold readData
  rw [readLoop_cut bs n [] h]; rfl

/-- **C10, what happens at every offset.** The answer breaks off after `cut` bytes; `n` is the length of the name, `d` the number of bytes of the payload that arrive. -/
theorem broken_exact (answer : Msg) (hf : Fits answer) (cut : Nat) (hc : cut < (encode answer).length) (n d : Nat) (hn : n = answer.endpoint.length) (hd : d = cut - (14 + n)) :
    receive { bytes := (encode answer).take cut } =
      if cut = 0 then .ok (false, {}, { bytes := [] })
      else if cut < 8 then .ub
      else if cut = 8 then .ok (false, { requestId := answer.requestId }, { bytes := [] })
      else if cut < 10 then .ub
      else if cut < 10 + n then (if (cut - 10) % 4096 = 0 then .ok (false, { requestId := answer.requestId }, { bytes := [] }) else .ub)
      else if cut = 10 + n then .ok (false, { answer with data := [] }, { bytes := [] })
      else if cut < 14 + n then .ub
      else .ok (decide (d % 4096 ≠ 0), { answer with data := answer.data.take d }, { bytes := [] }) := by
  obtain ⟨hi, hl, hp⟩ := hf
  have e1 : (256 : Nat) ^ 8 = 2 ^ 64 := by decide
  have e2 : (256 : Nat) ^ 2 = 2 ^ 16 := by decide
  have e3 : (256 : Nat) ^ 4 = 2 ^ 32 := by decide
  have hm : answer.requestId % 256 ^ 8 = answer.requestId := by rw [e1]; exact Nat.mod_eq_of_lt hi
  have h1 : encode answer = leBytes 8 answer.requestId ++ (leBytes 2 answer.endpoint.length ++ (answer.endpoint ++ (leBytes 4 answer.data.length ++ answer.data))) := by
    simp [encode, sendParts, Nat.mod_eq_of_lt hl]
  have hlen : (encode answer).length = 14 + n + answer.data.length := by rw [h1, hn]; simp; omega
  have split : ∀ (a b : Bytes) (k : Nat), a.length ≤ k → (a ++ b).take k = a ++ b.take (k - a.length) := fun a b k hk => by
    rw [List.take_append, List.take_of_length_le hk]
  have short : ∀ (a b : Bytes) (k : Nat), k < a.length → ((a ++ b).take k).length = k ∧ ((a ++ b).take k) = a.take k := fun a b k hk => by
    rw [List.take_append_of_le_length (by omega)]
    exact ⟨by rw [List.length_take]; omega, rfl⟩
  rw [h1]
  by_cases c0 : cut = 0
  · rw [if_pos c0, c0, List.take_zero]; exact receive_empty [] (Or.inl rfl)
  rw [if_neg c0]
  by_cases c8 : cut < 8
  · rw [if_pos c8]
    obtain ⟨s1, s2⟩ := short (leBytes 8 answer.requestId) (leBytes 2 answer.endpoint.length ++ (answer.endpoint ++ (leBytes 4 answer.data.length ++ answer.data))) cut (by simpa using c8)
    unfold receive
    rw [readData_cut _ 8 (by omega), s1]
    have : decide (cut % 4096 ≠ 0) = true := by simp; omega
    rw [this]
    simp only
    rw [if_pos (by omega)]
  rw [if_neg c8, split _ _ _ (by simp; omega), length_leBytes]
  unfold receive
  rw [readData_full _ _ _ 8 (by simp) (by simp [NoShortRead])]
  simp only [length_leBytes, leVal_leBytes, Nat.lt_irrefl, if_false, List.drop_nil, hm]
  by_cases c9 : cut = 8
  · rw [if_pos c9, c9, Nat.sub_self, List.take_zero, readData_cut [] 2 (by simp)]
    simp
  rw [if_neg c9]
  by_cases c10 : cut < 10
  · rw [if_pos c10]
    obtain ⟨s1, s2⟩ := short (leBytes 2 answer.endpoint.length) (answer.endpoint ++ (leBytes 4 answer.data.length ++ answer.data)) (cut - 8) (by simp; omega)
    rw [readData_cut _ 2 (by omega), s1]
    have : decide ((cut - 8) % 4096 ≠ 0) = true := by simp; omega
    rw [this]
    simp only
    rw [if_pos (by omega)]
  rw [if_neg c10, split _ _ _ (by simp; omega), length_leBytes, readData_full _ _ _ 2 (by simp) (by simp [NoShortRead])]
  simp only [length_leBytes, leVal_leBytes, Nat.lt_irrefl, if_false, List.drop_nil, e2, Nat.mod_eq_of_lt hl]
  rw [show cut - 8 - 2 = cut - 10 by omega]
  by_cases cn : cut < 10 + n
  · rw [if_pos cn]
    obtain ⟨s1, s2⟩ := short answer.endpoint (leBytes 4 answer.data.length ++ answer.data) (cut - 10) (by omega)
    rw [readData_cut _ answer.endpoint.length (by omega), s1]
    by_cases hz : (cut - 10) % 4096 = 0
    · rw [if_pos hz]; simp [hz]
    · rw [if_neg hz]
      have : decide ((cut - 10) % 4096 ≠ 0) = true := by simpa using hz
      rw [this]
      simp only
      rw [if_pos (by omega)]
  rw [if_neg cn, split _ _ _ (by omega), readData_full _ _ _ answer.endpoint.length rfl (by simp [NoShortRead])]
  simp only [Nat.lt_irrefl, if_false, List.drop_nil, List.take_length]
  by_cases c4 : cut = 10 + n
  · rw [if_pos c4, show cut - 10 - answer.endpoint.length = 0 by omega, List.take_zero, readData_cut [] 4 (by simp)]
    simp
  rw [if_neg c4]
  by_cases c14 : cut < 14 + n
  · rw [if_pos c14]
    obtain ⟨s1, s2⟩ := short (leBytes 4 answer.data.length) answer.data (cut - 10 - answer.endpoint.length) (by simp; omega)
    rw [readData_cut _ 4 (by omega), s1]
    have : decide ((cut - 10 - answer.endpoint.length) % 4096 ≠ 0) = true := by simp; omega
    rw [this]
    simp only
    rw [if_pos (by omega)]
  rw [if_neg c14, split _ _ _ (by simp; omega), length_leBytes, readData_full _ _ _ 4 (by simp) (by simp [NoShortRead])]
  simp only [length_leBytes, leVal_leBytes, Nat.lt_irrefl, if_false, List.drop_nil, e3, Nat.mod_eq_of_lt hp]
  rw [show cut - 10 - answer.endpoint.length - 4 = d by omega]
  have hdl : (answer.data.take d).length = d := by rw [List.length_take]; omega
  rw [readData_cut _ answer.data.length (by omega), hdl]

/-- **C10 fails for every answer and every offset in its payload**: the waiting request gets what has arrived of the payload; unless the payload breaks off after whole blocks of 4096 bytes, the client does not
even notice. -/
theorem broken_in_payload_truncates (answer : Msg) (hf : Fits answer) (d : Nat) (hd : d < answer.data.length) (pending : List Key) (hp : (answer.endpoint, answer.requestId) ∈ pending) :
    onReadable pending { bytes := (encode answer).take (headerLength answer + d) } =
      .ok { lost := decide (d % 4096 = 0), fulfilled := some ((answer.endpoint, answer.requestId), answer.data.take d), unsolicited := none } := by
  have hlen : (encode answer).length = 14 + answer.endpoint.length + answer.data.length := by
    have := hf.2.1
    simp [encode, sendParts, Nat.mod_eq_of_lt this]; omega
  have h := broken_exact answer hf (headerLength answer + d) (by rw [hlen]; unfold headerLength; omega) _ d rfl (by unfold headerLength; omega)
  unfold headerLength at h ⊢
  rw [if_neg (by omega), if_neg (by omega), if_neg (by omega), if_neg (by omega), if_neg (by omega), if_neg (by omega), if_neg (by omega)] at h
  unfold onReadable
  rw [h]
  simp only [Res.bind]
  rw [if_pos hp]
  simp

/-- **C10 fails for every answer when its header breaks off inside a field**: the client reads past the end of a buffer. (For names of more than 4096 bytes, the whole blocks are exceptions.) -/
theorem broken_in_field_undefined (answer : Msg) (hf : Fits answer) (cut : Nat) (pending : List Key)
    (hc : 0 < cut ∧ cut < 8 ∨ cut = 9 ∨ 10 < cut ∧ cut < 10 + answer.endpoint.length ∧ (cut - 10) % 4096 ≠ 0 ∨ 10 + answer.endpoint.length < cut ∧ cut < headerLength answer) :
    onReadable pending { bytes := (encode answer).take cut } = .ub := by
  have hlen : (encode answer).length = 14 + answer.endpoint.length + answer.data.length := by
    have := hf.2.1
    simp [encode, sendParts, Nat.mod_eq_of_lt this]; omega
  have h := broken_exact answer hf cut (by rw [hlen]; unfold headerLength at hc; omega) _ _ rfl rfl
  unfold headerLength at hc
  have : receive { bytes := (encode answer).take cut } = .ub := by
    rw [h, if_neg (by omega)]
    by_cases c8 : cut < 8
    · rw [if_pos c8]
    rw [if_neg c8, if_neg (by omega)]
    by_cases c10 : cut < 10
    · rw [if_pos c10]
    rw [if_neg c10]
    by_cases cn : cut < 10 + answer.endpoint.length
    · rw [if_pos cn, if_neg (by omega)]
    rw [if_neg cn, if_neg (by omega), if_pos (by omega)]
  unfold onReadable
  rw [this]; rfl

/-- **C10, partial.** At the offsets between the fields in front of the name no request is fulfilled and the end is noticed. -/
theorem broken_between_fields_partial (answer : Msg) (hf : Fits answer) (hne : answer.endpoint ≠ []) (cut : Nat) (hc : cut = 0 ∨ cut = 8 ∨ cut = 10) (pending : List Key) (hids : ∀ k ∈ pending, k.1 ≠ [] ∧ k.2 ≠ 0) :
    ∃ o, onReadable pending { bytes := (encode answer).take cut } = .ok o ∧ o.lost = true ∧ o.fulfilled = none := by
  have hpos : 0 < answer.endpoint.length := List.length_pos_iff.2 hne
  have hlen : (encode answer).length = 14 + answer.endpoint.length + answer.data.length := by
    have := hf.2.1
    simp [encode, sendParts, Nat.mod_eq_of_lt this]; omega
  have h := broken_exact answer hf cut (by rw [hlen]; omega) _ _ rfl rfl
  have key : ∃ m : Msg, m.endpoint = [] ∧ receive { bytes := (encode answer).take cut } = .ok (false, m, { bytes := [] }) := by
    rcases hc with rfl | rfl | rfl
    · exact ⟨_, rfl, by rw [h, if_pos rfl]⟩
    · exact ⟨{ requestId := answer.requestId }, rfl, by rw [h, if_neg (by omega), if_neg (by omega), if_pos rfl]⟩
    · exact ⟨{ requestId := answer.requestId }, rfl, by rw [h, if_neg (by omega), if_neg (by omega), if_neg (by omega), if_neg (by omega), if_pos (by omega), if_pos rfl]⟩
  obtain ⟨m, hm, hr⟩ := key
  unfold onReadable
  rw [hr]
  simp only [Res.bind]
  rw [if_neg (fun hh => (hids _ hh).1 hm)]
  exact ⟨_, rfl, rfl, rfl⟩

example : Fits ⟨3, [101], [7, 8]⟩ ∧ (1 : Nat) < (⟨3, [101], [7, 8]⟩ : Msg).data.length ∧ (([101], 3) : Key) ∈ [(([101], 3) : Key)] ∧ ∀ k ∈ [(([101], 3) : Key)], k.1 ≠ [] ∧ k.2 ≠ 0 := by decide

/-! ### Reads that fail -/

theorem readLoop_reads (n : Nat) : ∀ (e : Env) (acc out : Bytes) (e' : Env), readLoop e n acc = (true, out, e') → ∃ pre, e.avail = pre ++ e'.avail ∧ none ∉ pre := by
  have hr : ∀ (e e1 : Env) (w : Nat) (c : Bytes), read e w = (some c, e1) → ∃ pre, e.avail = pre ++ e1.avail ∧ none ∉ pre := by
    intro e e1 w c h
    unfold Protocol.read at h
    split at h
    · rename_i ha
      obtain ⟨_, rfl⟩ := Prod.mk.inj h
      exact ⟨[], by simp, by simp⟩
    · obtain ⟨h1, _⟩ := Prod.mk.inj h
      cases h1
    · rename_i k as ha
      obtain ⟨_, rfl⟩ := Prod.mk.inj h
      exact ⟨[some k], by simp [ha], by simp⟩
  induction n using Nat.strongRecOn with
  | ind n ih =>
    intro e acc out e' h
    rw [readLoop] at h
    split at h
    · obtain ⟨h1, _⟩ := Prod.mk.inj h
      cases h1
    · rename_i c e1 hread
      obtain ⟨p1, a1, n1⟩ := hr _ _ _ _ hread
      split at h
      · obtain ⟨_, h2⟩ := Prod.mk.inj h
        obtain ⟨_, rfl⟩ := Prod.mk.inj h2
        exact ⟨p1, a1, n1⟩
      · split at h
        · rename_i hne hc
          have hle := read_le hread
          have : n - c.length < n := by unfold chunkSize at *; omega
          obtain ⟨p2, a2, n2⟩ := ih _ this _ _ _ _ h
          refine ⟨p1 ++ p2, by rw [a1, a2, List.append_assoc], ?_⟩
          rw [List.mem_append]
          rintro (h1 | h1)
          · exact n1 h1
          · exact n2 h1
        · split at h
          · obtain ⟨h1, _⟩ := Prod.mk.inj h
            cases h1
          · obtain ⟨_, h2⟩ := Prod.mk.inj h
            obtain ⟨_, rfl⟩ := Prod.mk.inj h2
            exact ⟨p1, a1, n1⟩

/-- **C10: a read that fails is noticed**, wherever in a message it happens and whatever arrives: if a message is accepted, none of the reads it took failed. -/
theorem failed_read_noticed (e e' : Env) (m : Msg) (h : receive e = .ok (true, m, e')) : ∃ pre, e.avail = pre ++ e'.avail ∧ none ∉ pre := by
  unfold receive at h
  split at h
  · cases h
  rename_i t1 e1 h1
  split at h
  · cases h
  simp only at h
  split at h
  · cases h
  rename_i t2 e2 h2
  split at h
  · cases h
  split at h
  · cases h
  rename_i t3 e3 h3
  split at h
  · cases h
  split at h
  · cases h
  rename_i t4 e4 h4
  split at h
  · cases h
  rename_i hlen
  cases hx : readData e4 (leVal t4) with
  | mk ok r =>
    cases r with
    | mk data e5 =>
      rw [hx] at h
      simp only [Res.ok.injEq, Prod.mk.injEq] at h
      obtain ⟨rfl, _, rfl⟩ := h
      obtain ⟨p1, a1, n1⟩ := readLoop_reads _ _ _ _ _ h1
      obtain ⟨p2, a2, n2⟩ := readLoop_reads _ _ _ _ _ h2
      obtain ⟨p3, a3, n3⟩ := readLoop_reads _ _ _ _ _ h3
      obtain ⟨p4, a4, n4⟩ := readLoop_reads _ _ _ _ _ h4
      obtain ⟨p5, a5, n5⟩ := readLoop_reads _ _ _ _ _ hx
      refine ⟨p1 ++ (p2 ++ (p3 ++ (p4 ++ p5))), by simp only [a1, a2, a3, a4, a5, List.append_assoc], ?_⟩
      simp only [List.mem_append]
      rintro (h | h | h | h | h)
      · exact n1 h
      · exact n2 h
      · exact n3 h
      · exact n4 h
      · exact n5 h

/-- **C10 fails when the read of the payload fails**: the client notices, but still hands the waiting request an empty answer. -/
theorem failed_read_fulfils_empty (answer : Msg) (hf : Fits answer) (h0 : answer.endpoint ≠ []) (hn : answer.endpoint.length ≤ 4096) (pending : List Key) (hp : (answer.endpoint, answer.requestId) ∈ pending) (as : List (Option Nat)) :
    onReadable pending { bytes := encode answer, avail := some 8 :: some 2 :: some answer.endpoint.length :: some 4 :: none :: as } =
      .ok { lost := true, fulfilled := some ((answer.endpoint, answer.requestId), []), unsolicited := none } := by
  obtain ⟨hi, hl, hd⟩ := hf
  have hpos : 0 < answer.endpoint.length := List.length_pos_iff.2 h0
  have e1 : (256 : Nat) ^ 8 = 2 ^ 64 := by decide
  have e2 : (256 : Nat) ^ 2 = 2 ^ 16 := by decide
  have hm : answer.requestId % 256 ^ 8 = answer.requestId := by rw [e1]; exact Nat.mod_eq_of_lt hi
  have h1 : encode answer = leBytes 8 answer.requestId ++ (leBytes 2 answer.endpoint.length ++ (answer.endpoint ++ (leBytes 4 answer.data.length ++ answer.data))) := by
    simp [encode, sendParts, Nat.mod_eq_of_lt hl]
  have step : ∀ (a b : Bytes) (n : Nat) (rest : List (Option Nat)), a.length = n → 0 < n → n ≤ 4096 →
      readData { bytes := a ++ b, avail := some n :: rest } n = (true, a, { bytes := b, avail := rest }) := by
    intro a b n rest ha hz hle
    subst ha
    have hr : read { bytes := a ++ b, avail := some a.length :: rest } (min a.length chunkSize) = (some a, { bytes := b, avail := rest }) := by
      have : min (max a.length 1) (min a.length chunkSize) = a.length := by unfold chunkSize; omega
      simp only [Protocol.read, this, List.take_left, List.drop_left]
    unfold readData
    rw [readLoop_last _ _ _ _ _ hr rfl]
    rfl
  have last : ∀ (b : Bytes) (n : Nat), readData { bytes := b, avail := none :: as } n = (false, [], { bytes := b, avail := as }) := by
    intro b n
    unfold readData
    rw [readLoop]
    rfl
  unfold onReadable receive
  rw [h1, step _ _ 8 _ (by simp) (by omega) (by omega)]
  simp only [length_leBytes, Nat.lt_irrefl, if_false]
  rw [step _ _ 2 _ (by simp) (by omega) (by omega)]
  simp only [length_leBytes, Nat.lt_irrefl, if_false, leVal_leBytes, e2, Nat.mod_eq_of_lt hl]
  rw [step _ _ answer.endpoint.length _ rfl hpos hn]
  simp only [Nat.lt_irrefl, if_false, List.take_length]
  rw [step _ _ 4 _ (by simp) (by omega) (by omega)]
  simp only [length_leBytes, Nat.lt_irrefl, if_false]
  rw [last]
  simp only [Res.bind, hm]
  rw [if_pos hp]
  rfl

example : Fits ⟨3, [101], [7, 8]⟩ ∧ ([101] : Bytes) ≠ [] ∧ (([101], 3) : Key) ∈ [(([101], 3) : Key)] ∧
    receive { bytes := encode ⟨3, [101], [7, 8]⟩, avail := [some 8, some 2, some 1, some 4, some 2, none] } = .ok (true, ⟨3, [101], [7, 8]⟩, { bytes := [], avail := [none] }) := by decide +kernel

end Scalopus.C10
