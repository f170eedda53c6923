import Verif.Model.Protocol
import Verif.Spec.Wire

/-!
# Wire protocol: helper lemmas
-/

namespace Scalopus.Protocol

open Spec.Wire

@[simp] theorem length_leBytes (k x : Nat) : (leBytes k x).length = k := by
  induction k generalizing x with
  | zero => rfl
  | succ k ih => simp [leBytes, ih]

theorem leVal_leBytes (k x : Nat) : leVal (leBytes k x) = x % 256 ^ k := by
  induction k generalizing x with
  | zero => simp [leBytes, leVal, Nat.mod_one]
  | succ k ih =>
    simp only [leBytes, leVal, ih]
    rw [Nat.pow_succ, Nat.mul_comm (256 ^ k) 256, Nat.mod_mul]
    simp

theorem leBytes_mod (k x : Nat) : leBytes k (x % 256 ^ k) = leBytes k x := by
  induction k generalizing x with
  | zero => rfl
  | succ k ih =>
    simp only [leBytes]
    congr 1
    · apply UInt8.toNat_inj.1
      simp
      rw [Nat.pow_succ, Nat.mod_mul_left_mod]
    · rw [Nat.pow_succ, Nat.mul_comm (256 ^ k) 256, Nat.mod_mul, Nat.add_mul_div_left _ _ (by omega),
        Nat.div_eq_of_lt (Nat.mod_lt _ (by omega)), Nat.zero_add, ih]

theorem noShortRead_append (as : List (Option Nat)) (ws ws' : List Nat) :
    NoShortRead as (ws ++ ws') ↔ NoShortRead as ws ∧ NoShortRead (as.drop ws.length) ws' := by
  induction ws generalizing as with
  | nil => cases as with
    | nil => simp [NoShortRead]
    | cons a as => cases a <;> simp [NoShortRead]
  | cons w ws ih =>
    cases as with
    | nil => simp [NoShortRead]
    | cons a as => cases a <;> simp [NoShortRead, ih, and_assoc]

/-- A read that gets all it asks for. -/
theorem read_full (bs rest : Bytes) (as : List (Option Nat)) (ws : List Nat) (h : NoShortRead as (bs.length :: ws)) :
    read { bytes := bs ++ rest, avail := as } bs.length = (some bs, { bytes := rest, avail := as.drop 1 }) := by
  cases as with
  | nil => simp [read]
  | cons a as =>
    cases a with
    | none => simp [NoShortRead] at h
    | some n =>
      simp only [NoShortRead] at h
      simp [read, Nat.min_eq_right h.1]

theorem blocks_le {n : Nat} (h : n ≤ chunkSize) : blocks n = [n] := by
  unfold blocks; exact dif_pos h

theorem blocks_gt {n : Nat} (h : ¬ n ≤ chunkSize) : blocks n = chunkSize :: blocks (n - chunkSize) := by
  rw [blocks]; exact dif_neg h

theorem readLoop_last (e e' : Env) (left : Nat) (acc c : Bytes)
    (hr : read e (min left chunkSize) = (some c, e')) (hl : c.length = left) :
    readLoop e left acc = (true, acc ++ c, e') := by
  unfold readLoop
  split
  · rename_i h; rw [hr] at h; simp at h
  · rename_i c1 e1 h
    rw [hr] at h
    simp only [Prod.mk.injEq, Option.some.injEq] at h
    obtain ⟨rfl, rfl⟩ := h
    rw [if_pos hl]

theorem readLoop_more (e e' : Env) (left : Nat) (acc c : Bytes)
    (hr : read e (min left chunkSize) = (some c, e')) (hl : c.length = chunkSize) (hlt : chunkSize < left) :
    readLoop e left acc = readLoop e' (left - c.length) (acc ++ c) := by
  rw [readLoop]
  split
  · rename_i h; rw [hr] at h; simp at h
  · rename_i c1 e1 h
    rw [hr] at h
    simp only [Prod.mk.injEq, Option.some.injEq] at h
    obtain ⟨rfl, rfl⟩ := h
    rw [if_neg (by omega), dif_pos hl]

theorem readLoop_short (e e' : Env) (left : Nat) (acc c : Bytes)
    (hr : read e (min left chunkSize) = (some c, e')) (hl : c.length ≠ left) (hc : c.length ≠ chunkSize)
    (h0 : c.length ≠ 0) :
    readLoop e left acc = (true, acc ++ c, e') := by
  rw [readLoop]
  split
  · rename_i h; rw [hr] at h; simp at h
  · rename_i c1 e1 h
    rw [hr] at h
    simp only [Prod.mk.injEq, Option.some.injEq] at h
    obtain ⟨rfl, rfl⟩ := h
    rw [if_neg hl, dif_neg hc, if_neg h0]

theorem readLoop_eof (e e' : Env) (left : Nat) (acc : Bytes)
    (hr : read e (min left chunkSize) = (some [], e')) (hl : left ≠ 0) :
    readLoop e left acc = (false, acc, e') := by
  rw [readLoop]
  split
  · rename_i h; rw [hr] at h; simp at h
  · rename_i c1 e1 h
    rw [hr] at h
    simp only [Prod.mk.injEq, Option.some.injEq] at h
    obtain ⟨rfl, rfl⟩ := h
    have hc : ([] : Bytes).length ≠ chunkSize := by unfold chunkSize; decide
    rw [if_neg (fun h => hl (by simpa using h.symm)), dif_neg hc, if_pos List.length_nil, List.append_nil]

theorem read_empty (as : List (Option Nat)) (h : as = [] ∨ ∃ n as', as = some n :: as') (w : Nat) :
    read { bytes := [], avail := as } w = (some [], { bytes := [], avail := as.drop 1 }) := by
  rcases h with rfl | ⟨n, as', rfl⟩ <;> simp [read]

/-- At the end of the stream nothing is received. -/
theorem receive_empty (as : List (Option Nat)) (h : as = [] ∨ ∃ n as', as = some n :: as') :
    receive { bytes := [], avail := as } = .ok (false, {}, { bytes := [], avail := as.drop 1 }) := by
  unfold receive readData
  rw [readLoop_eof _ _ _ _ (read_empty as h _) (by decide)]

/-- Reads are satisfied in full. -/
theorem readLoop_full (bs rest : Bytes) :
    ∀ (as : List (Option Nat)) (acc : Bytes), NoShortRead as (blocks bs.length) →
      readLoop { bytes := bs ++ rest, avail := as } bs.length acc =
        (true, acc ++ bs, { bytes := rest, avail := as.drop (blocks bs.length).length }) := by
  generalize hn : bs.length = n
  induction n using Nat.strongRecOn generalizing bs with
  | ind n ih =>
    intro as acc hs
    subst hn
    by_cases hle : bs.length ≤ chunkSize
    · rw [blocks_le hle] at hs ⊢
      have hr := read_full bs rest as [] hs
      rw [readLoop_last _ _ _ _ bs (by rw [Nat.min_eq_left hle]; exact hr) rfl]
      simp
    · have hlt : chunkSize < bs.length := by omega
      have hl : (bs.take chunkSize).length = chunkSize := by rw [List.length_take]; omega
      have hpos : 0 < chunkSize := by unfold chunkSize; omega
      rw [blocks_gt hle] at hs ⊢
      have hr := read_full (bs.take chunkSize) (bs.drop chunkSize ++ rest) as (blocks (bs.length - chunkSize))
        (by rw [hl]; exact hs)
      rw [← List.append_assoc, List.take_append_drop, hl] at hr
      rw [readLoop_more _ _ _ _ _ (by rw [Nat.min_eq_right (Nat.le_of_lt hlt)]; exact hr) hl hlt]
      rw [← List.singleton_append, noShortRead_append] at hs
      have hd : bs.length - (bs.take chunkSize).length = (bs.drop chunkSize).length := by
        rw [hl, List.length_drop]
      rw [hd, ih (bs.drop chunkSize).length (by rw [List.length_drop]; omega) _ rfl _ _
        (by rw [List.length_drop]; exact hs.2)]
      rw [List.append_assoc, List.take_append_drop, List.drop_drop, List.length_cons, List.length_drop, Nat.add_comm]

theorem readData_full (bs rest : Bytes) (as : List (Option Nat)) (n : Nat) (hn : n = bs.length)
    (h : NoShortRead as (blocks n)) :
    readData { bytes := bs ++ rest, avail := as } n =
      (true, bs, { bytes := rest, avail := as.drop (blocks n).length }) := by
  subst hn
  unfold readData
  rw [readLoop_full _ _ _ _ h]; simp

/-- Receiving a message whose name is arbitrary and whose data is arbitrary: the name is cut to its length modulo 2^16
    and the data to its length modulo 2^32. -/
theorem receive_encode_gen (m : Msg) (rest : Bytes) (as : List (Option Nat))
    (h : NoShortRead as (messageReads (m.endpoint.length % 2 ^ 16) (m.data.length % 2 ^ 32))) :
    receive { bytes := encode m ++ rest, avail := as } =
      .ok (true,
        { requestId := m.requestId % 2 ^ 64
          endpoint := m.endpoint.take (m.endpoint.length % 2 ^ 16)
          data := m.data.take (m.data.length % 2 ^ 32) },
        { bytes := m.data.drop (m.data.length % 2 ^ 32) ++ rest
          avail := as.drop (messageReads (m.endpoint.length % 2 ^ 16) (m.data.length % 2 ^ 32)).length }) := by
  have h1 : encode m ++ rest = leBytes 8 m.requestId ++ (leBytes 2 m.endpoint.length ++
      (m.endpoint.take (m.endpoint.length % 2 ^ 16) ++ (leBytes 4 m.data.length ++
      (m.data.take (m.data.length % 2 ^ 32) ++ (m.data.drop (m.data.length % 2 ^ 32) ++ rest))))) := by
    rw [← List.append_assoc (m.data.take _), List.take_append_drop]
    simp [encode, sendParts]
  have hle : m.endpoint.length % 2 ^ 16 ≤ m.endpoint.length := Nat.mod_le _ _
  have hld : m.data.length % 2 ^ 32 ≤ m.data.length := Nat.mod_le _ _
  have e1 : (256 : Nat) ^ 8 = 2 ^ 64 := by decide
  have e2 : (256 : Nat) ^ 2 = 2 ^ 16 := by decide
  have e3 : (256 : Nat) ^ 4 = 2 ^ 32 := by decide
  unfold messageReads at h
  simp only [noShortRead_append, List.length_append, and_assoc] at h
  obtain ⟨g1, g2, g3, g4, g5⟩ := h
  rw [h1]
  unfold receive
  rw [readData_full _ _ _ 8 (by simp) g1]
  simp only [length_leBytes, leVal_leBytes, Nat.lt_irrefl, if_false]
  rw [readData_full _ _ _ 2 (by simp) g2]
  simp only [length_leBytes, leVal_leBytes, Nat.lt_irrefl, if_false, e2]
  rw [readData_full _ _ _ (m.endpoint.length % 2 ^ 16) (by simp only [List.length_take]; omega)
    (by simpa [List.drop_drop] using g3)]
  simp only
  rw [if_neg (by simp only [List.length_take]; omega)]
  rw [readData_full _ _ _ 4 (by simp) (by simpa [List.drop_drop, Nat.add_assoc] using g4)]
  simp only [length_leBytes, leVal_leBytes, Nat.lt_irrefl, if_false, e3, e1]
  rw [readData_full _ _ _ (m.data.length % 2 ^ 32) (by simp only [List.length_take]; omega)
    (by simpa [List.drop_drop, Nat.add_assoc] using g5)]
  simp [List.take_take, List.drop_drop, messageReads, Nat.add_assoc]

theorem receive_encode (m : Msg) (rest : Bytes) (as : List (Option Nat)) (hf : Fits m)
    (h : NoShortRead as (messageReads m.endpoint.length m.data.length)) :
    receive { bytes := encode m ++ rest, avail := as } =
      .ok (true, m, { bytes := rest, avail := as.drop (messageReads m.endpoint.length m.data.length).length }) := by
  obtain ⟨hi, hn, hd⟩ := hf
  rw [receive_encode_gen] <;> rw [Nat.mod_eq_of_lt hn, Nat.mod_eq_of_lt hd]
  · simp [Nat.mod_eq_of_lt hi]
  · exact h

end Scalopus.Protocol
