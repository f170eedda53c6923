import Verif.Proofs.Cbor

/-!
# C30: events survive serialisation
-/

namespace Scalopus.C30

open Cbor

/-- **C30.** Every batch of events, of any process, any number of threads and events, all times, ids, kinds and payloads that fit their
    types, is decoded by the consumer to exactly this batch. -/
theorem batch_round_trip (pid : Nat) (hp : pid < 2 ^ 31) (m : Threads) (h : ThreadsValid m) : decodeBatch (encodeBatch pid m) = .ok ((pid : Int), m) := by
  have e1 : expect 5 (encodeBatch pid m) = some (2, head 3 keyEvents.length ++ keyEvents ++ encodeThreads m ++ (head 3 keyPid.length ++ keyPid ++ head 0 pid)) := by
    unfold encodeBatch
    rw [List.append_assoc, expect_head 5 2 (by decide) (by decide)]
  have e2 : readEntry (head 3 keyEvents.length ++ keyEvents ++ encodeThreads m ++ (head 3 keyPid.length ++ keyPid ++ head 0 pid)) =
      some ((keyEvents, encodeThreads m), head 3 keyPid.length ++ keyPid ++ head 0 pid) := by
    unfold readEntry
    rw [List.append_assoc, readBytes_head 3 (by decide) keyEvents _ (by decide), Option.bind_some]
    simp only
    rw [readRaw_items (items_threads m h)]
    rfl
  have e3 : readEntry (head 3 keyPid.length ++ keyPid ++ head 0 pid) = some ((keyPid, head 0 pid), []) := by
    unfold readEntry
    rw [readBytes_head 3 (by decide) keyPid _ (by decide), Option.bind_some]
    simp only
    have := readRaw_items (items_num (n := pid) (by omega)) []
    rw [List.append_nil] at this
    rw [this]
    rfl
  have e4 : times readEntry 2 (head 3 keyEvents.length ++ keyEvents ++ encodeThreads m ++ (head 3 keyPid.length ++ keyPid ++ head 0 pid)) =
      some ([(keyEvents, encodeThreads m), (keyPid, head 0 pid)], []) := by
    simp only [times, e2, e3, Option.bind_some]
  have e5 : readUInt (2 ^ 64) (head 0 pid) = some (pid, []) := by
    have := readUInt_head (2 ^ 64) pid (by decide) (by omega) []
    rwa [List.append_nil] at this
  have e6 : readThreads (encodeThreads m) = some (m, []) := by
    have := readThreads_encode m h []
    rwa [List.append_nil] at this
  have e7 : at? [(keyEvents, encodeThreads m), (keyPid, head 0 pid)] keyPid = .ok (head 0 pid) := by
    simp [at?, List.lookup, keyEvents, keyPid]
  have e8 : at? [(keyEvents, encodeThreads m), (keyPid, head 0 pid)] keyEvents = .ok (encodeThreads m) := by
    simp [at?, List.lookup, keyEvents]
  unfold decodeBatch
  simp only [e1, e4, orBad, e7, e8, e5, e6, bind, Except.bind, pure, Except.pure]
  rw [show ((pid : Int) + 2 ^ 31) % 2 ^ 32 - 2 ^ 31 = pid by omega]

/-- **C30, counters.** Every 64 bit counter value is decoded to itself, and its payload fits into an event. -/
theorem counter_round_trip (v : Int) (h : -2 ^ 63 ≤ v ∧ v < 2 ^ 63) :
    decodeCounter (encodeCounter v) = .ok v ∧ (encodeCounter v).length ≤ 9 := by
  constructor
  · unfold decodeCounter encodeCounter readInt64
    by_cases hv : 0 ≤ v
    · rw [if_pos hv]
      have := readHead_head 0 v.toNat (by decide) (by omega) []
      rw [List.append_nil] at this
      rw [this]
      simp only
      rw [if_pos (by omega)]
      simp only [orBad, Except.map]
      congr 1
      omega
    · rw [if_neg hv]
      have := readHead_head 1 (-1 - v).toNat (by decide) (by omega) []
      rw [List.append_nil] at this
      rw [this]
      simp only
      rw [if_pos (by omega)]
      simp only [orBad, Except.map]
      congr 1
      omega
  · have : ∀ a b, (head a b).length ≤ 9 := by
      intro a b
      unfold head
      repeat' split
      all_goals simp [length_bigEndian]
    unfold encodeCounter
    split <;> exact this _ _

/-- Two threads, a scope, a marker and a negative counter. -/
example : decodeBatch (encodeBatch 4711 [(140, [⟨1600000000000000000, 77, 1, none⟩, ⟨1600000000000000300, 77, 2, none⟩]),
    (141, [⟨1600000000000000100, 4000000000, 6, some (encodeCounter (-70000))⟩])]) =
    .ok (4711, [(140, [⟨1600000000000000000, 77, 1, none⟩, ⟨1600000000000000300, 77, 2, none⟩]),
      (141, [⟨1600000000000000100, 4000000000, 6, some (encodeCounter (-70000))⟩])]) := by
  refine batch_round_trip 4711 (by decide) _ ⟨by simp, by decide, by decide, by decide, ?_⟩
  intro x hx e he
  simp only [List.mem_cons, List.not_mem_nil, or_false] at hx
  rcases hx with rfl | rfl
  · simp only [List.mem_cons, List.not_mem_nil, or_false] at he
    rcases he with rfl | rfl <;> exact ⟨by decide, by decide, by decide, by simp⟩
  · simp only [List.mem_cons, List.not_mem_nil, or_false] at he
    rcases he with rfl
    refine ⟨by decide, by decide, by decide, ?_⟩
    intro d hd
    simp only [Option.some.injEq] at hd
    have := (counter_round_trip (-70000) (by decide)).2
    subst hd
    omega

end Scalopus.C30
