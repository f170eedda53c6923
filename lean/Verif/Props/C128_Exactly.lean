import Verif.Props.C128_BsonEndpoints

/-!
# C128: exactly which tables of threads are served
-/

namespace Scalopus.C128

open Bson BsonEndpoints C126

/-- **C128, exactly.** For every table of threads with different ids and names of less than two gigabytes, whatever bytes they hold: the query for process information is answered if and only if all ids are below 2^63; then the
    client gets exactly what the server has; otherwise the handler throws. -/
theorem info_answered_iff (server client : Nat) (pid : Int) (hp : -2 ^ 31 ≤ pid ∧ pid < 2 ^ 31) (name : Bytes) (hl : name.length + 1 < 2 ^ 31) (threads : List (Nat × Bytes)) (hn : (threads.map (·.1)).Nodup)
    (hs : ∀ x ∈ threads, x.2.length + 1 < 2 ^ 31) :
    ∃ request, infoRequest = .ok request ∧
      ((∃ answer, infoHandle server pid name threads request = .ok (some answer)) ↔ ∀ x ∈ threads, x.1 < 2 ^ 63) ∧
      ((∃ answer, infoHandle server pid name threads request = .ok (some answer) ∧ infoResult (client + 2) answer = .ok { name := name, threads := threads, pid := pid }) ↔ ∀ x ∈ threads, x.1 < 2 ^ 63) ∧
      (infoHandle server pid name threads request = .throws "out_of_range" ↔ ∃ x ∈ threads, 2 ^ 63 ≤ x.1) := by
  by_cases h : ∀ x ∈ threads, x.1 < 2 ^ 63
  · obtain ⟨request, answer, h1, h2, h3⟩ := info_arrives server client pid hp name hl threads ⟨hn, fun x hx => ⟨h x hx, hs x hx⟩⟩
    refine ⟨request, h1, ⟨fun _ => h, fun _ => ⟨answer, h2⟩⟩, ⟨fun _ => h, fun _ => ⟨answer, h2, h3⟩⟩, ?_⟩
    rw [h2]
    constructor
    · intro e; cases e
    · rintro ⟨x, hx, h4⟩; have := h x hx; omega
  · obtain ⟨x, hx, h4⟩ : ∃ x ∈ threads, 2 ^ 63 ≤ x.1 := by
      apply Classical.byContradiction
      intro hc
      refine h fun x hx => ?_
      apply Classical.byContradiction
      intro h5
      exact hc ⟨x, hx, by omega⟩
    obtain ⟨request, h1, h2⟩ := info_large_id server pid name threads x hx h4
    refine ⟨request, h1, ⟨?_, fun e => absurd e h⟩, ⟨?_, fun e => absurd e h⟩, fun _ => ⟨x, hx, h4⟩, fun _ => h2⟩
    · rintro ⟨a, e⟩; rw [h2] at e; cases e
    · rintro ⟨a, e, -⟩; rw [h2] at e; cases e

example : (([(140210000000000, [109, 97, 105, 110]), (2 ^ 63, [0, 255])] : List (Nat × Bytes)).map (·.1)).Nodup := by decide

end Scalopus.C128
