import Verif.Props.C26_TraceId
import Mathlib.Data.Fintype.EquivFin

/-!
# C26, C28: exactly which tracepoints share an id
-/

namespace Scalopus.Crc

/-- The four bytes of a 32-bit number. -/
def fourBytes (x : Nat) : List UInt8 := [UInt8.ofNat (x / 2 ^ 24), UInt8.ofNat (x / 2 ^ 16), UInt8.ofNat (x / 2 ^ 8), UInt8.ofNat x]

theorem fourBytes_inj (x y : Nat) (hx : x < 2 ^ 32) (hy : y < 2 ^ 32) (h : fourBytes x = fourBytes y) : x = y := by
  simp only [fourBytes, List.cons.injEq, and_true] at h
  have g : ∀ a b : Nat, UInt8.ofNat a = UInt8.ofNat b → a % 256 = b % 256 := by
    intro a b e
    have := congrArg UInt8.toNat e
    simpa using this
  have h1 := g _ _ h.1
  have h2 := g _ _ h.2.1
  have h3 := g _ _ h.2.2.1
  have h4 := g _ _ h.2.2.2
  omega

/-- Every checksum can be reached by choosing four bytes anywhere in a text. -/
theorem crc32_reaches (pre post : List UInt8) (c : BitVec 32) : ∃ b₀ b₁ b₂ b₃ : UInt8, Spec.crc32 (pre ++ [b₀, b₁, b₂, b₃] ++ post) = c := by
  let f : Fin (2 ^ 32) → Fin (2 ^ 32) := fun x => (Spec.crc32 (pre ++ fourBytes x.val ++ post)).toFin
  have hinj : Function.Injective f := by
    intro x y h
    have h' : Spec.crc32 (pre ++ fourBytes x.val ++ post) = Spec.crc32 (pre ++ fourBytes y.val ++ post) := BitVec.eq_of_toFin_eq h
    have := crc32_window _ _ _ _ _ _ _ _ _ _ h'
    exact Fin.ext (fourBytes_inj _ _ x.isLt y.isLt this)
  obtain ⟨x, hx⟩ := (Finite.injective_iff_surjective.1 hinj) c.toFin
  exact ⟨UInt8.ofNat (x.val / 2 ^ 24), UInt8.ofNat (x.val / 2 ^ 16), UInt8.ofNat (x.val / 2 ^ 8), UInt8.ofNat x.val, BitVec.eq_of_toFin_eq hx⟩

end Scalopus.Crc

namespace Scalopus.C26

open Crc

/-- What a tracepoint adds to the checksum of its file: the line for a scope, the checksum of the name for all others. -/
def own (s : Site) : BitVec 32 :=
  match s.kind with
  | .scope _ => BitVec.ofNat 32 s.line
  | k => Spec.crc32 k.registered

theorem id_own (s : Site) : s.id = some (Spec.crc32 s.file + own s) := by
  obtain ⟨f, l, k⟩ := s
  cases k <;> simp [Site.id, own, idLine_eq, idString_eq]

/-- **C26, exactly.** Two tracepoints of one file share an id if and only if the line of the scope, or the CRC-32 of the name, is the same 32-bit number for both. -/
theorem share_iff (s₁ s₂ : Site) (hf : s₁.file = s₂.file) : s₁.id = s₂.id ↔ own s₁ = own s₂ := by
  rw [id_own, id_own, hf, Option.some.injEq]
  exact ⟨add_left_inj32, fun h => by rw [h]⟩

/-- **C26 fails for every tracepoint and every name.** Whatever tracepoint there is in a file, and however a name begins and ends: some four bytes in the middle make it a name whose mark, in the same
    file and on whichever line, has the id of that tracepoint. -/
theorem every_id_collides (s : Site) (pre post : List UInt8) (l : Nat) :
    ∃ b₀ b₁ b₂ b₃ : UInt8, (Site.mk s.file l (.mark (pre ++ [b₀, b₁, b₂, b₃] ++ post))).id = s.id := by
  obtain ⟨b₀, b₁, b₂, b₃, hx⟩ := crc32_reaches pre post (own s)
  refine ⟨b₀, b₁, b₂, b₃, ?_⟩
  · rw [id_own, id_own]
    simp only [own]
    exact congrArg (fun c => some (Spec.crc32 s.file + c)) hx

/-- A scope on line 470 and a name that starts with `step `. -/
example : ∃ b₀ b₁ b₂ b₃ : UInt8, (Site.mk (bytes "a.cpp") 9 (.mark (bytes "step " ++ [b₀, b₁, b₂, b₃] ++ bytes " done"))).id =
    (Site.mk (bytes "a.cpp") 470 (.scope (bytes "work"))).id := every_id_collides (Site.mk (bytes "a.cpp") 470 (.scope (bytes "work"))) (bytes "step ") (bytes " done") 9

end Scalopus.C26

namespace Scalopus.C28

open Crc

/-- **C28, exactly.** Tracepoints of two files share an id if and only if the checksums of the two files differ by what their own parts differ by, modulo `2^32`. -/
theorem share_iff (s₁ s₂ : Site) : s₁.id = s₂.id ↔ Spec.crc32 s₁.file - Spec.crc32 s₂.file = C26.own s₂ - C26.own s₁ := by
  rw [C26.id_own, C26.id_own, Option.some.injEq]
  generalize Spec.crc32 s₁.file = a
  generalize Spec.crc32 s₂.file = b
  generalize C26.own s₁ = c
  generalize C26.own s₂ = d
  constructor <;> intro h <;> grind

/-- **C28 fails for every tracepoint.** Whatever tracepoint there is in a program, and however the path of another file begins and ends: with some four bytes in the middle of the path, the
    scopes on any given line of that file have the id of that tracepoint. -/
theorem every_file_collides (s : Site) (pre post : List UInt8) (l : Nat) (n : List UInt8) :
    ∃ b₀ b₁ b₂ b₃ : UInt8, (Site.mk (pre ++ [b₀, b₁, b₂, b₃] ++ post) l (.scope n)).id = s.id := by
  obtain ⟨b₀, b₁, b₂, b₃, hx⟩ := crc32_reaches pre post (Spec.crc32 s.file + C26.own s - BitVec.ofNat 32 l)
  refine ⟨b₀, b₁, b₂, b₃, ?_⟩
  · rw [C26.id_own, C26.id_own]
    simp only [C26.own]
    exact (congrArg (fun c => some (c + BitVec.ofNat 32 l)) hx).trans (by rw [BitVec.sub_add_cancel]; rfl)

example : ∃ b₀ b₁ b₂ b₃ : UInt8, (Site.mk (bytes "src/" ++ [b₀, b₁, b₂, b₃] ++ bytes ".cpp") 12 (.scope [])).id =
    (Site.mk (bytes "src/main.cpp") 3 (.mark (bytes "go"))).id := every_file_collides _ _ _ 12 _

end Scalopus.C28
