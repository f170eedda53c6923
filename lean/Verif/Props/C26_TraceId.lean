import Verif.Proofs.Crc

/-!
# C26, C27, C28: tracepoint ids
-/

namespace Scalopus.C27

open Crc

/-- **C27.** For every string the compile-time checksum exists (no read outside of the table) and is its CRC-32. -/
theorem compile_time_is_crc32 (data : List UInt8) : compute data = some (Spec.crc32 data) := compute_eq data

/-- The check value of CRC-32, for "123456789", of the specification. -/
example : Spec.crc32 [0x31, 0x32, 0x33, 0x34, 0x35, 0x36, 0x37, 0x38, 0x39] = 0xCBF43926 := by decide +kernel

end Scalopus.C27

namespace Scalopus.Crc

theorem idLine_eq (f : List UInt8) (n : Nat) : idLine f n = some (Spec.crc32 f + BitVec.ofNat 32 n) := by
  simp [idLine, compute_eq]

theorem idString_eq (f n : List UInt8) : idString f n = some (Spec.crc32 f + Spec.crc32 n) := by
  simp [idString, compute_eq]

theorem add_left_inj32 {x y z : BitVec 32} (h : x + y = x + z) : y = z := by
  have := congrArg (fun w => w - x) h
  simpa [BitVec.add_comm x] using this

/-- Bytes of a text. -/
def bytes (s : String) : List UInt8 := s.toList.map fun c => UInt8.ofNat c.toNat

end Scalopus.Crc

namespace Scalopus.C26

open Crc

/-- The full property C26: in one file, two tracepoints on different lines that have different names have different ids. -/
def LinesDiffer : Prop := ∀ s₁ s₂ : Site, s₁.file = s₂.file → s₁.line ≠ s₂.line → s₁.line < 2 ^ 32 → s₂.line < 2 ^ 32 →
  s₁.kind.registered ≠ s₂.kind.registered → s₁.id ≠ s₂.id

/-- Every tracepoint has an id. -/
theorem id_exists (s : Site) : s.id.isSome = true := by
  unfold Site.id
  split <;> simp [idLine_eq, idString_eq]

/-- **C26, partial: scopes.** Two scoped tracepoints on different lines of one file have different ids, whatever their names are. -/
theorem scope_lines_differ_partial (s₁ s₂ : Site) (hf : s₁.file = s₂.file) (hl : s₁.line ≠ s₂.line) (h₁ : s₁.line < 2 ^ 32)
    (h₂ : s₂.line < 2 ^ 32) (n₁ n₂ : List UInt8) (hk₁ : s₁.kind = .scope n₁) (hk₂ : s₂.kind = .scope n₂) : s₁.id ≠ s₂.id := by
  intro h
  unfold Site.id at h
  rw [hk₁, hk₂] at h
  simp only [idLine_eq, Option.some.injEq, hf] at h
  have h' := add_left_inj32 h
  have := congrArg BitVec.toNat h'
  simp only [BitVec.toNat_ofNat] at this
  rw [Nat.mod_eq_of_lt h₁, Nat.mod_eq_of_lt h₂] at this
  exact hl this

/-- **C26, partial: named tracepoints.** Two marks, counters or explicit scopes of one file have different ids if the names they register differ
    only within four consecutive bytes. -/
theorem close_names_differ_partial (s₁ s₂ : Site) (hf : s₁.file = s₂.file) (hk₁ : ∀ n, s₁.kind ≠ .scope n) (hk₂ : ∀ n, s₂.kind ≠ .scope n)
    (pre post : List UInt8) (b₀ b₁ b₂ b₃ c₀ c₁ c₂ c₃ : UInt8) (hn₁ : s₁.kind.registered = pre ++ [b₀, b₁, b₂, b₃] ++ post)
    (hn₂ : s₂.kind.registered = pre ++ [c₀, c₁, c₂, c₃] ++ post) (hd : s₁.kind.registered ≠ s₂.kind.registered) : s₁.id ≠ s₂.id := by
  have e : ∀ s : Site, (∀ n, s.kind ≠ .scope n) → s.id = idString s.file s.kind.registered := by
    intro s hs
    unfold Site.id
    split
    · rename_i n hn; exact absurd hn (hs n)
    · rfl
  rw [e _ hk₁, e _ hk₂, idString_eq, idString_eq, hf]
  intro h
  simp only [Option.some.injEq] at h
  have h' := add_left_inj32 h
  rw [hn₁, hn₂] at h'
  have := crc32_window _ _ _ _ _ _ _ _ _ _ h'
  apply hd
  rw [hn₁, hn₂, this]

/-- **C26, pairing.** In one file, the start and the end of an explicitly delimited scope with the same name have the same id, on any lines. -/
theorem start_end_same (f n : List UInt8) (l₁ l₂ : Nat) : (Site.mk f l₁ (.start n)).id = (Site.mk f l₂ (.finish n)).id := rfl

/-- **C26 is violated** (1): an id made from a line number and one made from a name can be the same. In any file, the mark "ganap" has the id of the
    scope on line 470. -/
theorem line_and_name_collide : ¬ LinesDiffer := by
  intro h
  refine h ⟨bytes "main.cpp", 470, .scope (bytes "work")⟩ ⟨bytes "main.cpp", 10, .mark (bytes "ganap")⟩ rfl (by decide) (by decide) (by decide)
    (by decide) ?_
  simp only [Site.id, idLine_eq, idString_eq, Macro.registered, Option.some.injEq]
  decide +kernel

/-- **C26 is violated** (2): two names in one file can have the same id. -/
theorem names_collide (f : List UInt8) (l₁ l₂ : Nat) :
    (Site.mk f l₁ (.mark (bytes "plumless"))).id = (Site.mk f l₂ (.mark (bytes "buckeroo"))).id := by
  have e : Spec.crc32 (bytes "plumless") = Spec.crc32 (bytes "buckeroo") := by decide +kernel
  simp only [Site.id, idString_eq, Macro.registered, e]

example : (Site.mk (bytes "a.cpp") 3 (.scope (bytes "x"))).id ≠ (Site.mk (bytes "a.cpp") 4 (.scope (bytes "x"))).id :=
  scope_lines_differ_partial _ _ rfl (by decide) (by decide) (by decide) _ _ rfl rfl

example : (Site.mk (bytes "a.cpp") 3 (.mark (bytes "loop1"))).id ≠ (Site.mk (bytes "a.cpp") 4 (.mark (bytes "loop2"))).id :=
  close_names_differ_partial _ _ rfl (by simp) (by simp) (bytes "l") [] 111 111 112 49 111 111 112 50 (by decide) (by decide) (by decide)

end Scalopus.C26

namespace Scalopus.C28

open Crc

/-- The full property C28: tracepoints in different files have different ids. -/
def FilesDiffer : Prop := ∀ s₁ s₂ : Site, s₁.file ≠ s₂.file → s₁.id ≠ s₂.id

/-- **C28, partial (1).** Scoped tracepoints of two files whose checksums are further apart (in both directions, modulo 2^32) than the files have
    lines have different ids. -/
theorem far_checksums_differ_partial (f₁ f₂ n₁ n₂ : List UInt8) (l₁ l₂ n : Nat) (h₁ : l₁ < n) (h₂ : l₂ < n)
    (hd₁ : n ≤ (Spec.crc32 f₁ - Spec.crc32 f₂).toNat) (hd₂ : n ≤ (Spec.crc32 f₂ - Spec.crc32 f₁).toNat) :
    (Site.mk f₁ l₁ (.scope n₁)).id ≠ (Site.mk f₂ l₂ (.scope n₂)).id := by
  simp only [Site.id, idLine_eq, ne_eq, Option.some.injEq]
  intro h
  have h3 := congrArg BitVec.toNat h
  simp only [BitVec.toNat_add, BitVec.toNat_ofNat] at h3
  simp only [BitVec.toNat_sub] at hd₁ hd₂
  have := (Spec.crc32 f₁).isLt
  have := (Spec.crc32 f₂).isLt
  omega

/-- **C28, partial (2).** Tracepoints on the same line of two files whose names differ only within four consecutive bytes have different ids. -/
theorem close_files_differ_partial (pre post n₁ n₂ : List UInt8) (b₀ b₁ b₂ b₃ c₀ c₁ c₂ c₃ : UInt8) (l : Nat)
    (hd : [b₀, b₁, b₂, b₃] ≠ [c₀, c₁, c₂, c₃]) :
    (Site.mk (pre ++ [b₀, b₁, b₂, b₃] ++ post) l (.scope n₁)).id ≠ (Site.mk (pre ++ [c₀, c₁, c₂, c₃] ++ post) l (.scope n₂)).id := by
  simp only [Site.id, idLine_eq, ne_eq, Option.some.injEq]
  intro h
  have h' : Spec.crc32 (pre ++ [b₀, b₁, b₂, b₃] ++ post) = Spec.crc32 (pre ++ [c₀, c₁, c₂, c₃] ++ post) := by
    have := congrArg (fun w => w - BitVec.ofNat 32 l) h
    simpa using this
  exact hd (crc32_window _ _ _ _ _ _ _ _ _ _ h')

/-- **C28 is violated**: scopes on the same line of the files "plumless.cpp" and "buckeroo.cpp" have the same id. -/
theorem files_collide : ¬ FilesDiffer := by
  intro h
  refine h ⟨bytes "plumless.cpp", 12, .scope (bytes "a")⟩ ⟨bytes "buckeroo.cpp", 12, .scope (bytes "b")⟩ (by decide) ?_
  have e : Spec.crc32 (bytes "plumless.cpp") = Spec.crc32 (bytes "buckeroo.cpp") := by decide +kernel
  simp only [Site.id, idLine_eq, e]

example : (Site.mk (bytes "src/one.cpp") 7 (.scope [])).id ≠ (Site.mk (bytes "src/two.cpp") 7 (.scope [])).id := by
  have e₁ : bytes "src/one.cpp" = bytes "src/" ++ [111, 110, 101, 46] ++ bytes "cpp" := by decide
  have e₂ : bytes "src/two.cpp" = bytes "src/" ++ [116, 119, 111, 46] ++ bytes "cpp" := by decide
  rw [e₁, e₂]
  exact close_files_differ_partial _ _ [] [] _ _ _ _ _ _ _ _ 7 (by decide)

/-- 1000 lines fit between the checksums of these two files. -/
example : 1000 ≤ (Spec.crc32 (bytes "one.cpp") - Spec.crc32 (bytes "two.cpp")).toNat ∧
    1000 ≤ (Spec.crc32 (bytes "two.cpp") - Spec.crc32 (bytes "one.cpp")).toNat := by decide +kernel

end Scalopus.C28
