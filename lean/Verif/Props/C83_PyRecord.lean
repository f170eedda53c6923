import Verif.Model.PyRecord
import Verif.Proofs.JsonText

/-!
# C83: the command `record`
-/

namespace Scalopus.C83

open JsonText PyRecord

theorem hexVal_hexDigit : ∀ n, n < 16 → hexVal (hexDigit n) = some n := by decide

theorem u4_val (n : Nat) (h : n < 65536) : n / 4096 * 4096 + n / 256 % 16 * 256 + n / 16 % 16 * 16 + n % 16 = n := by omega

/-- A character that is written as one escape. -/
theorem readStr_u4 (n : Nat) (s : Text) (h : n < 65536) (hs : ¬ (0xD800 ≤ n ∧ n ≤ 0xDFFF)) :
    readStr (u4 n ++ s) = (readStr s).bind fun x => some (Char.ofNat n :: x.1, x.2) := by
  simp only [u4, List.cons_append, List.nil_append]
  rw [readStr, hexVal_hexDigit _ (by omega), hexVal_hexDigit _ (by omega), hexVal_hexDigit _ (by omega), hexVal_hexDigit _ (by omega)]
  simp only [bind, Option.bind, u4_val n h]
  rw [if_neg hs]

/-- A character that is written as a surrogate pair. -/
theorem readStr_pair (n m : Nat) (s : Text) (h1 : 0xD800 ≤ n) (h2 : n ≤ 0xDBFF) (h3 : 0xDC00 ≤ m) (h4 : m ≤ 0xDFFF) :
    readStr (u4 n ++ (u4 m ++ s)) = (readStr s).bind fun x => some (Char.ofNat (0x10000 + (n - 0xD800) * 0x400 + (m - 0xDC00)) :: x.1, x.2) := by
  simp only [u4, List.cons_append, List.nil_append]
  rw [readStr, hexVal_hexDigit _ (by omega), hexVal_hexDigit _ (by omega), hexVal_hexDigit _ (by omega), hexVal_hexDigit _ (by omega)]
  simp only [bind, Option.bind, u4_val n (by omega)]
  rw [if_pos ⟨h1, by omega⟩, hexVal_hexDigit _ (by omega), hexVal_hexDigit _ (by omega), hexVal_hexDigit _ (by omega), hexVal_hexDigit _ (by omega)]
  simp only [u4_val m (by omega)]
  rw [if_pos ⟨h2, h3, h4⟩]

theorem char_bound (c : Char) : c.toNat < 0x110000 ∧ ¬ (0xD800 ≤ c.toNat ∧ c.toNat ≤ 0xDFFF) := by
  have := c.valid
  simp only [UInt32.isValidChar, Nat.isValidChar] at this
  have e : c.val.toNat = c.toNat := rfl
  rw [e] at this
  omega

theorem readStr_pyEscape (c : Char) (s : Text) : readStr (pyEscape c ++ s) = (readStr s).bind fun x => some (c :: x.1, x.2) := by
  unfold pyEscape
  by_cases h1 : c = '"'
  · subst h1; simp [readStr]
  by_cases h2 : c = '\\'
  · subst h2; simp [readStr]
  by_cases h3 : c = '\n'
  · subst h3; simp [readStr]
  by_cases h4 : c = '\r'
  · subst h4; simp [readStr]
  by_cases h5 : c = '\t'
  · subst h5; simp [readStr]
  by_cases h6 : c.toNat = 8
  · have : c = Char.ofNat 8 := by rw [← h6, Char.ofNat_toNat]
    subst this; simp [readStr]
  by_cases h7 : c.toNat = 12
  · have : c = Char.ofNat 12 := by rw [← h7, Char.ofNat_toNat]
    subst this; simp [readStr]
  rw [if_neg h1, if_neg h2, if_neg h3, if_neg h4, if_neg h5, if_neg h6, if_neg h7]
  by_cases h8 : 32 ≤ c.toNat ∧ c.toNat ≤ 126
  · rw [if_pos h8]; exact readStr_plain c s h1 h2 (by omega)
  rw [if_neg h8]
  obtain ⟨hb, hs⟩ := char_bound c
  by_cases h9 : c.toNat < 0x10000
  · rw [if_pos h9, readStr_u4 _ _ h9 hs, Char.ofNat_toNat]
  · rw [if_neg h9, List.append_assoc, readStr_pair _ _ _ (by omega) (by omega) (by omega) (by omega)]
    have e : 0x10000 + (0xD800 + (c.toNat - 0x10000) / 0x400 - 0xD800) * 0x400 + (0xDC00 + (c.toNat - 0x10000) % 0x400 - 0xDC00) = c.toNat := by omega
    rw [e, Char.ofNat_toNat]

theorem readStr_pyQuote (t r : Text) : readStr (t.flatMap pyEscape ++ '"' :: r) = some (t, r) := by
  induction t with
  | nil => simp [readStr]
  | cons c t ih => rw [List.flatMap_cons, List.append_assoc, readStr_pyEscape, ih]; rfl

theorem readable_str (t : Text) : Readable (.str (some t)) (pyQuote t) := by
  refine ⟨⟨'"', t.flatMap pyEscape ++ ['"'], rfl, by decide, by decide, by decide⟩, 1, by simp [pyQuote]; omega, ?_⟩
  intro fuel hf w hw rest _
  obtain ⟨f, rfl⟩ : ∃ f, fuel = f + 1 := ⟨fuel - 1, by omega⟩
  rw [readValue, List.append_assoc]
  simp only [pyQuote, List.cons_append, List.append_assoc, List.nil_append]
  rw [skipWs_ws_cons w _ _ hw (by decide)]
  simp only
  rw [readStr_pyQuote]
  rfl

theorem members_readable (l : List (Str × J)) (ts : List Text)
    (h : List.Forall₂ (fun m t => ∃ k u, m.1 = some k ∧ t = pyQuote k ++ ':' :: ' ' :: u ∧ Readable m.2 u) l ts) (hne : l ≠ []) :
    ∃ n, n ≤ 2 * (sepBy [',', ' '] ts).length + 1 ∧ ∀ fuel, n ≤ fuel → ∀ w, w.all isWs = true → ∀ rest,
      readMembers fuel (w ++ sepBy [',', ' '] ts ++ '}' :: rest) = some (l, rest) := by
  induction h with
  | nil => exact absurd rfl hne
  | @cons m t l ts hj hl ih =>
    obtain ⟨k, u, hk, rfl, _, n, hn, hr⟩ := hj
    obtain ⟨m1, m2⟩ := m
    simp only at hk hr
    subst hk
    cases hl with
    | nil =>
      refine ⟨n + 1, by simp [sepBy]; omega, ?_⟩
      intro fuel hf w hw rest
      obtain ⟨f, rfl⟩ : ∃ f, fuel = f + 1 := ⟨fuel - 1, by omega⟩
      rw [readMembers, sepBy]
      simp only [pyQuote, List.cons_append, List.append_assoc, List.nil_append]
      rw [skipWs_ws_cons w _ _ hw (by decide)]
      simp only
      rw [readStr_pyQuote]
      simp only [Option.bind_some]
      rw [skipWs_cons _ _ (by decide)]
      simp only
      have := hr f (by omega) [' '] (by decide) ('}' :: rest) (ends_of (by decide))
      simp only [List.cons_append, List.nil_append] at this
      rw [this]
      simp only [Option.bind_some]
      rw [skipWs_cons _ _ (by decide)]
      simp only
    | @cons j' t' l' ts' hj' hl' =>
      obtain ⟨m, hm, ih⟩ := ih (by simp)
      refine ⟨n + m + 1, by simp [sepBy] at hm ⊢; omega, ?_⟩
      intro fuel hf w hw rest
      obtain ⟨f, rfl⟩ : ∃ f, fuel = f + 1 := ⟨fuel - 1, by omega⟩
      have e : w ++ sepBy [',', ' '] ((pyQuote k ++ ':' :: ' ' :: u) :: t' :: ts') ++ '}' :: rest =
          w ++ '"' :: (k.flatMap pyEscape ++ '"' :: ':' :: ([' '] ++ u ++ (',' :: ([' '] ++ sepBy [',', ' '] (t' :: ts') ++ '}' :: rest)))) := by
        rw [sepBy] <;> simp [pyQuote]
      rw [readMembers, e, skipWs_ws_cons w _ _ hw (by decide)]
      simp only
      rw [readStr_pyQuote]
      simp only [Option.bind_some]
      rw [skipWs_cons _ _ (by decide)]
      simp only
      rw [hr f (by omega) [' '] (by decide) _ (ends_of (by decide))]
      simp only [Option.bind_some]
      rw [skipWs_cons _ _ (by decide)]
      simp only
      rw [ih f (by omega) [' '] (by decide) rest]
      rfl

theorem dumpsAll_of (l : List J) (ts : List Text) (h : List.Forall₂ (fun j t => dumps j = some t) l ts) : dumpsAll l = some ts := by
  induction h with
  | nil => rfl
  | cons hj _ ih => rw [dumpsAll, hj, ih]; rfl

/-- Text written by Python is read back. -/
theorem readable_of_clean (j : J) (h : Clean j) : ∃ t, dumps j = some t ∧ Readable j t := by
  induction h with
  | null => obtain ⟨t, h1, h2⟩ := written_of_clean .null .null; exact ⟨t, by rw [← h1]; rfl, h2⟩
  | bool b => obtain ⟨t, h1, h2⟩ := written_of_clean (.bool b) (.bool b); exact ⟨t, by rw [← h1]; cases b <;> rfl, h2⟩
  | num t h1 h2 => exact ⟨t, rfl, (written_num t h1 h2).2⟩
  | str t => exact ⟨pyQuote t, rfl, readable_str t⟩
  | arr l _ ih =>
    have : ∃ ts, List.Forall₂ (fun j t => dumps j = some t ∧ Readable j t) l ts := by
      induction l with
      | nil => exact ⟨[], .nil⟩
      | cons j l ihl =>
        obtain ⟨ts, hts⟩ := ihl (fun x hx => ‹∀ j ∈ _, Clean j› x (by simp [hx])) (fun x hx => ih x (by simp [hx]))
        obtain ⟨t, ht⟩ := ih j (by simp)
        exact ⟨t :: ts, .cons ht hts⟩
    obtain ⟨ts, hts⟩ := this
    obtain ⟨n, hn, hr⟩ := array_readable [] [' '] [] rfl (by decide) rfl l ts (hts.imp fun _ _ h => h.2)
    refine ⟨'[' :: sepBy [',', ' '] ts ++ [']'], ?_, ⟨'[', _, rfl, by decide, by decide, by decide⟩, n, ?_, ?_⟩
    · rw [dumps, dumpsAll_of l ts (hts.imp fun _ _ h => h.1)]; rfl
    · simp at hn ⊢; omega
    · simpa using hr
  | obj l hk _ ih =>
    have : ∃ ts, dumpsMembers l = some ts ∧ List.Forall₂ (fun m t => ∃ k u, m.1 = some k ∧ t = pyQuote k ++ ':' :: ' ' :: u ∧ Readable m.2 u) l ts := by
      induction l with
      | nil => exact ⟨[], rfl, .nil⟩
      | cons m l ihl =>
        obtain ⟨ts, hd, hts⟩ := ihl (fun x hx => hk x (by simp [hx])) (fun x hx => ‹∀ m ∈ _, Clean m.2› x (by simp [hx])) (fun x hx => ih x (by simp [hx]))
        obtain ⟨t, ht1, ht2⟩ := ih m (by simp)
        obtain ⟨k, hkk⟩ := Option.isSome_iff_exists.mp (hk m (by simp))
        obtain ⟨m1, m2⟩ := m
        simp only at hkk ht1 ht2
        subst hkk
        refine ⟨(pyQuote k ++ ':' :: ' ' :: t) :: ts, ?_, .cons ⟨k, t, rfl, rfl, ht2⟩ hts⟩
        rw [dumpsMembers, ht1, hd]
        rfl
    obtain ⟨ts, hd, hts⟩ := this
    refine ⟨'{' :: sepBy [',', ' '] ts ++ ['}'], ?_, ⟨'{', _, rfl, by decide, by decide, by decide⟩, ?_⟩
    · rw [dumps, hd]; rfl
    · by_cases hne : l = []
      · subst hne
        cases hts
        refine ⟨1, by simp [sepBy], ?_⟩
        intro fuel hf w hw rest _
        obtain ⟨f, rfl⟩ : ∃ f, fuel = f + 1 := ⟨fuel - 1, by omega⟩
        rw [readValue]
        simp only [sepBy, List.cons_append, List.append_nil, List.append_assoc, List.nil_append]
        rw [skipWs_ws_cons w _ _ hw (by decide)]
        simp only
        rw [skipWs_cons _ _ (by decide)]
        simp only
      · obtain ⟨n, hn, hr⟩ := members_readable l ts hts hne
        refine ⟨n + 1, by simp; omega, ?_⟩
        intro fuel hf w hw rest _
        obtain ⟨f, rfl⟩ : ∃ f, fuel = f + 1 := ⟨fuel - 1, by omega⟩
        rw [readValue]
        have e : w ++ ('{' :: sepBy [',', ' '] ts ++ ['}']) ++ rest = w ++ '{' :: (sepBy [',', ' '] ts ++ '}' :: rest) := by simp
        rw [e, skipWs_ws_cons w _ _ hw (by decide)]
        simp only
        have hst : ∃ r, sepBy [',', ' '] ts = '"' :: r := by
          cases hts with
          | nil => exact absurd rfl hne
          | @cons _ _ _ ts' hj hl =>
            obtain ⟨k, u, _, rfl, _⟩ := hj
            cases ts' with
            | nil => exact ⟨_, rfl⟩
            | cons t' ts' =>
              refine ⟨k.flatMap pyEscape ++ '"' :: (':' :: ' ' :: u ++ [',', ' '] ++ sepBy [',', ' '] (t' :: ts')), ?_⟩
              rw [sepBy] <;> simp [pyQuote]
        obtain ⟨r, hr'⟩ := hst
        have e2 : skipWs (sepBy [',', ' '] ts ++ '}' :: rest) = sepBy [',', ' '] ts ++ '}' :: rest := by
          rw [hr', List.cons_append, skipWs_cons _ _ (by decide)]
        rw [e2]
        have := hr f (by omega) [] rfl rest
        rw [List.nil_append] at this
        split
        · rename_i heq
          rw [hr'] at heq
          simp at heq
        · rw [this]; rfl

/-- **C83, partial.** If both sources give their events, the command prints a JSON array of exactly the events of the native source followed by those of the general source.
    Missing: sources that fail (`runtime_error_loses_all`, `other_error_unfinished`). -/
theorem printed_partial (a b : List J) (ha : ∀ j ∈ a, Clean j) (hb : ∀ j ∈ b, Clean j) :
    (record (.events a) (.events b)).normal = true ∧ read (record (.events a) (.events b)).text = some (.arr (a ++ b)) := by
  have : ∃ ts, List.Forall₂ (fun j t => dumps j = some t ∧ Readable j t) (a ++ b) ts := by
    have h : ∀ j ∈ a ++ b, Clean j := fun j hj => (List.mem_append.mp hj).elim (ha j) (hb j)
    generalize a ++ b = l at h
    induction l with
    | nil => exact ⟨[], .nil⟩
    | cons j l ih =>
      obtain ⟨t, ht⟩ := readable_of_clean j (h j (by simp))
      obtain ⟨ts, hts⟩ := ih (fun x hx => h x (by simp [hx]))
      exact ⟨t :: ts, .cons ht hts⟩
  obtain ⟨ts, hts⟩ := this
  obtain ⟨n, hn, hr⟩ := array_readable ['\n'] ['\n'] [] (by decide) (by decide) rfl (a ++ b) ts (hts.imp fun _ _ h => h.2)
  simp only [record, dumpsAll_of _ ts (hts.imp fun _ _ h => h.1), true_and]
  have := read_of _ _ n hr [] [] rfl rfl (by simp at hn ⊢; omega)
  simpa using this

/-- An example: an event with a name outside of ASCII. -/
example := printed_partial [.obj [(some ['n', 'a', 'm', 'e'], .str (some ['é', '😀', '\\']))]] [.num ['1']] (by
  simp only [List.mem_cons, List.not_mem_nil, or_false, forall_eq]
  apply Clean.obj <;> simp only [List.mem_cons, List.not_mem_nil, or_false, forall_eq, Option.isSome_some]
  exact .str _) (by
  simp only [List.mem_cons, List.not_mem_nil, or_false, forall_eq]
  exact .num _ (by decide) (by decide))

example : pyEscape '😀' = "\\ud83d\\ude00".toList := by decide +kernel

/-- Everything outside of printable ASCII is escaped, whatever is printed. -/
theorem ascii (t : Text) : ∀ c ∈ pyQuote t, 32 ≤ c.toNat ∧ c.toNat ≤ 126 := by
  have hd : ∀ n, n < 16 → 32 ≤ (hexDigit n).toNat ∧ (hexDigit n).toNat ≤ 126 := by decide
  have hu : ∀ n, n < 65536 → ∀ c ∈ u4 n, 32 ≤ c.toNat ∧ c.toNat ≤ 126 := by
    intro n hn c hc
    simp only [u4, List.mem_cons, List.not_mem_nil, or_false] at hc
    rcases hc with rfl | rfl | rfl | rfl | rfl | rfl
    · decide
    · decide
    all_goals exact hd _ (by omega)
  intro c hc
  simp only [pyQuote, List.cons_append, List.mem_cons, List.mem_append, List.mem_flatMap, List.not_mem_nil, or_false] at hc
  rcases hc with rfl | ⟨x, _, hx⟩ | rfl
  · decide
  · obtain ⟨hb, _⟩ := char_bound x
    unfold pyEscape at hx
    by_cases h9 : 32 ≤ x.toNat ∧ x.toNat ≤ 126
    · repeat' split at hx
      all_goals first
        | (simp only [List.mem_cons, List.not_mem_nil, or_false] at hx; rcases hx with rfl | rfl <;> decide)
        | (simp only [List.mem_cons, List.not_mem_nil, or_false] at hx; subst hx; exact h9)
        | omega
    · repeat' split at hx
      all_goals first
        | (simp only [List.mem_cons, List.not_mem_nil, or_false] at hx; rcases hx with rfl | rfl <;> decide)
        | omega
        | exact hu _ (by omega) c hx
        | (rcases List.mem_append.mp hx with hx | hx
           · exact hu _ (by omega) c hx
           · exact hu _ (by omega) c hx)
  · decide

/-- **C83** in full: what is printed is a JSON array, with all events of the sources that gave some. -/
def AllPrinted : Prop := ∀ native general : Finish, (∀ a, native = .events a → ∀ j ∈ a, Clean j) → (∀ b, general = .events b → ∀ j ∈ b, Clean j) →
  ∃ l, read (record native general).text = some (.arr l) ∧ (∀ a, native = .events a → ∀ j ∈ a, j ∈ l) ∧ (∀ b, general = .events b → ∀ j ∈ b, j ∈ l)

/-- **C83 fails:** if one source fails with a RuntimeError, the events of the other one are lost without a notice; the command ends normally. -/
theorem runtime_error_loses_all (x : Finish) (hx : x ≠ .otherError) :
    read (record x .runtimeError).text = some (.arr []) ∧ (record x .runtimeError).normal = true ∧
      read (record .runtimeError x).text = some (.arr []) ∧ (record .runtimeError x).normal = true := by
  have e : read ['[', '\n', ']'] = some (.arr []) := (printed_partial [] [] (by simp) (by simp)).2
  cases x with
  | events l => exact ⟨e, rfl, e, rfl⟩
  | runtimeError => exact ⟨e, rfl, e, rfl⟩
  | otherError => exact absurd rfl hx

/-- **C83 fails:** if a source fails with another exception, the command fails, and what was printed is not JSON. -/
theorem other_error_unfinished (x : Finish) (hx : x ≠ .runtimeError) :
    read (record x .otherError).text = none ∧ (record x .otherError).normal = false ∧ read (record .otherError x).text = none ∧ (record .otherError x).normal = false := by
  have e : read ['[', '\n'] = none := by decide +kernel
  cases x with
  | events l => exact ⟨e, rfl, e, rfl⟩
  | runtimeError => exact absurd rfl hx
  | otherError => exact ⟨e, rfl, e, rfl⟩

/-- The same if there is an event that Python cannot represent. -/
theorem unprintable_unfinished (a b : List J) (j : J) (hj : j ∈ a ++ b) (hd : dumps j = none) :
    read (record (.events a) (.events b)).text = none ∧ (record (.events a) (.events b)).normal = false := by
  have e : read ['[', '\n'] = none := by decide +kernel
  have h : ∀ l : List J, j ∈ l → dumpsAll l = none := by
    intro l
    induction l with
    | nil => simp
    | cons x l ih =>
      intro hm
      rw [dumpsAll]
      rcases List.mem_cons.mp hm with rfl | hm
      · rw [hd]; rfl
      · rw [ih hm]; cases dumps x <;> rfl
  have h1 := h _ hj
  have h2 : record (.events a) (.events b) = ⟨['[', '\n'], false⟩ := by
    simp only [record, h1]
  rw [h2]
  exact ⟨e, rfl⟩

example := unprintable_unfinished [.null] [.str none] (.str none) (by simp) rfl

/-- A value with a string that is not UTF-8 in it, as a name of a member or as a value, at any depth. -/
inductive Bad : J → Prop where
  | str : Bad (.str none)
  | arr {l : List J} {j : J} : j ∈ l → Bad j → Bad (.arr l)
  | key {l : List (Str × J)} {j : J} : (none, j) ∈ l → Bad (.obj l)
  | value {l : List (Str × J)} {k : Str} {j : J} : (k, j) ∈ l → Bad j → Bad (.obj l)

theorem convertibleAll_iff (l : List J) : convertibleAll l = true ↔ ∀ j ∈ l, convertible j = true := by
  induction l with
  | nil => simp [convertibleAll]
  | cons j l ih => simp [convertibleAll, ih]

theorem convertibleMembers_iff (l : List (Str × J)) : convertibleMembers l = true ↔ ∀ m ∈ l, m.1.isSome = true ∧ convertible m.2 = true := by
  induction l with
  | nil => simp [convertibleMembers]
  | cons m l ih => obtain ⟨k, j⟩ := m; simp [convertibleMembers, ih]

/-- Strings that are not UTF-8, and nothing else, keep events from being converted. -/
theorem clean_convertible {j : J} (h : Clean j) : convertible j = true := by
  induction h with
  | arr l _ ih => rw [convertible, convertibleAll_iff]; exact ih
  | obj l hk _ ih => rw [convertible, convertibleMembers_iff]; exact fun m hm => ⟨hk m hm, ih m hm⟩
  | _ => rfl

theorem bad_not_convertible {j : J} (h : Bad j) : convertible j = false := by
  induction h with
  | str => rfl
  | arr hm _ ih =>
    rw [convertible, ← Bool.not_eq_true, convertibleAll_iff]
    intro h
    rw [h _ hm] at ih; cases ih
  | key hm =>
    rw [convertible, ← Bool.not_eq_true, convertibleMembers_iff]
    intro h
    have := (h _ hm).1
    cases this
  | value hm _ ih =>
    rw [convertible, ← Bool.not_eq_true, convertibleMembers_iff]
    intro h
    rw [(h _ hm).2] at ih; cases ih

/-- **C83 fails: one name that is not UTF-8**, in any event of any of the sources: with pybind11 before 2.8 the command prints an empty array and ends normally, whatever else was recorded; with a later one it fails
    and what it printed is not JSON. -/
theorem bad_name_loses_all (a b : List J) (j : J) (hj : j ∈ a ++ b) (hb : Bad j) :
    read (record (finish .runtimeError a) (finish .runtimeError b)).text = some (.arr []) ∧ (record (finish .runtimeError a) (finish .runtimeError b)).normal = true ∧
      read (record (finish .otherError a) (finish .otherError b)).text = none ∧ (record (finish .otherError a) (finish .otherError b)).normal = false := by
  have hx : finish .runtimeError a ≠ .otherError ∧ finish .runtimeError b ≠ .otherError ∧ finish .otherError a ≠ .runtimeError ∧ finish .otherError b ≠ .runtimeError := by
    unfold finish
    refine ⟨?_, ?_, ?_, ?_⟩ <;> split <;> simp
  have hf : ∀ (l : List J) (e : Finish), j ∈ l → finish e l = e := by
    intro l e hl
    unfold finish
    rw [if_neg]
    rw [convertibleAll_iff]
    intro h
    have := h j hl
    rw [bad_not_convertible hb] at this; cases this
  rcases List.mem_append.1 hj with h | h
  · rw [hf a _ h, hf a _ h]
    exact ⟨(runtime_error_loses_all _ hx.2.1).2.2.1, (runtime_error_loses_all _ hx.2.1).2.2.2, (other_error_unfinished _ hx.2.2.2).2.2.1, (other_error_unfinished _ hx.2.2.2).2.2.2⟩
  · rw [hf b _ h, hf b _ h]
    exact ⟨(runtime_error_loses_all _ hx.1).1, (runtime_error_loses_all _ hx.1).2.1, (other_error_unfinished _ hx.2.2.1).1, (other_error_unfinished _ hx.2.2.1).2.1⟩

/-- Exactly when the events are printed: if there is no such name. -/
theorem printed_iff (e : Finish) (he : e = .runtimeError ∨ e = .otherError) (a b : List J) (h : ∀ j ∈ a ++ b, Clean j ∨ Bad j) :
    read (record (finish e a) (finish e b)).text = some (.arr (a ++ b)) ↔ ∀ j ∈ a ++ b, ¬ Bad j := by
  constructor
  · intro hr j hj hb
    have hl := bad_name_loses_all a b j hj hb
    rcases he with rfl | rfl
    · rw [hl.1] at hr
      simp only [Option.some.injEq, J.arr.injEq] at hr
      rw [← hr] at hj; cases hj
    · rw [hl.2.2.1] at hr; cases hr
  · intro hn
    have hc : ∀ j ∈ a ++ b, Clean j := fun j hj => (h j hj).resolve_right (hn j hj)
    have hf : ∀ l : List J, (∀ j ∈ l, Clean j) → finish e l = .events l := by
      intro l hl
      unfold finish
      rw [if_pos ((convertibleAll_iff l).2 fun j hj => clean_convertible (hl j hj))]
    have ha := fun j hj => hc j (List.mem_append_left b hj)
    have hb := fun j hj => hc j (List.mem_append_right a hj)
    rw [hf a ha, hf b hb]
    exact (printed_partial a b ha hb).2

/-- A thread whose name is the byte 0xFF, beside an event that could be printed. -/
example : Clean (.obj [(some "ph".toList, .str (some "B".toList))]) ∧ Bad (.obj [(some "args".toList, .obj [(some "name".toList, .str none)])]) :=
  ⟨.obj _ (by simp) (by simp; exact .str _), .value (List.mem_singleton.2 rfl) (.value (List.mem_singleton.2 rfl) .str)⟩

theorem not_AllPrinted : ¬ AllPrinted := by
  intro h
  obtain ⟨l, h1, h2, _⟩ := h (.events [.null]) .runtimeError (by
    intro a ha j hj
    cases ha
    simp only [List.mem_cons, List.not_mem_nil, or_false] at hj
    subst hj
    exact .null) (by intro b hb; cases hb)
  rw [(runtime_error_loses_all (.events [.null]) (by simp)).1] at h1
  have := h2 _ rfl .null (by simp)
  simp only [Option.some.injEq, J.arr.injEq] at h1
  rw [← h1] at this
  exact absurd this (by simp)

end Scalopus.C83
