import Verif.Spec.JsonText
import Mathlib.Data.List.Forall2

/-!
# Text written by `dump()` is read back
-/

namespace Scalopus.JsonText

theorem readStr_plain (c : Char) (s : Text) (h1 : c ≠ '"') (h2 : c ≠ '\\') (h3 : ¬ c.toNat < 32) :
    readStr (c :: s) = (readStr s).bind fun x => some (c :: x.1, x.2) := by
  rw [readStr]
  · rw [if_neg h3]; rfl
  · simpa using h1
  · intro a b x y z hc; exact absurd hc h2
  · intro a b hc; exact absurd hc h2

theorem hex_digits : ∀ n, n < 32 → hexVal (hexDigit (n / 16)) = some (n / 16) ∧ hexVal (hexDigit (n % 16)) = some (n % 16) := by decide

theorem readStr_escape (c : Char) (s : Text) : readStr (escape c ++ s) = (readStr s).bind fun x => some (c :: x.1, x.2) := by
  unfold escape
  by_cases h1 : c = '"'
  · subst h1; simp [readStr]
  by_cases h2 : c = '\\'
  · subst h2; simp [readStr]
  by_cases h3 : c = '\n'
  · subst h3; simp [readStr]
  by_cases h4 : c = '\r'
  · subst h4; simp [readStr]
  by_cases h5 : c = '\t'
  · subst h5; simp [readStr]
  by_cases h6 : c.toNat = 8
  · have : c = Char.ofNat 8 := by rw [← h6, Char.ofNat_toNat]
    subst this; simp [readStr]
  by_cases h7 : c.toNat = 12
  · have : c = Char.ofNat 12 := by rw [← h7, Char.ofNat_toNat]
    subst this; simp [readStr]
  by_cases h8 : c.toNat < 32
  · obtain ⟨e1, e2⟩ := hex_digits c.toNat h8
    rw [if_neg h1, if_neg h2, if_neg h3, if_neg h4, if_neg h5, if_neg h6, if_neg h7, if_pos h8]
    simp only [List.cons_append, List.nil_append, readStr]
    rw [e1, e2]
    have e0 : hexVal '0' = some 0 := by decide
    rw [e0]
    simp only [bind, Option.bind]
    have e3 : 0 * 4096 + 0 * 256 + c.toNat / 16 * 16 + c.toNat % 16 = c.toNat := by omega
    rw [e3, if_neg (by omega), Char.ofNat_toNat]
  · rw [if_neg h1, if_neg h2, if_neg h3, if_neg h4, if_neg h5, if_neg h6, if_neg h7, if_neg h8]
    exact readStr_plain c s h1 h2 h8

theorem readStr_quote (t r : Text) : readStr (t.flatMap escape ++ '"' :: r) = some (t, r) := by
  induction t with
  | nil => simp [readStr]
  | cons c t ih => rw [List.flatMap_cons, List.append_assoc, readStr_escape, ih]; rfl

theorem skipWs_ws (w s : Text) (h : w.all isWs = true) : skipWs (w ++ s) = skipWs s := by
  induction w with
  | nil => rfl
  | cons c w ih =>
    simp only [List.all_cons, Bool.and_eq_true] at h
    rw [List.cons_append, skipWs, if_pos h.1, ih h.2]

theorem skipWs_cons (c : Char) (s : Text) (h : isWs c = false) : skipWs (c :: s) = c :: s := by
  rw [skipWs, if_neg (by rw [h]; decide)]

theorem skipWs_ws_cons (w : Text) (c : Char) (s : Text) (hw : w.all isWs = true) (h : isWs c = false) : skipWs (w ++ c :: s) = c :: s := by
  rw [skipWs_ws w _ hw, skipWs_cons c s h]

/-- What may follow a value: not a character that continues a number. -/
def Ends (rest : Text) : Prop := ∀ c r, rest = c :: r → numChar c = false

/-- `t` is read as `j`. -/
def ReadsAs (t : Text) (j : J) (n : Nat) : Prop :=
  ∀ fuel, n ≤ fuel → ∀ w, w.all isWs = true → ∀ rest, Ends rest → readValue fuel (w ++ t ++ rest) = some (j, rest)

/-- The first character of a value. -/
def Starts (t : Text) : Prop := ∃ c r, t = c :: r ∧ isWs c = false ∧ c ≠ ']' ∧ c ≠ '}'

/-- `t` is read as `j`, at any place where a value may be. -/
def Readable (j : J) (t : Text) : Prop := Starts t ∧ ∃ n, n ≤ 2 * t.length ∧ ReadsAs t j n

def Written (j : J) (t : Text) : Prop := dump j = some t ∧ Starts t ∧ ∃ n, n ≤ 2 * t.length ∧ ReadsAs t j n

theorem written_num (t : Text) (h1 : numOk t = true) (h2 : t.all numChar = true) : Written (.num t) t := by
  have hne : t ≠ [] := by intro h; subst h; simp [numOk, digits1] at h1
  obtain ⟨c, r, rfl⟩ := List.exists_cons_of_ne_nil hne
  have hc : numChar c = true := by simp at h2; exact h2.1
  have hall : ∀ c, numChar c = true → isWs c = false ∧ c ≠ ']' ∧ c ≠ '}' ∧ c ≠ 'n' ∧ c ≠ 't' ∧ c ≠ 'f' ∧ c ≠ '"' ∧ c ≠ '[' ∧ c ≠ '{' := by
    intro c hc
    refine ⟨?_, ?_, ?_, ?_, ?_, ?_, ?_, ?_, ?_⟩
    · cases hw : isWs c with
      | false => rfl
      | true =>
        exfalso
        simp only [isWs, Bool.or_eq_true, decide_eq_true_eq] at hw
        rcases hw with ((rfl | rfl) | rfl) | rfl <;> exact absurd hc (by decide)
    all_goals (rintro rfl; exact absurd hc (by decide))
  obtain ⟨a1, a2, a3, a4, a5, a6, a7, a8, a9⟩ := hall c hc
  refine ⟨rfl, ⟨c, r, rfl, a1, a2, a3⟩, 1, by simp; omega, ?_⟩
  intro fuel hf w hw rest hr
  obtain ⟨f, rfl⟩ : ∃ f, fuel = f + 1 := ⟨fuel - 1, by omega⟩
  rw [readValue, List.append_assoc, List.cons_append, skipWs_ws_cons w c _ hw a1]
  have e1 : (c :: (r ++ rest)).takeWhile numChar = c :: r := by
    rw [← List.cons_append, List.takeWhile_append_of_pos (by simpa using h2)]
    cases rest with
    | nil => simp
    | cons x rest => rw [List.takeWhile_cons_of_neg (by rw [hr x rest rfl]; decide)]; simp
  have e2 : (c :: (r ++ rest)).dropWhile numChar = rest := by
    rw [← List.cons_append, List.dropWhile_append_of_pos (by simpa using h2)]
    cases rest with
    | nil => simp
    | cons x rest => rw [List.dropWhile_cons_of_neg (by rw [hr x rest rfl]; decide)]
  have e3 : readNum (c :: (r ++ rest)) = some (.num (c :: r), rest) := by
    unfold readNum
    simp only [e1, e2, h1, if_true]
  split <;> rename_i heq <;> simp only [List.cons.injEq] at heq
  · exact absurd heq.1 a4
  · exact absurd heq.1 a5
  · exact absurd heq.1 a6
  · exact absurd heq.1 a7
  · exact absurd heq.1 a8
  · exact absurd heq.1 a9
  · exact e3

theorem written_str (t : Text) : Written (.str (some t)) (quote t) := by
  refine ⟨rfl, ⟨'"', t.flatMap escape ++ ['"'], rfl, by decide, by decide, by decide⟩, 1, by simp [quote]; omega, ?_⟩
  intro fuel hf w hw rest _
  obtain ⟨f, rfl⟩ : ∃ f, fuel = f + 1 := ⟨fuel - 1, by omega⟩
  rw [readValue, List.append_assoc]
  simp only [quote, List.cons_append, List.append_assoc, List.nil_append]
  rw [skipWs_ws_cons w _ _ hw (by decide)]
  simp only
  rw [readStr_quote]
  rfl

theorem ends_of {c : Char} {s : Text} (h : numChar c = false) : Ends (c :: s) := by
  intro c' r e
  simp only [List.cons.injEq] at e
  rw [← e.1, h]

theorem ends_ws (w : Text) (hw : w.all isWs = true) (c : Char) (s : Text) (h : numChar c = false) : Ends (w ++ c :: s) := by
  cases w with
  | nil => exact ends_of h
  | cons x w =>
    simp only [List.all_cons, Bool.and_eq_true] at hw
    apply ends_of
    have := hw.1
    simp only [isWs, Bool.or_eq_true, decide_eq_true_eq] at this
    rcases this with ((rfl | rfl) | rfl) | rfl <;> decide

/-- Elements written with commas and white space between them are read. -/
theorem elems_readable (sw : Text) (hsw : sw.all isWs = true) (we : Text) (hwe : we.all isWs = true) (l : List J) (ts : List Text)
    (h : List.Forall₂ Readable l ts) (hne : l ≠ []) :
    ∃ n, n ≤ 2 * (sepBy (',' :: sw) ts).length + 1 ∧ ∀ fuel, n ≤ fuel → ∀ w, w.all isWs = true → ∀ rest,
      readElems fuel (w ++ sepBy (',' :: sw) ts ++ (we ++ ']' :: rest)) = some (l, rest) := by
  induction h with
  | nil => exact absurd rfl hne
  | @cons j t l ts hj hl ih =>
    obtain ⟨_, n, hn, hr⟩ := hj
    cases hl with
    | nil =>
      refine ⟨n + 1, by simp [sepBy]; omega, ?_⟩
      intro fuel hf w hw rest
      obtain ⟨f, rfl⟩ : ∃ f, fuel = f + 1 := ⟨fuel - 1, by omega⟩
      rw [readElems, sepBy, hr f (by omega) w hw _ (ends_ws we hwe _ _ (by decide))]
      simp only [Option.bind_some]
      rw [skipWs_ws_cons we _ _ hwe (by decide)]
      simp only
    | @cons j' t' l' ts' hj' hl' =>
      obtain ⟨m, hm, ih⟩ := ih (by simp)
      refine ⟨n + m + 1, by simp [sepBy] at hm ⊢; omega, ?_⟩
      intro fuel hf w hw rest
      obtain ⟨f, rfl⟩ : ∃ f, fuel = f + 1 := ⟨fuel - 1, by omega⟩
      have e : w ++ sepBy (',' :: sw) (t :: t' :: ts') ++ (we ++ ']' :: rest) =
          w ++ t ++ (',' :: (sw ++ sepBy (',' :: sw) (t' :: ts') ++ (we ++ ']' :: rest))) := by
        rw [sepBy]; simp
        simp
      rw [readElems, e, hr f (by omega) w hw _ (ends_of (by decide))]
      simp only [Option.bind_some]
      rw [skipWs_cons _ _ (by decide)]
      simp only
      rw [ih f (by omega) sw hsw rest]
      rfl

theorem members_read (l : List (Str × J)) (ts : List Text)
    (h : List.Forall₂ (fun m t => ∃ k u, m.1 = some k ∧ t = quote k ++ ':' :: u ∧ Written m.2 u) l ts) (hne : l ≠ []) :
    ∃ n, n ≤ 2 * (sepBy [','] ts).length + 1 ∧ ∀ fuel, n ≤ fuel → ∀ rest,
      readMembers fuel (sepBy [','] ts ++ '}' :: rest) = some (l, rest) := by
  induction h with
  | nil => exact absurd rfl hne
  | @cons m t l ts hj hl ih =>
    obtain ⟨k, u, hk, rfl, _, _, n, hn, hr⟩ := hj
    obtain ⟨m1, m2⟩ := m
    simp only at hk hr
    subst hk
    cases hl with
    | nil =>
      refine ⟨n + 1, by simp [sepBy]; omega, ?_⟩
      intro fuel hf rest
      obtain ⟨f, rfl⟩ : ∃ f, fuel = f + 1 := ⟨fuel - 1, by omega⟩
      rw [readMembers, sepBy]
      simp only [quote, List.cons_append, List.append_assoc, List.nil_append]
      rw [skipWs_cons _ _ (by decide)]
      simp only
      rw [readStr_quote]
      simp only [Option.bind_some]
      rw [skipWs_cons _ _ (by decide)]
      simp only
      have := hr f (by omega) [] rfl ('}' :: rest) (ends_of (by decide))
      rw [List.nil_append] at this
      rw [this]
      simp only [Option.bind_some]
      rw [skipWs_cons _ _ (by decide)]
      simp only
    | @cons j' t' l' ts' hj' hl' =>
      obtain ⟨m, hm, ih⟩ := ih (by simp)
      refine ⟨n + m + 1, by simp [sepBy] at hm ⊢; omega, ?_⟩
      intro fuel hf rest
      obtain ⟨f, rfl⟩ : ∃ f, fuel = f + 1 := ⟨fuel - 1, by omega⟩
      have e : sepBy [','] ((quote k ++ ':' :: u) :: t' :: ts') ++ '}' :: rest =
          '"' :: (k.flatMap escape ++ '"' :: ':' :: (u ++ (',' :: (sepBy [','] (t' :: ts') ++ '}' :: rest)))) := by
        rw [sepBy] <;> simp [quote]
      rw [readMembers, e, skipWs_cons _ _ (by decide)]
      simp only
      rw [readStr_quote]
      simp only [Option.bind_some]
      rw [skipWs_cons _ _ (by decide)]
      simp only
      have := hr f (by omega) [] rfl (',' :: (sepBy [','] (t' :: ts') ++ '}' :: rest)) (ends_of (by decide))
      rw [List.nil_append] at this
      rw [this]
      simp only [Option.bind_some]
      rw [skipWs_cons _ _ (by decide)]
      simp only
      rw [ih f (by omega) rest]
      rfl

theorem dumpAll_of (l : List J) (ts : List Text) (h : List.Forall₂ Written l ts) : dumpAll l = some ts := by
  induction h with
  | nil => rfl
  | cons hj _ ih => rw [dumpAll, hj.1, ih]; rfl

theorem sepBy_starts (sep : Text) (l : List J) (ts : List Text) (h : List.Forall₂ Readable l ts) (hne : l ≠ []) : Starts (sepBy sep ts) := by
  cases h with
  | nil => exact absurd rfl hne
  | cons hj hl =>
    obtain ⟨⟨c, r, rfl, hs⟩, _⟩ := hj
    cases hl with
    | nil => exact ⟨c, r, rfl, hs⟩
    | @cons _ t' _ ts' _ _ =>
      refine ⟨c, r ++ sep ++ sepBy sep (t' :: ts'), ?_, hs⟩
      rw [sepBy] <;> simp

/-- An array written with commas and white space between the elements and before the end is read. -/
theorem array_readable (w0 sw we : Text) (hw0 : w0.all isWs = true) (hsw : sw.all isWs = true) (hwe : we.all isWs = true) (l : List J) (ts : List Text)
    (h : List.Forall₂ Readable l ts) :
    ∃ n, n ≤ 2 * (sepBy (',' :: sw) ts).length + 4 ∧ ReadsAs ('[' :: w0 ++ sepBy (',' :: sw) ts ++ we ++ [']']) (.arr l) n := by
  by_cases hne : l = []
  · subst hne
    cases h
    refine ⟨1, by omega, ?_⟩
    intro fuel hf w hw rest _
    obtain ⟨f, rfl⟩ : ∃ f, fuel = f + 1 := ⟨fuel - 1, by omega⟩
    rw [readValue]
    simp only [sepBy, List.cons_append, List.append_nil, List.append_assoc, List.nil_append]
    rw [skipWs_ws_cons w _ _ hw (by decide)]
    simp only
    rw [← List.append_assoc, skipWs_ws_cons (w0 ++ we) _ _ (by simp [hw0, hwe]) (by decide)]
    simp only
  · obtain ⟨n, hn, hr⟩ := elems_readable sw hsw we hwe l ts h hne
    refine ⟨n + 1, by omega, ?_⟩
    intro fuel hf w hw rest _
    obtain ⟨f, rfl⟩ : ∃ f, fuel = f + 1 := ⟨fuel - 1, by omega⟩
    rw [readValue]
    have e : w ++ ('[' :: w0 ++ sepBy (',' :: sw) ts ++ we ++ [']']) ++ rest = w ++ '[' :: (w0 ++ sepBy (',' :: sw) ts ++ (we ++ ']' :: rest)) := by simp
    rw [e, skipWs_ws_cons w _ _ hw (by decide)]
    simp only
    obtain ⟨c, r, hc, h1, h2, h3⟩ := sepBy_starts (',' :: sw) l ts h hne
    have e2 : skipWs (w0 ++ sepBy (',' :: sw) ts ++ (we ++ ']' :: rest)) = [] ++ sepBy (',' :: sw) ts ++ (we ++ ']' :: rest) := by
      rw [hc, List.append_assoc, List.cons_append, skipWs_ws_cons w0 _ _ hw0 h1]
      simp
    rw [e2]
    have := hr f (by omega) [] rfl rest
    split
    · rename_i heq
      rw [hc] at heq
      simp only [List.nil_append, List.cons_append, List.cons.injEq] at heq
      exact absurd heq.1 h2
    · rw [this]; rfl

theorem array_read (w0 sw we : Text) (hw0 : w0.all isWs = true) (hsw : sw.all isWs = true) (hwe : we.all isWs = true) (l : List J) (ts : List Text)
    (h : List.Forall₂ Written l ts) :
    ∃ n, n ≤ 2 * (sepBy (',' :: sw) ts).length + 4 ∧ ReadsAs ('[' :: w0 ++ sepBy (',' :: sw) ts ++ we ++ [']']) (.arr l) n :=
  array_readable w0 sw we hw0 hsw hwe l ts (h.imp fun _ _ h => h.2)

theorem written_of_clean (j : J) (h : Clean j) : ∃ t, Written j t := by
  induction h with
  | null =>
    refine ⟨['n', 'u', 'l', 'l'], rfl, ⟨_, _, rfl, by decide, by decide, by decide⟩, 1, by decide, ?_⟩
    intro fuel hf w hw rest _
    obtain ⟨f, rfl⟩ : ∃ f, fuel = f + 1 := ⟨fuel - 1, by omega⟩
    rw [readValue, List.append_assoc]
    simp only [List.cons_append, List.nil_append]
    rw [skipWs_ws_cons w _ _ hw (by decide)]
    simp only
  | bool b =>
    cases b
    · refine ⟨['f', 'a', 'l', 's', 'e'], rfl, ⟨_, _, rfl, by decide, by decide, by decide⟩, 1, by decide, ?_⟩
      intro fuel hf w hw rest _
      obtain ⟨f, rfl⟩ : ∃ f, fuel = f + 1 := ⟨fuel - 1, by omega⟩
      rw [readValue, List.append_assoc]
      simp only [List.cons_append, List.nil_append]
      rw [skipWs_ws_cons w _ _ hw (by decide)]
      simp only
    · refine ⟨['t', 'r', 'u', 'e'], rfl, ⟨_, _, rfl, by decide, by decide, by decide⟩, 1, by decide, ?_⟩
      intro fuel hf w hw rest _
      obtain ⟨f, rfl⟩ : ∃ f, fuel = f + 1 := ⟨fuel - 1, by omega⟩
      rw [readValue, List.append_assoc]
      simp only [List.cons_append, List.nil_append]
      rw [skipWs_ws_cons w _ _ hw (by decide)]
      simp only
  | num t h1 h2 => exact ⟨t, written_num t h1 h2⟩
  | str t => exact ⟨quote t, written_str t⟩
  | arr l _ ih =>
    have : ∃ ts, List.Forall₂ Written l ts := by
      induction l with
      | nil => exact ⟨[], .nil⟩
      | cons j l ihl =>
        obtain ⟨ts, hts⟩ := ihl (fun x hx => ‹∀ j ∈ _, Clean j› x (by simp [hx])) (fun x hx => ih x (by simp [hx]))
        obtain ⟨t, ht⟩ := ih j (by simp)
        exact ⟨t :: ts, .cons ht hts⟩
    obtain ⟨ts, hts⟩ := this
    obtain ⟨n, hn, hr⟩ := array_read [] [] [] rfl rfl rfl l ts hts
    refine ⟨'[' :: sepBy [','] ts ++ [']'], ?_, ⟨'[', _, rfl, by decide, by decide, by decide⟩, n, ?_, ?_⟩
    · rw [dump, dumpAll_of l ts hts]; rfl
    · simp at hn ⊢; omega
    · simpa using hr
  | obj l hk _ ih =>
    have : ∃ ts, dumpMembers l = some ts ∧ List.Forall₂ (fun m t => ∃ k u, m.1 = some k ∧ t = quote k ++ ':' :: u ∧ Written m.2 u) l ts := by
      induction l with
      | nil => exact ⟨[], rfl, .nil⟩
      | cons m l ihl =>
        obtain ⟨ts, hd, hts⟩ := ihl (fun x hx => hk x (by simp [hx])) (fun x hx => ‹∀ m ∈ _, Clean m.2› x (by simp [hx])) (fun x hx => ih x (by simp [hx]))
        obtain ⟨t, ht⟩ := ih m (by simp)
        obtain ⟨k, hkk⟩ := Option.isSome_iff_exists.mp (hk m (by simp))
        obtain ⟨m1, m2⟩ := m
        simp only at hkk ht
        subst hkk
        refine ⟨(quote k ++ ':' :: t) :: ts, ?_, .cons ⟨k, t, rfl, rfl, ht⟩ hts⟩
        rw [dumpMembers, ht.1, hd]
        rfl
    obtain ⟨ts, hd, hts⟩ := this
    refine ⟨'{' :: sepBy [','] ts ++ ['}'], ?_, ⟨'{', _, rfl, by decide, by decide, by decide⟩, ?_⟩
    · rw [dump, hd]; rfl
    · by_cases hne : l = []
      · subst hne
        cases hts
        refine ⟨1, by simp [sepBy], ?_⟩
        intro fuel hf w hw rest _
        obtain ⟨f, rfl⟩ : ∃ f, fuel = f + 1 := ⟨fuel - 1, by omega⟩
        rw [readValue]
        simp only [sepBy, List.cons_append, List.append_nil, List.append_assoc, List.nil_append]
        rw [skipWs_ws_cons w _ _ hw (by decide)]
        simp only
        rw [skipWs_cons _ _ (by decide)]
        simp only
      · obtain ⟨n, hn, hr⟩ := members_read l ts hts hne
        refine ⟨n + 1, by simp; omega, ?_⟩
        intro fuel hf w hw rest _
        obtain ⟨f, rfl⟩ : ∃ f, fuel = f + 1 := ⟨fuel - 1, by omega⟩
        rw [readValue]
        have e : w ++ ('{' :: sepBy [','] ts ++ ['}']) ++ rest = w ++ '{' :: (sepBy [','] ts ++ '}' :: rest) := by simp
        rw [e, skipWs_ws_cons w _ _ hw (by decide)]
        simp only
        have hst : ∃ r, sepBy [','] ts = '"' :: r := by
          cases hts with
          | nil => exact absurd rfl hne
          | @cons _ _ _ ts' hj hl =>
            obtain ⟨k, u, _, rfl, _⟩ := hj
            cases ts' with
            | nil => exact ⟨_, rfl⟩
            | cons t' ts' =>
              refine ⟨k.flatMap escape ++ '"' :: (':' :: u ++ [','] ++ sepBy [','] (t' :: ts')), ?_⟩
              rw [sepBy] <;> simp [quote]
        obtain ⟨r, hr'⟩ := hst
        have e2 : skipWs (sepBy [','] ts ++ '}' :: rest) = sepBy [','] ts ++ '}' :: rest := by
          rw [hr', List.cons_append, skipWs_cons _ _ (by decide)]
        rw [e2]
        have := hr f (by omega) rest
        split
        · rename_i heq
          rw [hr'] at heq
          simp at heq
        · rw [this]; rfl

/-- A whole text. -/
theorem read_of (t : Text) (j : J) (n : Nat) (h : ReadsAs t j n) (w we : Text) (hw : w.all isWs = true) (hwe : we.all isWs = true) (hn : n ≤ 2 * (w ++ t ++ we).length + 2) :
    read (w ++ t ++ we) = some j := by
  have he : Ends we := by
    cases we with
    | nil => intro c r e; cases e
    | cons x we =>
      simp only [List.all_cons, Bool.and_eq_true] at hwe
      apply ends_of
      have := hwe.1
      simp only [isWs, Bool.or_eq_true, decide_eq_true_eq] at this
      rcases this with ((rfl | rfl) | rfl) | rfl <;> decide
  unfold read
  rw [h _ hn w hw we he]
  simp only
  have : skipWs we = [] := by
    have := skipWs_ws we [] hwe
    rwa [List.append_nil] at this
  rw [this]
  simp

theorem forall_written (l : List J) (h : ∀ j ∈ l, Clean j) : ∃ ts, List.Forall₂ Written l ts := by
  induction l with
  | nil => exact ⟨[], .nil⟩
  | cons j l ih =>
    obtain ⟨t, ht⟩ := written_of_clean j (h j (by simp))
    obtain ⟨ts, hts⟩ := ih (fun x hx => h x (by simp [hx]))
    exact ⟨t :: ts, .cons ht hts⟩

end Scalopus.JsonText
