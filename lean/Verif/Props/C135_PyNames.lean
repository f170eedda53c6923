import Verif.Model.PyNames

/-!
# C135: names given in one program are read in another

A name that a Python program gives to its process, to a thread or to a tracepoint is the text that any Python program reads; and the names of a process can be read whatever they are. The first part holds. The second is false: C++ programs (and
Python programs, with `bytes`) may give names that are not UTF-8, and then `to_dict()` and `mapping()` raise an error for all names of the process, and `discover` lists nothing, also of other processes. If all names are
text, everything can be read.
-/

namespace Scalopus.C135
open Scalopus.PyNames

/-! ## Specification -/

/-- A text that can be written: no code point is a surrogate or above 0x10FFFF. -/
def IsText (t : List Nat) : Prop := ∀ c ∈ t, c < 0xD800 ∨ (0xE000 ≤ c ∧ c < 0x110000)

/-- The UTF-8 encoding by the bits of a code point: `n` bytes begin with `n` ones, and further bytes have six bits each. -/
def Utf8 : Nat → Bytes → Prop
  | c, [a] => c < 0x80 ∧ a.toNat = c
  | c, [a, b] => 0x80 ≤ c ∧ c < 0x800 ∧ a.toNat = 0b11000000 + c / 2 ^ 6 ∧ b.toNat = 0b10000000 + c % 2 ^ 6
  | c, [a, b, d] => 0x800 ≤ c ∧ c < 0x10000 ∧ a.toNat = 0b11100000 + c / 2 ^ 12 ∧ b.toNat = 0b10000000 + c / 2 ^ 6 % 2 ^ 6 ∧ d.toNat = 0b10000000 + c % 2 ^ 6
  | c, [a, b, d, e] => 0x10000 ≤ c ∧ a.toNat = 0b11110000 + c / 2 ^ 18 ∧ b.toNat = 0b10000000 + c / 2 ^ 12 % 2 ^ 6 ∧ d.toNat = 0b10000000 + c / 2 ^ 6 % 2 ^ 6 ∧
      e.toNat = 0b10000000 + c % 2 ^ 6
  | _, _ => False

/-- These bytes are this text. -/
def Spells : List Nat → Bytes → Prop
  | [], b => b = []
  | c :: t, b => ∃ x r, b = x ++ r ∧ (c < 0xD800 ∨ (0xE000 ≤ c ∧ c < 0x110000)) ∧ Utf8 c x ∧ Spells t r

/-! ## UTF-8 -/

theorem ofNat_toNat {n : Nat} (h : n < 256) : (UInt8.ofNat n).toNat = n := by
  simp [UInt8.toNat_ofNat', Nat.mod_eq_of_lt h]

theorem u8_ext {a : UInt8} {n : Nat} (h : a.toNat = n) : UInt8.ofNat n = a := by
  rw [← h]; simp

theorem scalar_iff (c : Nat) : scalar c = true ↔ (c < 0xD800 ∨ (0xE000 ≤ c ∧ c < 0x110000)) := by
  simp [scalar]

theorem utf8_encode1 {c : Nat} (h : scalar c = true) : Utf8 c (encode1 c) := by
  rw [scalar_iff] at h
  unfold encode1
  split
  · exact ⟨by omega, ofNat_toNat (by omega)⟩
  · split
    · exact ⟨by omega, by omega, ofNat_toNat (by omega), ofNat_toNat (by omega)⟩
    · split
      · exact ⟨by omega, by omega, ofNat_toNat (by omega), ofNat_toNat (by omega), ofNat_toNat (by omega)⟩
      · exact ⟨by omega, ofNat_toNat (by omega), ofNat_toNat (by omega), ofNat_toNat (by omega), ofNat_toNat (by omega)⟩

theorem encode1_of_utf8 {c : Nat} : ∀ {b : Bytes}, Utf8 c b → encode1 c = b
  | [a], ⟨h1, h2⟩ => by simp only [encode1, h1, if_true]; rw [u8_ext h2]
  | [a, b], ⟨h1, h2, h3, h4⟩ => by
    have e : ¬ c < 0x80 := by omega
    simp only [encode1, e, h2, if_true, if_false]; rw [u8_ext h3, u8_ext h4]
  | [a, b, d], ⟨h1, h2, h3, h4, h5⟩ => by
    have e : ¬ c < 0x80 := by omega
    have e' : ¬ c < 0x800 := by omega
    simp only [encode1, e, e', h2, if_true, if_false]; rw [u8_ext h3, u8_ext h4, u8_ext h5]
  | [a, b, d, f], ⟨h1, h3, h4, h5, h6⟩ => by
    have e : ¬ c < 0x80 := by omega
    have e' : ¬ c < 0x800 := by omega
    have e'' : ¬ c < 0x10000 := by omega
    simp only [encode1, e, e', e'', if_false]; rw [u8_ext h3, u8_ext h4, u8_ext h5, u8_ext h6]
  | [], h => h.elim
  | _ :: _ :: _ :: _ :: _ :: _, h => h.elim

theorem decode1_encode1 {c : Nat} (h : scalar c = true) (l : Bytes) : decode1 (encode1 c ++ l) = some (c, l) := by
  rw [scalar_iff] at h
  unfold encode1
  split
  · rename_i h1
    simp [decode1, ofNat_toNat (show c < 256 by omega), h1]
  · split
    · have e1 := ofNat_toNat (show 0xC0 + c / 64 < 256 by omega)
      have e2 := ofNat_toNat (show 0x80 + c % 64 < 256 by omega)
      simp only [List.cons_append, List.nil_append, decode1, cont, e1, e2]
      rw [if_neg (by omega), if_neg (by omega), if_neg (by simp; omega), if_pos (by omega)]
      simp only [Option.some.injEq, Prod.mk.injEq, and_true]
      omega
    · split
      · have e1 := ofNat_toNat (show 0xE0 + c / 4096 < 256 by omega)
        have e2 := ofNat_toNat (show 0x80 + c / 64 % 64 < 256 by omega)
        have e3 := ofNat_toNat (show 0x80 + c % 64 < 256 by omega)
        simp only [List.cons_append, List.nil_append, decode1, cont, e1, e2, e3]
        rw [if_neg (by omega), if_neg (by omega), if_neg (by simp; omega), if_neg (by omega), if_neg (by simp; omega), if_neg (by simp; omega), if_pos (by omega)]
        simp only [Option.some.injEq, Prod.mk.injEq, and_true]
        omega
      · have e1 := ofNat_toNat (show 0xF0 + c / 262144 < 256 by omega)
        have e2 := ofNat_toNat (show 0x80 + c / 4096 % 64 < 256 by omega)
        have e3 := ofNat_toNat (show 0x80 + c / 64 % 64 < 256 by omega)
        have e4 := ofNat_toNat (show 0x80 + c % 64 < 256 by omega)
        simp only [List.cons_append, List.nil_append, decode1, cont, e1, e2, e3, e4]
        rw [if_neg (by omega), if_neg (by omega), if_neg (by simp; omega), if_neg (by omega), if_neg (by simp; omega), if_neg (by simp; omega), if_neg (by omega), if_neg (by simp; omega)]
        simp only [Option.some.injEq, Prod.mk.injEq, and_true]
        omega

theorem decode1_spec {b l : Bytes} {c : Nat} (h : decode1 b = some (c, l)) : scalar c = true ∧ ∃ x, b = x ++ l ∧ Utf8 c x := by
  unfold decode1 at h
  split at h
  · cases h
  rename_i x l1
  have hx := x.toNat_lt
  split at h
  · simp only [Option.some.injEq, Prod.mk.injEq] at h; obtain ⟨rfl, rfl⟩ := h; exact ⟨by rw [scalar_iff]; omega, [x], rfl, by assumption, rfl⟩
  split at h
  · cases h
  split at h
  · cases h
  rename_i y l2
  split at h
  · cases h
  rename_i hy
  simp only [cont, Bool.not_eq_true, Bool.not_eq_false', Bool.and_eq_true, decide_eq_true_eq] at hy
  split at h
  · simp only [Option.some.injEq, Prod.mk.injEq] at h
    obtain ⟨hc, rfl⟩ := h
    refine ⟨by rw [scalar_iff]; omega, [x, y], rfl, ?_, ?_, ?_, ?_⟩ <;> omega
  split at h
  · cases h
  rename_i hbad
  simp only [Bool.or_eq_true, Bool.and_eq_true, decide_eq_true_eq, not_or, not_and] at hbad
  obtain ⟨⟨⟨⟨b1, b2⟩, b3⟩, b4⟩, b5⟩ := hbad
  split at h
  · cases h
  rename_i z l3
  split at h
  · cases h
  rename_i hz
  simp only [cont, Bool.not_eq_true, Bool.not_eq_false', Bool.and_eq_true, decide_eq_true_eq] at hz
  split at h
  · simp only [Option.some.injEq, Prod.mk.injEq] at h
    obtain ⟨hc, rfl⟩ := h
    refine ⟨by rw [scalar_iff]; omega, [x, y, z], rfl, ?_, ?_, ?_, ?_, ?_⟩ <;> omega
  split at h
  · cases h
  rename_i w l4
  split at h
  · cases h
  rename_i hw
  simp only [cont, Bool.not_eq_true, Bool.not_eq_false', Bool.and_eq_true, decide_eq_true_eq] at hw
  simp only [Option.some.injEq, Prod.mk.injEq] at h
  obtain ⟨hc, rfl⟩ := h
  refine ⟨by rw [scalar_iff]; omega, [x, y, z, w], rfl, ?_, ?_, ?_, ?_, ?_⟩ <;> omega

theorem decode_cons (x : UInt8) (l : Bytes) : decode (x :: l) = match decode1 (x :: l) with | none => none | some (c, r) => (decode r).map (c :: ·) := by
  rw [decode]
  split <;> rename_i h <;> simp [h]

theorem utf8_ne {c : Nat} {x : Bytes} (h : Utf8 c x) : x ≠ [] := by
  intro e; subst e; exact h

theorem decode_spells : ∀ (n : Nat) (b : Bytes), b.length ≤ n → ∀ t, decode b = some t → Spells t b := by
  intro n
  induction n with
  | zero =>
    intro b hb t h
    have : b = [] := List.length_eq_zero_iff.1 (by omega)
    subst this
    rw [decode] at h
    cases h
    rfl
  | succ n ih =>
    intro b hb t h
    cases b with
    | nil => rw [decode] at h; cases h; rfl
    | cons x l =>
      rw [decode_cons] at h
      split at h
      · cases h
      · rename_i c r hd
        have hlt := decode1_lt hd
        cases hr : decode r with
        | none => rw [hr] at h; cases h
        | some t' =>
          rw [hr] at h
          cases h
          obtain ⟨hs, y, hy, hu⟩ := decode1_spec hd
          exact ⟨y, r, hy, (scalar_iff c).1 hs, hu, ih r (by omega) t' hr⟩

theorem spells_decode : ∀ (t : List Nat) (b : Bytes), Spells t b → decode b = some t := by
  intro t
  induction t with
  | nil => intro b h; cases h; rw [decode]
  | cons c t ih =>
    intro b h
    obtain ⟨x, r, hb, hs, hu, hr⟩ := h
    have he := encode1_of_utf8 hu
    have hd := decode1_encode1 ((scalar_iff c).2 hs) r
    rw [he, ← hb] at hd
    cases b with
    | nil => simp [decode1] at hd
    | cons y l => rw [decode_cons, hd]; simp only [ih r hr]; rfl

/-- **Python reads a name exactly if it is UTF-8**, and then the text that it spells. -/
theorem decode_iff (b : Bytes) (t : List Nat) : decode b = some t ↔ Spells t b :=
  ⟨decode_spells b.length b (Nat.le_refl _) t, spells_decode t b⟩

/-- **Python writes exactly the texts without surrogates**, as the bytes that spell them. -/
theorem encode_iff (b : Bytes) (t : List Nat) : encode t = some b ↔ Spells t b := by
  induction t generalizing b with
  | nil => simp [encode, Spells, eq_comm]
  | cons c t ih =>
    constructor
    · intro h
      simp only [encode, List.all_cons, Bool.and_eq_true] at h
      split at h
      · rename_i hc
        cases h
        refine ⟨encode1 c, t.flatMap encode1, by simp, (scalar_iff c).1 hc.1, utf8_encode1 hc.1, (ih _).1 ?_⟩
        simp [encode, hc.2]
      · cases h
    · rintro ⟨x, r, hb, hs, hu, hr⟩
      have h1 := (ih r).2 hr
      have h2 := encode1_of_utf8 hu
      simp only [encode] at h1 ⊢
      split at h1
      · rename_i ht
        cases h1
        simp [ht, (scalar_iff c).2 hs, h2, hb]
      · cases h1

theorem encode_some {t : List Nat} (h : IsText t) : ∃ b, encode t = some b := by
  have : t.all scalar = true := by
    rw [List.all_eq_true]
    intro c hc
    exact (scalar_iff c).2 (h c hc)
  exact ⟨_, by simp [encode, this]; rfl⟩

example : Spells [0x7A, 0xE9, 0x20AC, 0x1F600] [0x7A, 0xC3, 0xA9, 0xE2, 0x82, 0xAC, 0xF0, 0x9F, 0x98, 0x80] := by
  rw [← encode_iff]; decide

/-- Overlong, surrogate and cut encodings are no text. -/
example : decode [0xC0, 0x80] = none ∧ decode [0xED, 0xA0, 0x80] = none ∧ decode [0xE2, 0x82] = none ∧ decode [0xF4, 0x90, 0x80, 0x80] = none := by decide +kernel

/-! ## Names -/

/-- The name that something has, if it has one. -/
def look (n : Names) : Key → Option Bytes
  | .process => some n.process
  | .thread id => n.threads.lookup id
  | .trace id => n.traces.lookup id

/-- Whom an operation names. -/
def target : Op → Key
  | .py k _ => k
  | .cpp k _ => k

/-- An operation that gives a text. -/
def GivesText : Op → Prop
  | .py _ (.bytes b) => ∃ t, Spells t b
  | .py _ _ => True
  | .cpp _ b => ∃ t, Spells t b

/-- Every thread and every tracepoint has one name. -/
def Maps (n : Names) : Prop := (n.threads.map (·.1)).Nodup ∧ (n.traces.map (·.1)).Nodup

theorem lookup_ne {α : Type} {l : List (Nat × α)} {a j : Nat} {b : α} (h : j ≠ a) : ((a, b) :: l).lookup j = l.lookup j := by
  have e : (j == a) = false := by simpa using h
  simp [List.lookup_cons, e]

theorem lookup_same {α : Type} {l : List (Nat × α)} {a : Nat} {b : α} : ((a, b) :: l).lookup a = some b := by simp [List.lookup_cons]

theorem lookup_filter_ne (l : List (Nat × Bytes)) (k j : Nat) (h : j ≠ k) : (l.filter (·.1 != k)).lookup j = l.lookup j := by
  induction l with
  | nil => rfl
  | cons x l ih =>
    obtain ⟨a, b⟩ := x
    by_cases ha : a = k
    · subst ha
      rw [lookup_ne h, ← ih]; simp
    · by_cases hj : j = a
      · subst hj; simp [ha, lookup_same]
      · simp [ha, lookup_ne hj, ih]

theorem lookup_filter_self (l : List (Nat × Bytes)) (k : Nat) : (l.filter (·.1 != k)).lookup k = none := by
  induction l with
  | nil => rfl
  | cons x l ih =>
    obtain ⟨a, b⟩ := x
    by_cases ha : a = k
    · subst ha; simp [ih]
    · simp [ha, lookup_ne (Ne.symm ha), ih]

theorem lookup_put (l : List (Nat × Bytes)) (k j : Nat) (v : Bytes) : (put k v l).lookup j = if j = k then some v else l.lookup j := by
  simp only [put, List.lookup_append]
  by_cases h : j = k
  · subst h; simp [lookup_filter_self, lookup_same]
  · simp [lookup_filter_ne _ _ _ h, lookup_ne h, h]

theorem look_give (n : Names) (k j : Key) (b : Bytes) : look (give n k b) j = if j = k then some b else look n j := by
  cases k <;> cases j <;> simp [look, give, lookup_put]

theorem nodup_put (l : List (Nat × Bytes)) (k : Nat) (v : Bytes) (h : (l.map (·.1)).Nodup) : ((put k v l).map (·.1)).Nodup := by
  simp only [put, List.map_append, List.map_cons, List.map_nil]
  rw [List.nodup_append]
  refine ⟨?_, by simp, ?_⟩
  · exact List.Sublist.nodup (List.Sublist.map _ List.filter_sublist) h
  · intro a ha b hb
    simp only [List.mem_singleton] at hb
    subst hb
    obtain ⟨x, hx, rfl⟩ := List.mem_map.1 ha
    have := (List.mem_filter.1 hx).2
    simpa using this

theorem maps_step (n : Names) (o : Op) (h : Maps n) : Maps (step n o) := by
  have key : ∀ k b, Maps (give n k b) := by
    intro k b
    cases k with
    | process => exact h
    | thread id => exact ⟨nodup_put _ _ _ h.1, h.2⟩
    | trace id => exact ⟨h.1, nodup_put _ _ _ h.2⟩
  cases o with
  | cpp k b => exact key k b
  | py k a =>
    simp only [step]
    split
    · exact key k _
    · exact h

theorem maps_run (ops : List Op) : ∀ n : Names, Maps n → Maps (run n ops) := by
  induction ops with
  | nil => intro n h; exact h
  | cons o ops ih => intro n h; exact ih _ (maps_step n o h)

theorem look_other (ops : List Op) : ∀ (n : Names) (k : Key), (∀ o ∈ ops, target o ≠ k) → look (run n ops) k = look n k := by
  induction ops with
  | nil => intro n k _; rfl
  | cons o ops ih =>
    intro n k h
    have h1 := ih (step n o) k (fun o' ho => h o' (List.mem_cons_of_mem _ ho))
    have h2 : look (step n o) k = look n k := by
      have hk := h o (List.mem_cons_self ..)
      cases o with
      | cpp j b => simp only [step, look_give]; rw [if_neg (fun e => hk e.symm)]
      | py j a =>
        simp only [step]
        split
        · rw [look_give, if_neg (fun e => hk e.symm)]
        · rfl
    exact h1.trans h2

theorem toDict_lookup : ∀ {l : List (Nat × Bytes)} {r : List (Nat × List Nat)}, toDict l = some r → ∀ k,
    r.lookup k = (l.lookup k).bind decode := by
  intro l
  induction l with
  | nil => intro r h k; simp only [toDict, Option.some.injEq] at h; subst h; rfl
  | cons x l ih =>
    intro r h k
    obtain ⟨j, b⟩ := x
    simp only [toDict] at h
    split at h
    · rename_i t r' ht hr
      cases h
      by_cases hk : k = j
      · subst hk; simp [lookup_same, ht]
      · simp [lookup_ne hk, ih hr k]
    · cases h

theorem toDict_none : ∀ {l : List (Nat × Bytes)} {x : Nat × Bytes}, x ∈ l → decode x.2 = none → toDict l = none := by
  intro l
  induction l with
  | nil => intro x hx; cases hx
  | cons y l ih =>
    intro x hx hd
    rcases List.mem_cons.1 hx with hx | hx
    · subst hx; simp [toDict, hd]
    · have := ih hx hd
      simp only [toDict, this]
      split
      · rename_i h; cases h
      · rfl

theorem toDict_some : ∀ {l : List (Nat × Bytes)}, (∀ x ∈ l, ∃ t, Spells t x.2) → ∃ r, toDict l = some r := by
  intro l
  induction l with
  | nil => intro _; exact ⟨[], rfl⟩
  | cons y l ih =>
    intro h
    obtain ⟨t, ht⟩ := h y (List.mem_cons_self ..)
    obtain ⟨r, hr⟩ := ih (fun x hx => h x (List.mem_cons_of_mem _ hx))
    exact ⟨(y.1, t) :: r, by simp only [toDict, (decode_iff _ t).2 ht, hr]⟩

theorem mem_of_lookup : ∀ {l : List (Nat × Bytes)} {k : Nat} {b : Bytes}, l.lookup k = some b → (k, b) ∈ l := by
  intro l
  induction l with
  | nil => intro k b h; cases h
  | cons y l ih =>
    intro k b h
    by_cases hk : k = y.1
    · obtain ⟨a, c⟩ := y; subst hk; rw [lookup_same] at h; cases h; exact List.mem_cons_self ..
    · obtain ⟨a, c⟩ := y; rw [lookup_ne hk] at h; exact List.mem_cons_of_mem _ (ih h)

/-- **What is read of a process** are the texts of its names, for all its threads and no others. -/
theorem info_read (n : Names) (i : Info) :
    readInfo n = .ok i → Spells i.name n.process ∧ (∀ k, (i.threads.lookup k).isSome = (n.threads.lookup k).isSome) ∧
      ∀ k b, n.threads.lookup k = some b → ∃ t, i.threads.lookup k = some t ∧ Spells t b := by
  intro h
  simp only [readInfo] at h
  split at h
  · rename_i t r ht hr
    cases h
    refine ⟨(decode_iff _ _).1 ht, ?_, ?_⟩
    · intro k
      rw [toDict_lookup hr k]
      cases hk : n.threads.lookup k with
      | none => rfl
      | some b =>
        have hd : decode b ≠ none := by
          intro hd
          have := toDict_none (mem_of_lookup hk) hd
          rw [hr] at this
          cases this
        cases hd' : decode b with
        | none => exact absurd hd' hd
        | some t => simp [hd']
    · intro k b hk
      have h1 := toDict_lookup hr k
      rw [hk] at h1
      cases hd' : decode b with
      | none =>
        have := toDict_none (mem_of_lookup hk) hd'
        rw [hr] at this
        cases this
      | some t => exact ⟨t, by simpa [hd'] using h1, (decode_iff b t).1 hd'⟩
  · cases h

/-- **When the information about a process can be read**: exactly if the names of the process and of all its threads are text. -/
theorem readable_iff (n : Names) : (∃ i, readInfo n = .ok i) ↔ (∃ t, Spells t n.process) ∧ ∀ x ∈ n.threads, ∃ t, Spells t x.2 := by
  constructor
  · rintro ⟨i, h⟩
    simp only [readInfo] at h
    split at h
    · rename_i t r ht hr
      refine ⟨⟨t, (decode_iff _ _).1 ht⟩, ?_⟩
      intro x hx
      cases hd : decode x.2 with
      | none => have := toDict_none hx hd; rw [hr] at this; cases this
      | some t => exact ⟨t, (decode_iff _ _).1 hd⟩
    · cases h
  · rintro ⟨⟨t, ht⟩, h⟩
    obtain ⟨r, hr⟩ := toDict_some h
    exact ⟨⟨t, r⟩, by simp only [readInfo, (decode_iff _ t).2 ht, hr]⟩

/-- The same for the names of tracepoints. -/
theorem traces_iff (n : Names) : (∃ r, readTraces n = .ok r) ↔ ∀ x ∈ n.traces, ∃ t, Spells t x.2 := by
  constructor
  · rintro ⟨r, h⟩ x hx
    simp only [readTraces] at h
    split at h
    · rename_i r' hr
      cases hd : decode x.2 with
      | none => have := toDict_none hx hd; rw [hr] at this; cases this
      | some t => exact ⟨t, (decode_iff _ _).1 hd⟩
    · cases h
  · intro h
    obtain ⟨r, hr⟩ := toDict_some h
    exact ⟨r, by simp only [readTraces, hr]⟩

/-- **A name given in Python is the name that is read in Python**, whatever other names are given before and after: if something can be read, it has the text. The name of the process can be read whatever the threads' are. -/
theorem read_back (n : Names) (t : List Nat) (ht : IsText t) (k : Key) (before after : List Op) (ha : ∀ o ∈ after, target o ≠ k) :
    let m := run n (before ++ .py k (.str t) :: after)
    (k = .process → readName m = .ok t ∧ ∀ i, readInfo m = .ok i → i.name = t) ∧
    (∀ id, k = .thread id → ∀ i, readInfo m = .ok i → i.threads.lookup id = some t) ∧
    (∀ id, k = .trace id → ∀ r, readTraces m = .ok r → r.lookup id = some t) := by
  intro m
  obtain ⟨b, hb⟩ := encode_some ht
  have hd : decode b = some t := (decode_iff b t).2 ((encode_iff b t).1 hb)
  have hl : look m k = some b := by
    have : m = run (give (run n before) k b) after := by
      simp only [m, run, List.foldl_append, List.foldl_cons, step, toStd, hb]
    rw [this, look_other after _ k ha, look_give, if_pos rfl]
  refine ⟨?_, ?_, ?_⟩
  · rintro rfl
    simp only [look, Option.some.injEq] at hl
    refine ⟨by simp only [readName, hl, hd], ?_⟩
    intro i hi
    simp only [readInfo, hl, hd] at hi
    split at hi
    · rename_i h1 _; cases hi; cases h1; rfl
    · cases hi
  · rintro id rfl i hi
    simp only [look] at hl
    simp only [readInfo] at hi
    split at hi
    · rename_i t' r _ hr
      cases hi
      rw [toDict_lookup hr, hl]
      exact hd
    · cases hi
  · rintro id rfl r hi
    simp only [look] at hl
    simp only [readTraces] at hi
    split at hi
    · rename_i r' hr
      cases hi
      rw [toDict_lookup hr, hl]
      exact hd
    · cases hi

/-- **If all names are text, all names can be read**: this includes every program in Python that gives its names as `str`. -/
theorem text_partial (ops : List Op) (h : ∀ o ∈ ops, GivesText o) :
    (∃ i, readInfo (run {} ops) = .ok i) ∧ ∃ r, readTraces (run {} ops) = .ok r := by
  have key : ∀ (ops : List Op) (n : Names), (∀ o ∈ ops, GivesText o) →
      ((∃ t, Spells t n.process) ∧ (∀ x ∈ n.threads, ∃ t, Spells t x.2) ∧ ∀ x ∈ n.traces, ∃ t, Spells t x.2) →
      (∃ t, Spells t (run n ops).process) ∧ (∀ x ∈ (run n ops).threads, ∃ t, Spells t x.2) ∧ ∀ x ∈ (run n ops).traces, ∃ t, Spells t x.2 := by
    intro ops
    induction ops with
    | nil => intro n _ h; exact h
    | cons o ops ih =>
      intro n ho hn
      refine ih _ (fun o' h' => ho o' (List.mem_cons_of_mem _ h')) ?_
      have hs : ∀ k b, (∃ t, Spells t b) → (∃ t, Spells t (give n k b).process) ∧ (∀ x ∈ (give n k b).threads, ∃ t, Spells t x.2) ∧ ∀ x ∈ (give n k b).traces, ∃ t, Spells t x.2 := by
        intro k b hb
        have hi : ∀ (l : List (Nat × Bytes)) id, (∀ x ∈ l, ∃ t, Spells t x.2) → ∀ x ∈ put id b l, ∃ t, Spells t x.2 := by
          intro l id hl x hx
          rcases List.mem_append.1 hx with hx | hx
          · exact hl x (List.mem_filter.1 hx).1
          · simp only [List.mem_singleton] at hx; subst hx; exact hb
        cases k with
        | process => exact ⟨hb, hn.2⟩
        | thread id => exact ⟨hn.1, hi _ _ hn.2.1, hn.2.2⟩
        | trace id => exact ⟨hn.1, hn.2.1, hi _ _ hn.2.2⟩
      have h1 := ho o (List.mem_cons_self ..)
      cases o with
      | cpp k b => exact hs k b h1
      | py k a =>
        cases a with
        | str t =>
          simp only [step, toStd]
          split
          · rename_i b hb; exact hs k b ⟨t, (encode_iff b t).1 hb⟩
          · exact hn
        | bytes b => exact hs k b h1
        | other => exact hn
  have := key ops {} h ⟨⟨[], rfl⟩, by simp, by simp⟩
  exact ⟨(readable_iff _).2 ⟨this.1, this.2.1⟩, (traces_iff _).2 this.2.2⟩

/-- **One name that is no text hides all**: whatever else is named, nothing of the process can be read, and `discover` lists no process at all. -/
theorem one_bad_name (n : Names) (id : Nat) (b : Bytes) (hb : ∀ t, ¬ Spells t b) (others later : List (Nat × Names)) (pid : Nat)
    (ho : ∀ x ∈ others, ∃ i, readInfo x.2 = .ok i) :
    readInfo (step n (.cpp (.thread id) b)) = .throws "UnicodeDecodeError" ∧
    readTraces (step n (.cpp (.trace id) b)) = .throws "UnicodeDecodeError" ∧
    discover (others ++ (pid, step n (.cpp (.thread id) b)) :: later) = .throws "UnicodeDecodeError" := by
  have hd : decode b = none := by
    cases h : decode b with
    | none => rfl
    | some t => exact absurd ((decode_iff b t).1 h) (hb t)
  have h1 : ∀ l, toDict (put id b l) = none := fun l => toDict_none (x := (id, b)) (by simp [put]) hd
  have h2 : readInfo (step n (.cpp (.thread id) b)) = .throws "UnicodeDecodeError" := by
    simp only [readInfo, step, give, h1]
    split
    · rename_i h; cases h
    · rfl
  refine ⟨h2, by simp [readTraces, step, give, h1], ?_⟩
  induction others with
  | nil => simp [discover, h2, Res.bind]
  | cons x others ih =>
    obtain ⟨i, hi⟩ := ho x (List.mem_cons_self ..)
    have := ih (fun y hy => ho y (List.mem_cons_of_mem _ hy))
    simp [discover, hi, this, Res.bind]

/-- Such names exist, also from Python. -/
example : (∀ t, ¬ Spells t [0xE9]) ∧ readInfo (run {} [.py .process (.str [0x70]), .py (.thread 1) (.bytes [0xE9])]) = .throws "UnicodeDecodeError" := by
  refine ⟨fun t h => ?_, by decide +kernel⟩
  rw [← decode_iff] at h
  revert h
  rw [show decode [0xE9] = none by decide +kernel]
  simp

/-- **discover lists every process, with its names**, if all names are text. -/
theorem discover_partial (l : List (Nat × Names)) (h : ∀ x ∈ l, (∃ t, Spells t x.2.process) ∧ ∀ y ∈ x.2.threads, ∃ t, Spells t y.2) :
    ∃ r, discover l = .ok r ∧ r.map (·.1) = l.map (·.1) ∧ ∀ x ∈ l, ∃ i, (x.1, i) ∈ r ∧ readInfo x.2 = .ok i := by
  induction l with
  | nil => exact ⟨[], rfl, rfl, by simp⟩
  | cons x l ih =>
    obtain ⟨i, hi⟩ := (readable_iff x.2).2 (h x (List.mem_cons_self ..))
    obtain ⟨r, h1, h2, h3⟩ := ih (fun y hy => h y (List.mem_cons_of_mem _ hy))
    refine ⟨(x.1, i) :: r, by simp [discover, hi, h1, Res.bind], by simp [h2], ?_⟩
    intro y hy
    rcases List.mem_cons.1 hy with hy | hy
    · subst hy; exact ⟨i, List.mem_cons_self .., hi⟩
    · obtain ⟨j, hj, hj'⟩ := h3 y hy
      exact ⟨j, List.mem_cons_of_mem _ hj, hj'⟩

/-- The full statement: the names of every process can be read. -/
def AllNamesReadable : Prop := ∀ ops : List Op, ∃ i, readInfo (run {} ops) = .ok i

theorem not_AllNamesReadable : ¬ AllNamesReadable := by
  intro h
  obtain ⟨i, hi⟩ := h [.cpp .process [0xFF]]
  rw [show readInfo (run {} [.cpp .process [0xFF]]) = .throws "UnicodeDecodeError" by decide +kernel] at hi
  cases hi

end Scalopus.C135
