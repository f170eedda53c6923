import Verif.Props.C144_QueryServers

/-!
# C144: exactly when query_servers gets to print
-/

namespace Scalopus.C144

open QueryServers JsonText

/-- A query that throws. -/
def Throws {α : Type} (a : Ans α) : Prop := ∃ w, a = .throws w

/-- The query of the endpoint `n`, at place `i` of the list, throws. -/
def QueryThrows (d : Dest) (i : Nat) (n : Text) : Prop :=
  (n = "introspect".toList ∧ Throws (d.introspect i)) ∨ (n = "process_info".toList ∧ Throws (d.info i)) ∨ (n = "trace_configurator".toList ∧ Throws (d.config i)) ∨
    (n = "scope_tracing".toList ∧ Throws (d.mapping i))

/-- It is the process information, and it is late or comes without a process id. -/
def NoPid (d : Dest) (i : Nat) (n : Text) : Prop := n = "process_info".toList ∧ (d.info i = .late ∨ ∃ v, d.info i = .ok v ∧ v.pid = none)

/-- The endpoints that the server lists: none, if it is late. -/
def listed (d : Dest) : List Text := match d.supported with | .ok l => l | _ => []

/-- The server can be connected, no query of it throws, and its process information has a process id. -/
def Fine (d : Dest) : Prop := d.connects = true ∧ ¬ Throws d.supported ∧ ∀ i n, (listed d)[i]? = some n → ¬ QueryThrows d i n ∧ ¬ NoPid d i n

/-- The server can be connected, and the first query that does not go well is one of process information that has no process id. -/
def PidUnset (d : Dest) : Prop :=
  d.connects = true ∧ ∃ i n, (listed d)[i]? = some n ∧ NoPid d i n ∧ ∀ j m, j < i → (listed d)[j]? = some m → ¬ QueryThrows d j m ∧ ¬ NoPid d j m

theorem names_ne : "introspect".toList ≠ "process_info".toList ∧ "introspect".toList ≠ "trace_configurator".toList ∧ "introspect".toList ≠ "scope_tracing".toList ∧
    "process_info".toList ≠ "trace_configurator".toList ∧ "process_info".toList ≠ "scope_tracing".toList ∧ "trace_configurator".toList ≠ "scope_tracing".toList := by decide

/-- One query: it gives a value, or is undefined, or throws. -/
theorem endpoint_cases (d : Dest) (i : Nat) (n : Text) (x : ServerInfo) :
    ((∃ y, endpoint d i n x = .ok y) ∧ ¬ QueryThrows d i n ∧ ¬ NoPid d i n) ∨ (endpoint d i n x = .ub ∧ NoPid d i n) ∨ ((∃ w, endpoint d i n x = .throws w) ∧ QueryThrows d i n ∧ ¬ NoPid d i n) := by
  obtain ⟨n1, n2, n3, n4, n5, n6⟩ := names_ne
  unfold endpoint QueryThrows NoPid Throws
  by_cases h1 : n = "introspect".toList
  · subst h1
    rw [if_pos rfl]
    cases d.introspect i <;> simp [Ans.get, Res.bind]
  · rw [if_neg h1]
    by_cases h2 : n = "process_info".toList
    · subst h2
      rw [if_pos rfl]
      cases d.info i with
      | late => simp [Ans.get, Res.bind, infoJ]
      | throws w => simp [Ans.get, Res.bind]
      | ok v =>
        obtain ⟨a, b, p⟩ := v
        cases p <;> simp [Ans.get, Res.bind, infoJ]
    · rw [if_neg h2]
      by_cases h3 : n = "trace_configurator".toList
      · subst h3
        rw [if_pos rfl]
        cases d.config i <;> simp [Ans.get, Res.bind]
      · rw [if_neg h3]
        by_cases h4 : n = "scope_tracing".toList
        · subst h4
          rw [if_pos rfl]
          cases d.mapping i <;> simp [Ans.get, Res.bind]
        · rw [if_neg h4]
          left
          exact ⟨⟨x, rfl⟩, by simp only [h1, h2, h3, h4, false_and, or_self, not_false_eq_true], by simp only [h2, false_and, not_false_eq_true]⟩

theorem endpoints_cases (d : Dest) (l : List Text) (k : Nat) (x : ServerInfo) :
    ((∃ y, endpoints d k x l = .ok y) ∧ ∀ i n, l[i]? = some n → ¬ QueryThrows d (k + i) n ∧ ¬ NoPid d (k + i) n) ∨
    (endpoints d k x l = .ub ∧ ∃ i n, l[i]? = some n ∧ NoPid d (k + i) n ∧ ∀ j m, j < i → l[j]? = some m → ¬ QueryThrows d (k + j) m ∧ ¬ NoPid d (k + j) m) ∨
    ((∃ w, endpoints d k x l = .throws w) ∧ ∃ i n, l[i]? = some n ∧ QueryThrows d (k + i) n ∧ ¬ NoPid d (k + i) n ∧ ∀ j m, j < i → l[j]? = some m → ¬ QueryThrows d (k + j) m ∧ ¬ NoPid d (k + j) m) := by
  induction l generalizing k x with
  | nil => left; exact ⟨⟨x, rfl⟩, by simp⟩
  | cons a l ih =>
    rcases endpoint_cases d k a x with ⟨⟨y, e⟩, h⟩ | ⟨e, h⟩ | ⟨⟨w, e⟩, h⟩
    · have e' : endpoints d k x (a :: l) = endpoints d (k + 1) y l := by simp [endpoints, e, Res.bind]
      rw [e']
      have shift : ∀ j, k + (j + 1) = k + 1 + j := by omega
      rcases ih (k + 1) y with ⟨h1, h2⟩ | ⟨h1, i, n, h2, h3, h4⟩ | ⟨h1, i, n, h2, h3, h3', h4⟩
      · refine .inl ⟨h1, ?_⟩
        intro i n hi
        cases i with
        | zero => simp only [List.getElem?_cons_zero, Option.some.injEq] at hi; subst hi; exact h
        | succ i => rw [shift]; exact h2 i n (by simpa using hi)
      · refine .inr (.inl ⟨h1, i + 1, n, by simpa using h2, by rw [shift]; exact h3, ?_⟩)
        intro j m hj hm
        cases j with
        | zero => simp only [List.getElem?_cons_zero, Option.some.injEq] at hm; subst hm; exact h
        | succ j => rw [shift]; exact h4 j m (by omega) (by simpa using hm)
      · refine .inr (.inr ⟨h1, i + 1, n, by simpa using h2, by rw [shift]; exact h3, by rw [shift]; exact h3', ?_⟩)
        intro j m hj hm
        cases j with
        | zero => simp only [List.getElem?_cons_zero, Option.some.injEq] at hm; subst hm; exact h
        | succ j => rw [shift]; exact h4 j m (by omega) (by simpa using hm)
    · exact .inr (.inl ⟨by simp [endpoints, e, Res.bind], 0, a, rfl, h, by intro j m hj; omega⟩)
    · exact .inr (.inr ⟨⟨w, by simp [endpoints, e, Res.bind]⟩, 0, a, rfl, h.1, h.2, by intro j m hj; omega⟩)

theorem server_cases (d : Dest) : ((∃ j, server d = .ok j) ∧ Fine d ∧ ¬ PidUnset d) ∨ (server d = .ub ∧ ¬ Fine d ∧ PidUnset d) ∨ ((∃ w, server d = .throws w) ∧ ¬ Fine d ∧ ¬ PidUnset d) := by
  unfold server
  cases hc : d.connects with
  | false => exact .inr (.inr ⟨⟨_, rfl⟩, by simp [Fine, hc], by simp [PidUnset, hc]⟩)
  | true =>
    rw [if_pos rfl]
    have key : ∀ l, d.supported.get [] = .ok l → listed d = l → ¬ Throws d.supported →
        ((∃ j, ((d.supported.get []).bind fun l => (endpoints d 0 {} l).bind fun x => .ok x.toJ) = .ok j) ∧ Fine d ∧ ¬ PidUnset d) ∨
        (((d.supported.get []).bind fun l => (endpoints d 0 {} l).bind fun x => .ok x.toJ) = .ub ∧ ¬ Fine d ∧ PidUnset d) ∨
        ((∃ w, ((d.supported.get []).bind fun l => (endpoints d 0 {} l).bind fun x => .ok x.toJ) = .throws w) ∧ ¬ Fine d ∧ ¬ PidUnset d) := by
      intro l e hl ht
      rw [e]
      rcases endpoints_cases d l 0 {} with ⟨⟨y, e1⟩, h2⟩ | ⟨e1, i, n, h2, h3, h4⟩ | ⟨⟨w, e1⟩, i, n, h2, h3, h3', h4⟩
      · simp only [Nat.zero_add] at h2
        refine .inl ⟨⟨y.toJ, by simp only [Res.bind, e1]⟩, ⟨hc, ht, by rw [hl]; exact h2⟩, ?_⟩
        rintro ⟨-, i, n, hi, hp, -⟩
        rw [hl] at hi
        exact (h2 i n hi).2 hp
      · simp only [Nat.zero_add] at h3 h4
        refine .inr (.inl ⟨by simp only [Res.bind, e1], fun hf => (hf.2.2 i n (by rw [hl]; exact h2)).2 h3, hc, i, n, by rw [hl]; exact h2, h3, by rw [hl]; exact h4⟩)
      · simp only [Nat.zero_add] at h3 h3' h4
        refine .inr (.inr ⟨⟨w, by simp only [Res.bind, e1]⟩, fun hf => (hf.2.2 i n (by rw [hl]; exact h2)).1 h3, ?_⟩)
        rintro ⟨-, i', n', hi', hp', hlt⟩
        rw [hl] at hi' hlt
        rcases Nat.lt_trichotomy i i' with h | rfl | h
        · exact (hlt i n h h2).1 h3
        · rw [h2] at hi'; cases hi'; exact h3' hp'
        · exact (h4 i' n' h hi').2 hp'
    cases hs : d.supported with
    | late => rw [← hs]; exact key [] (by rw [hs]; rfl) (by simp [listed, hs]) (by simp [Throws, hs])
    | ok l => rw [← hs]; exact key l (by rw [hs]; rfl) (by simp [listed, hs]) (by simp [Throws, hs])
    | throws w => exact .inr (.inr ⟨⟨w, rfl⟩, fun hf => hf.2.1 ⟨w, hs⟩, by rintro ⟨-, i, n, hi, -⟩; simp [listed, hs] at hi⟩)

theorem servers_ok_iff (l : List Dest) : (∃ js, servers l = .ok js) ↔ ∀ d ∈ l, Fine d := by
  induction l with
  | nil => simp [servers]
  | cons d l ih =>
    rcases server_cases d with ⟨⟨j, e⟩, h, -⟩ | ⟨e, h, -⟩ | ⟨⟨w, e⟩, h, -⟩
    · simp only [servers, e, Res.bind, List.mem_cons, forall_eq_or_imp, h, true_and]
      rw [← ih]
      cases servers l <;> simp
    · simp [servers, e, Res.bind, h]
    · simp [servers, e, Res.bind, h]

theorem servers_ub_iff (l : List Dest) : servers l = .ub ↔ ∃ a d b, l = a ++ d :: b ∧ (∀ x ∈ a, Fine x) ∧ PidUnset d := by
  induction l with
  | nil => simp [servers]
  | cons d l ih =>
    have split : (∃ a x b, d :: l = a ++ x :: b ∧ (∀ y ∈ a, Fine y) ∧ PidUnset x) ↔ PidUnset d ∨ (Fine d ∧ ∃ a x b, l = a ++ x :: b ∧ (∀ y ∈ a, Fine y) ∧ PidUnset x) := by
      constructor
      · rintro ⟨a, x, b, e, h1, h2⟩
        cases a with
        | nil => simp only [List.nil_append, List.cons.injEq] at e; exact .inl (e.1 ▸ h2)
        | cons y a =>
          simp only [List.cons_append, List.cons.injEq] at e
          exact .inr ⟨e.1 ▸ h1 y (by simp), a, x, b, e.2, fun z hz => h1 z (by simp [hz]), h2⟩
      · rintro (h | ⟨hd, a, x, b, e, h1, h2⟩)
        · exact ⟨[], d, l, rfl, by simp, h⟩
        · exact ⟨d :: a, x, b, by rw [e]; rfl, by simp only [List.mem_cons, forall_eq_or_imp]; exact ⟨hd, h1⟩, h2⟩
    rw [split, ← ih]
    rcases server_cases d with ⟨⟨j, e⟩, h, h'⟩ | ⟨e, h, h'⟩ | ⟨⟨w, e⟩, h, h'⟩
    · simp only [servers, e, Res.bind, h, h', true_and, false_or]
      cases servers l <;> simp
    · simp [servers, e, Res.bind, h']
    · simp [servers, e, Res.bind, h, h']

/-- **C144, undefined, exactly.** For all servers that are found: the program does something undefined if and only if it gets to a server whose process information is late or comes without a process id, before anything else went wrong. -/
theorem undefined_iff (l : List Dest) : main l = .ub ↔ ∃ a d b, l = a ++ d :: b ∧ (∀ x ∈ a, Fine x) ∧ PidUnset d := by
  rw [← servers_ub_iff]
  unfold main
  cases servers l with
  | ok js => simp only [reduceCtorEq, iff_false]; split <;> simp
  | throws w => simp
  | ub => simp
  | terminate => simp

/-- **C144, printed.** For all servers that are found: something is printed only if all of them could be connected, no query threw, and every process information had a process id. If so, the program has a value for each server; it is printed unless it holds text that is not UTF-8. -/
theorem printed_only (l : List Dest) : ((∃ j, main l = .ok j) → ∀ d ∈ l, Fine d) ∧
    ((∀ d ∈ l, Fine d) → ∃ js, servers l = .ok js ∧ js.length = l.length ∧ ((∀ j ∈ js, (dump j).isSome = true) → l ≠ [] → main l = .ok (.arr js))) := by
  constructor
  · rintro ⟨j, e⟩
    rw [← servers_ok_iff]
    unfold main at e
    cases hs : servers l with
    | ok js => exact ⟨js, rfl⟩
    | throws w => simp [hs] at e
    | ub => simp [hs] at e
    | terminate => simp [hs] at e
  · intro h
    obtain ⟨js, e⟩ := (servers_ok_iff l).2 h
    have len : ∀ (l : List Dest) js, servers l = .ok js → js.length = l.length := by
      intro l
      induction l with
      | nil => intro js e; simp only [servers, Res.ok.injEq] at e; subst e; rfl
      | cons d l ih =>
        intro js e
        simp only [servers] at e
        cases h1 : server d <;> simp only [h1, Res.bind, reduceCtorEq] at e
        cases h2 : servers l <;> simp only [h2, reduceCtorEq, Res.ok.injEq] at e
        subst e
        simp [ih _ h2]
    refine ⟨js, e, len l js e, ?_⟩
    intro hd hne
    have hj : js ≠ [] := by
      intro e'; subst e'; have := len l [] e; cases l with
      | nil => exact hne rfl
      | cons => simp at this
    obtain ⟨t, ht⟩ := Option.isSome_iff_exists.1 (dump_arr_some js hd)
    unfold main
    rw [e]
    cases js with
    | nil => exact absurd rfl hj
    | cons j js => simp only [ht]

/-- A server that answers is fine; one whose process information is late is not. -/
example : Fine (answering truth1) ∧ PidUnset { answering truth1 with info := fun _ => .late } := by
  refine ⟨⟨rfl, by simp [Throws, answering], ?_⟩, rfl, 2, "process_info".toList, rfl, ⟨rfl, .inl rfl⟩, ?_⟩
  · intro i n _
    simp [QueryThrows, NoPid, Throws, answering]
  · intro j m hj hm
    have : m ≠ "process_info".toList := by
      rintro rfl
      match j, hj with
      | 0, _ => exact absurd hm (by decide)
      | 1, _ => exact absurd hm (by decide)
    simp only [QueryThrows, NoPid, Throws, answering, reduceCtorEq, exists_false, and_false, or_self, not_false_eq_true, this, false_and, and_self]

end Scalopus.C144
