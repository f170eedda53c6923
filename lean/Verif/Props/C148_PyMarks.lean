import Verif.Model.PyMarks
import Verif.Spec.EndToEnd
import Verif.Props.C31_NativeSource
import Verif.Props.C58_EndToEnd

/-!
# C148: sections, marks and counters made in Python

The specification looks only at the calls of a program and what they gave: `Known` is what the program knows of the objects that it has, `asked` what it has asked to be recorded, `Gives` what a call has to give.
-/

namespace Scalopus.C148

open PyMarks

/-! ## Specification -/

/-- What a program knows: the name and the class of each of its contexts, the prefix and the class of each of its helpers, the contexts that it got from each helper, the switches, and how many contexts there are. -/
structure Known where
  name : Nat → String := fun _ => ""
  kind : Nat → Kind := fun _ => .scope
  helperPrefix : Nat → String := fun _ => ""
  helperKind : Nat → Kind := fun h => if h = 1 then .counter else .scope
  got : Nat → String → Option Nat := fun _ _ => none
  contexts : Nat := 0
  helpers : Nat := 2
  process : Bool := true
  thread : Bool := true

def upd {β : Type} (f : Nat → β) (i : Nat) (v : β) : Nat → β := fun j => if j = i then v else f j

/-- What the program knows after a call. -/
def Known.after (k : Known) : Op → Out → Known
  | .make c n, .ctx i => { k with name := upd k.name i n, kind := upd k.kind i c, contexts := k.contexts + 1 }
  | .makeHelper p c, .helper h => { k with helperPrefix := upd k.helperPrefix h p, helperKind := upd k.helperKind h c, got := upd k.got h (fun _ => none), helpers := k.helpers + 1 }
  | .get h n, .ctx i => match k.got h n with
    | some _ => k
    | none => { k with
        name := upd k.name i (k.helperPrefix h ++ n), kind := upd k.kind i (k.helperKind h), contexts := k.contexts + 1,
        got := upd k.got h (fun m => if m = n then some i else k.got h m) }
  | .setThread b, _ => { k with thread := b }
  | .setProcess b, _ => { k with process := b }
  | _, _ => k

inductive What where
  | enter
  | leave
  | mark (l : Level)
  | count (z : Int)
  deriving DecidableEq, Repr

structure Asked where
  time : Nat
  name : String
  what : What
  deriving DecidableEq, Repr

/-- What a call asks to be recorded. -/
def Known.asks (k : Known) (time : Nat) : Op → Out → List Asked
  | .enter c, .none => if k.process ∧ k.thread then [⟨time, k.name c, .enter⟩] else []
  | .exit c, .none => if k.process ∧ k.thread then [⟨time, k.name c, .leave⟩] else []
  | .mark c l, .none => if k.process ∧ k.thread then [⟨time, k.name c, .mark l⟩] else []
  | .count c (.int z), .none => if k.process ∧ k.thread then [⟨time, k.name c, .count z⟩] else []
  | _, _ => []

def asked (k : Known) : List (Nat × Op) → List Out → List Asked
  | (t, op) :: l, o :: os => k.asks t op o ++ asked (k.after op o) l os
  | _, _ => []

/-- The entry shows what was asked: phases and scopes are those of the trace event format. -/
structure Shows (pid tid : Nat) (a : Asked) (e : NativeSource.Entry) : Prop where
  time : e.ts = Double.ts a.time
  process : e.pid = pid
  thread : e.tid = tid
  phase : (e.ph, e.s) = match a.what with
    | .enter => ("B", none)
    | .leave => ("E", none)
    | .mark .global => ("i", some "g")
    | .mark .process => ("i", some "p")
    | .mark .thread => ("i", some "t")
    | .count _ => ("C", none)
  name : e.name = match a.what with
    | .count _ => String.ofList (a.name.toList.takeWhile (· ≠ '/'))
    | _ => a.name
  value : ∀ z, a.what = .count z → (e.args.getD []).lookup (EndToEnd.seriesIn a.name) = some z

/-- What the call has to give, when `attrs` are the names of the class of the helpers. -/
def Gives (attrs : List String) (k : Known) : Op → Out → Prop
  | .make _ _, o => if k.contexts < 2 ^ 32 then o = .ctx k.contexts else o = .raised .typeError
  | .makeHelper _ _, o => o = .helper k.helpers
  | .find n, o => o = if n = "trace_section" then .helper 0 else if n = "trace_count" then .helper 1 else .raised .attributeError
  | .get h n, o =>
    if n = "ctx_type" ∨ n = "prefix" ∨ n ∈ attrs then o = .other
    else match k.got h n with
      | some i => o = .ctx i
      | none => if k.contexts < 2 ^ 32 then o = .ctx k.contexts else o = .raised .typeError
  | .enter _, o => o = .none
  | .exit _, o => o = .none
  | .mark c _, o => o = if k.kind c = .marker then .none else .raised .attributeError
  | .count c v, o => o = match k.kind c, v with
    | .counter, .int z => if -2 ^ 63 ≤ z ∧ z < 2 ^ 63 then .none else .raised .typeError
    | .counter, .other => .raised .typeError
    | _, _ => .raised .attributeError
  | .setThread _, o => o = .none
  | .setProcess _, o => o = .none

/-- Every call gives what it has to give. -/
def AllGive (attrs : List String) (k : Known) : List (Nat × Op) → List Out → Prop
  | (_, op) :: l, o :: os => Gives attrs k op o ∧ AllGive attrs (k.after op o) l os
  | [], [] => True
  | _, _ => False

/-! ## The invariant -/

structure Inv (s : State) (k : Known) : Prop where
  ctxs : ∀ (i : Nat) (x : Ctx), s.ctxs[i]? = some x → k.name i = x.name ∧ k.kind i = x.kind ∧ s.table.lookup x.id = some x.name ∧ x.id < 2 ^ 32
  below : ∀ p ∈ s.table, p.1 < s.next
  count : s.ctxs.length = k.contexts
  next : s.next < 2 ^ 32 → s.next = k.contexts
  full : 2 ^ 32 ≤ s.next → k.contexts = 2 ^ 32
  hcount : s.helpers.length = k.helpers
  helpers : ∀ (h : Nat) (x : Helper), s.helpers[h]? = some x → k.helperPrefix h = x.prefix_ ∧ k.helperKind h = x.kind ∧ ∀ n, k.got h n = x.attrs.lookup n
  attrs : ∀ (h : Nat) (x : Helper) (n : String) (i : Nat), s.helpers[h]? = some x → x.attrs.lookup n = some i → i < s.ctxs.length
  process : s.process = k.process
  thread : s.thread = k.thread

theorem inv_init : Inv {} {} := by
  refine ⟨by simp, by simp, rfl, by simp, by simp, rfl, ?_, ?_, rfl, rfl⟩
  · intro h x hx
    match h with
    | 0 => simp at hx; subst hx; simp
    | 1 => simp at hx; subst hx; simp
    | h + 2 => simp at hx
  · intro h x n i hx
    match h with
    | 0 => simp at hx; subst hx; simp
    | 1 => simp at hx; subst hx; simp
    | h + 2 => simp at hx

/-- What a recorded event is for what was asked, given the names. -/
def Codes (table : List (Nat × String)) (a : Asked) (e : Cbor.Event) : Prop :=
  e.time = a.time ∧ table.lookup e.id = some a.name ∧ e.id < 2 ^ 32 ∧ match a.what with
    | .enter => e.type = 1 ∧ e.data = none
    | .leave => e.type = 2 ∧ e.data = none
    | .mark .global => e.type = 3 ∧ e.data = none
    | .mark .process => e.type = 4 ∧ e.data = none
    | .mark .thread => e.type = 5 ∧ e.data = none
    | .count z => e.type = 6 ∧ e.data = some (Cbor.encodeCounter z) ∧ -2 ^ 63 ≤ z ∧ z < 2 ^ 63

/-- Names are never forgotten or changed. -/
def Keeps (t t' : List (Nat × String)) : Prop := ∀ id n, t.lookup id = some n → t'.lookup id = some n

theorem lookup_mem {l : List (Nat × String)} {a : Nat} {b : String} (h : l.lookup a = some b) : (a, b) ∈ l := by
  induction l with
  | nil => simp at h
  | cons p l ih =>
    rw [List.lookup_cons] at h
    split at h
    · rename_i e
      have := eq_of_beq e
      cases h
      subst this
      simp
    · exact List.mem_cons_of_mem _ (ih h)

/-- Making a context. -/
theorem newCtx_inv {s : State} {k : Known} (hi : Inv s k) (hn : s.next + 1 < 2 ^ 64) (c : Kind) (n : String) :
    (if k.contexts < 2 ^ 32 then (newCtx s c n).1 = .ctx k.contexts else (newCtx s c n).1 = .raised .typeError) ∧
    (newCtx s c n).2.events = s.events ∧ (newCtx s c n).2.next = s.next + 1 ∧ (newCtx s c n).2.helpers = s.helpers ∧ Keeps s.table (newCtx s c n).2.table ∧
    (∀ i, (newCtx s c n).1 = .ctx i → Inv (newCtx s c n).2 { k with name := upd k.name i n, kind := upd k.kind i c, contexts := k.contexts + 1 }) ∧
    ((∀ i, (newCtx s c n).1 ≠ .ctx i) → Inv (newCtx s c n).2 k) := by
  unfold newCtx
  simp only [Nat.mod_eq_of_lt hn]
  by_cases h : s.next < 2 ^ 32
  · have hk := hi.next h
    have fresh : ∀ id m, s.table.lookup id = some m → id ≠ s.next := fun id m hm => Nat.ne_of_lt (hi.below _ (lookup_mem hm))
    have keep : Keeps s.table ((s.next, n) :: s.table) := by
      intro id m hm
      rw [List.lookup_cons, show (id == s.next) = false from beq_false_of_ne (fresh id m hm)]
      exact hm
    simp only [h, ↓reduceIte]
    rw [if_pos (by omega)]
    refine ⟨by rw [hi.count], trivial, trivial, trivial, keep, ?_, ?_⟩
    · intro i hc
      simp only [Out.ctx.injEq] at hc
      subst hc
      refine ⟨?_, ?_, by simp [hi.count], by simp [hk], by simp; omega, hi.hcount, hi.helpers, ?_, hi.process, hi.thread⟩
      · intro j x hx
        simp only at hx ⊢
        by_cases hj : j < s.ctxs.length
        · rw [List.getElem?_append_left hj] at hx
          obtain ⟨h1, h2, h3, h4⟩ := hi.ctxs j x hx
          simp only [upd, Nat.ne_of_lt hj, ↓reduceIte]
          exact ⟨h1, h2, keep _ _ h3, h4⟩
        · by_cases he : j = s.ctxs.length
          · subst he
            simp only [List.getElem?_append_right (Nat.le_refl _), Nat.sub_self, List.getElem?_cons_zero, Option.some.injEq] at hx
            subst hx
            exact ⟨by simp [upd], by simp [upd], by simp, h⟩
          · rw [List.getElem?_eq_none (by simp; omega)] at hx
            cases hx
      · intro p hp
        simp only [List.mem_cons] at hp
        rcases hp with rfl | hp
        · exact Nat.lt_succ_self _
        · exact Nat.lt_succ_of_lt (hi.below p hp)
      · intro h' x m i hx hl
        have := hi.attrs h' x m i hx hl
        simp
        omega
    · intro hx
      exact absurd rfl (hx _)
  · simp only [h, ↓reduceIte]
    have hf := hi.full (by omega)
    rw [if_neg (by omega)]
    refine ⟨trivial, trivial, trivial, trivial, fun _ _ h => h, (by intro i hc; cases hc), ?_⟩
    intro _
    exact ⟨hi.ctxs, fun p hp => Nat.lt_succ_of_lt (hi.below p hp), hi.count, fun h' => absurd h' (by simp; omega), fun _ => hf, hi.hcount, hi.helpers, hi.attrs, hi.process, hi.thread⟩

theorem push_inv {s : State} {k : Known} (hi : Inv s k) (e : Cbor.Event) : Inv (push s e) k := by
  unfold push
  split
  · exact ⟨hi.ctxs, hi.below, hi.count, hi.next, hi.full, hi.hcount, hi.helpers, hi.attrs, hi.process, hi.thread⟩
  · exact hi

theorem push_rest (s : State) (e : Cbor.Event) : (push s e).next = s.next ∧ (push s e).table = s.table ∧ (push s e).events = s.events ++ (if s.process ∧ s.thread then [e] else []) := by
  unfold push
  cases s.process <;> cases s.thread <;> simp

theorem push_codes {s : State} {k : Known} (hi : Inv s k) (e : Cbor.Event) (a : Asked) (hc : Codes s.table a e) :
    ∃ evs, (push s e).events = s.events ++ evs ∧ List.Forall₂ (Codes (push s e).table) (if k.process ∧ k.thread then [a] else []) evs := by
  obtain ⟨_, h2, h3⟩ := push_rest s e
  refine ⟨_, h3, ?_⟩
  rw [h2, hi.process, hi.thread]
  split
  · exact .cons hc .nil
  · exact .nil

theorem step_inv {attrs : List String} {s s' : State} {k : Known} {t : Nat} {op : Op} {o : Out} (hi : Inv s k) (hn : s.next + 1 < 2 ^ 64) (e : step attrs s t op = some (o, s')) :
    Gives attrs k op o ∧ Inv s' (k.after op o) ∧ s'.next ≤ s.next + 1 ∧ Keeps s.table s'.table ∧
      ∃ evs, s'.events = s.events ++ evs ∧ List.Forall₂ (Codes s'.table) (k.asks t op o) evs := by
  have keep : Keeps s.table s.table := fun _ _ h => h
  cases op with
  | make c n =>
    simp only [step, Option.some.injEq] at e
    obtain ⟨h1, h2, h3, h4, h5, h6, h7⟩ := newCtx_inv hi hn c n
    rw [e] at h1 h2 h3 h4 h5 h6 h7
    simp only at h1 h2 h3 h4 h5 h6 h7
    refine ⟨h1, ?_, by omega, h5, [], by simp [h2], ?_⟩
    · cases o with
      | ctx i => exact h6 i rfl
      | _ => exact h7 (by intro i h; cases h)
    · simp only [Known.asks]
      exact .nil
  | makeHelper p c =>
    simp only [step, Option.some.injEq, Prod.mk.injEq] at e
    obtain ⟨rfl, rfl⟩ := e
    refine ⟨by simp [Gives, hi.hcount], ?_, Nat.le_succ _, keep, [], by simp, .nil⟩
    simp only [Known.after]
    refine ⟨hi.ctxs, hi.below, hi.count, hi.next, hi.full, by simp [hi.hcount], ?_, ?_, hi.process, hi.thread⟩
    · intro h x hx
      simp only at hx ⊢
      by_cases hh : h < s.helpers.length
      · rw [List.getElem?_append_left hh] at hx
        simp only [upd, Nat.ne_of_lt hh, ↓reduceIte]
        exact hi.helpers h x hx
      · by_cases he : h = s.helpers.length
        · subst he
          simp only [List.getElem?_append_right (Nat.le_refl _), Nat.sub_self, List.getElem?_cons_zero, Option.some.injEq] at hx
          subst hx
          simp [upd]
        · rw [List.getElem?_eq_none (by simp; omega)] at hx
          cases hx
    · intro h x n i hx hl
      simp only at hx
      by_cases hh : h < s.helpers.length
      · rw [List.getElem?_append_left hh] at hx
        exact hi.attrs h x n i hx hl
      · by_cases he : h = s.helpers.length
        · subst he
          simp only [List.getElem?_append_right (Nat.le_refl _), Nat.sub_self, List.getElem?_cons_zero, Option.some.injEq] at hx
          subst hx
          simp at hl
        · rw [List.getElem?_eq_none (by simp; omega)] at hx
          cases hx
  | find n =>
    simp only [step, moduleHelper] at e
    refine ⟨?_, ?_, ?_, ?_, [], ?_, ?_⟩
    · simp only [Gives]
      split at e <;> rename_i hm <;> simp only [Option.some.injEq, Prod.mk.injEq] at e <;> obtain ⟨rfl, rfl⟩ := e <;> split at hm
      · rename_i h; simp_all
      · split at hm <;> simp_all
      · cases hm
      · split at hm <;> simp_all
    all_goals
      split at e <;> simp only [Option.some.injEq, Prod.mk.injEq] at e <;> obtain ⟨rfl, rfl⟩ := e
    · exact hi
    · exact hi
    · omega
    · omega
    · exact keep
    · exact keep
    · simp
    · simp
    · exact .nil
    · exact .nil
  | get h n =>
    simp only [step] at e
    cases hh : s.helpers[h]? with
    | none => rw [hh] at e; cases e
    | some x =>
      rw [hh] at e
      simp only at e
      obtain ⟨hp, hk, hg⟩ := hi.helpers h x hh
      have own : ownAttr attrs n = true ↔ (n = "ctx_type" ∨ n = "prefix" ∨ n ∈ attrs) := by simp [ownAttr, or_assoc]
      by_cases ho : ownAttr attrs n = true
      · rw [if_pos ho] at e
        simp only [Option.some.injEq, Prod.mk.injEq] at e
        obtain ⟨rfl, rfl⟩ := e
        refine ⟨?_, hi, Nat.le_succ _, keep, [], by simp, .nil⟩
        simp only [Gives]
        rw [if_pos (own.1 ho)]
        trivial
      · rw [if_neg ho] at e
        have hno : ¬ (n = "ctx_type" ∨ n = "prefix" ∨ n ∈ attrs) := fun h => ho (own.2 h)
        cases hl : x.attrs.lookup n with
        | some i =>
          rw [hl] at e
          simp only [Option.some.injEq, Prod.mk.injEq] at e
          obtain ⟨rfl, rfl⟩ := e
          have hgn : k.got h n = some i := by rw [hg, hl]
          refine ⟨?_, ?_, Nat.le_succ _, keep, [], by simp, .nil⟩
          · simp only [Gives]
            rw [if_neg hno, hgn]
          · simp only [Known.after, hgn]
            exact hi
        | none =>
          rw [hl] at e
          simp only at e
          have hgn : k.got h n = none := by rw [hg, hl]
          obtain ⟨h1, h2, h3, h4, h5, h6, h7⟩ := newCtx_inv hi hn x.kind (x.prefix_ ++ n)
          cases hc : newCtx s x.kind (x.prefix_ ++ n) with
          | mk o1 s1 =>
            rw [hc] at e h1 h2 h3 h4 h5 h6 h7
            simp only at h1 h2 h3 h4 h5 h6 h7
            cases o1 with
            | ctx i =>
              simp only [Option.some.injEq, Prod.mk.injEq] at e
              obtain ⟨rfl, rfl⟩ := e
              have hi1 := h6 i rfl
              have hlt : h < s.helpers.length := by
                rcases Nat.lt_or_ge h s.helpers.length with h | h
                · exact h
                · rw [List.getElem?_eq_none h] at hh
                  cases hh
              refine ⟨?_, ?_, Nat.le_of_eq h3, h5, [], by simp [h2], .nil⟩
              · simp only [Gives]
                rw [if_neg hno, hgn]
                exact h1
              · simp only [Known.after, hgn]
                rw [hp, hk]
                have hi' : i = k.contexts := by
                  split at h1
                  · simpa using h1
                  · cases h1
                have hlen : s1.ctxs.length = k.contexts + 1 := hi1.count
                refine ⟨hi1.ctxs, hi1.below, hi1.count, hi1.next, hi1.full, by simp [hi.hcount], ?_, ?_, hi1.process, hi1.thread⟩
                · intro h' x' hx'
                  simp only at hx' ⊢
                  by_cases he : h' = h
                  · subst he
                    rw [List.getElem?_set_self hlt] at hx'
                    simp only [Option.some.injEq] at hx'
                    subst hx'
                    refine ⟨hp, hk, ?_⟩
                    intro m
                    simp only [upd, ↓reduceIte, List.lookup_cons]
                    by_cases hm : m = n
                    · subst hm
                      simp
                    · rw [show (m == n) = false from beq_false_of_ne hm]
                      simp only [hm, ↓reduceIte]
                      exact hg m
                  · rw [List.getElem?_set_ne (Ne.symm he)] at hx'
                    simp only [upd, he, ↓reduceIte]
                    exact hi.helpers h' x' hx'
                · intro h' x' m j hx' hl'
                  simp only at hx' ⊢
                  by_cases he : h' = h
                  · subst he
                    rw [List.getElem?_set_self hlt] at hx'
                    simp only [Option.some.injEq] at hx'
                    subst hx'
                    simp only [List.lookup_cons] at hl'
                    split at hl'
                    · simp only [Option.some.injEq] at hl'
                      omega
                    · have := hi.attrs h' x m j hh hl'
                      rw [hi.count] at this
                      omega
                  · rw [List.getElem?_set_ne (Ne.symm he)] at hx'
                    have := hi.attrs h' x' m j hx' hl'
                    rw [hi.count] at this
                    omega
            | _ =>
              simp only [Option.some.injEq, Prod.mk.injEq] at e
              obtain ⟨rfl, rfl⟩ := e
              refine ⟨?_, h7 (by intro i h; cases h), Nat.le_of_eq h3, h5, [], by simp [h2], .nil⟩
              simp only [Gives]
              rw [if_neg hno, hgn]
              exact h1
  | enter c =>
    simp only [step, Option.map_eq_some_iff, Prod.mk.injEq] at e
    obtain ⟨x, hx, rfl, rfl⟩ := e
    obtain ⟨h1, h2, h3, h4⟩ := hi.ctxs c x hx
    refine ⟨rfl, push_inv hi _, by rw [(push_rest _ _).1]; omega, by rw [(push_rest _ _).2.1]; exact keep, push_codes hi _ _ ⟨rfl, ?_, h4, rfl, rfl⟩⟩
    rw [h3, h1]
  | exit c =>
    simp only [step, Option.map_eq_some_iff, Prod.mk.injEq] at e
    obtain ⟨x, hx, rfl, rfl⟩ := e
    obtain ⟨h1, h2, h3, h4⟩ := hi.ctxs c x hx
    refine ⟨rfl, push_inv hi _, by rw [(push_rest _ _).1]; omega, by rw [(push_rest _ _).2.1]; exact keep, push_codes hi _ _ ⟨rfl, ?_, h4, rfl, rfl⟩⟩
    rw [h3, h1]
  | mark c l =>
    simp only [step, Option.map_eq_some_iff] at e
    obtain ⟨x, hx, e⟩ := e
    obtain ⟨h1, h2, h3, h4⟩ := hi.ctxs c x hx
    by_cases hk : x.kind = .marker
    · simp only [hk, ↓reduceIte, Prod.mk.injEq] at e
      obtain ⟨rfl, rfl⟩ := e
      refine ⟨by simp [Gives, h2, hk], push_inv hi _, by rw [(push_rest _ _).1]; omega, by rw [(push_rest _ _).2.1]; exact keep, push_codes hi _ _ ⟨rfl, ?_, h4, ?_⟩⟩
      · rw [h3, h1]
      · cases l <;> exact ⟨rfl, rfl⟩
    · simp only [hk, ↓reduceIte, Prod.mk.injEq] at e
      obtain ⟨rfl, rfl⟩ := e
      exact ⟨by simp [Gives, h2, hk], hi, Nat.le_succ _, keep, [], by simp, .nil⟩
  | count c v =>
    simp only [step, Option.map_eq_some_iff] at e
    obtain ⟨x, hx, e⟩ := e
    obtain ⟨h1, h2, h3, h4⟩ := hi.ctxs c x hx
    by_cases hk : x.kind = .counter
    · rw [if_pos hk] at e
      cases v with
      | other =>
        simp only [Prod.mk.injEq] at e
        obtain ⟨rfl, rfl⟩ := e
        exact ⟨by simp [Gives, h2, hk], hi, Nat.le_succ _, keep, [], by simp, .nil⟩
      | int z =>
        simp only at e
        by_cases hz : -2 ^ 63 ≤ z ∧ z < 2 ^ 63
        · rw [if_pos hz] at e
          simp only [Prod.mk.injEq] at e
          obtain ⟨rfl, rfl⟩ := e
          refine ⟨?_, push_inv hi _, by rw [(push_rest _ _).1]; omega, by rw [(push_rest _ _).2.1]; exact keep, push_codes hi _ _ ⟨rfl, ?_, h4, rfl, rfl, hz⟩⟩
          · simp only [Gives, h2, hk]
            rw [if_pos hz]
          · rw [h3, h1]
        · rw [if_neg hz] at e
          simp only [Prod.mk.injEq] at e
          obtain ⟨rfl, rfl⟩ := e
          refine ⟨?_, hi, Nat.le_succ _, keep, [], by simp, .nil⟩
          simp only [Gives, h2, hk]
          rw [if_neg hz]
    · rw [if_neg hk] at e
      simp only [Prod.mk.injEq] at e
      obtain ⟨rfl, rfl⟩ := e
      refine ⟨?_, hi, Nat.le_succ _, keep, [], by simp, ?_⟩
      · simp only [Gives, h2]
        cases hkk : x.kind with
        | counter => exact absurd hkk hk
        | _ => rfl
      · cases v <;> exact .nil
  | setThread b =>
    simp only [step, Option.some.injEq, Prod.mk.injEq] at e
    obtain ⟨rfl, rfl⟩ := e
    exact ⟨rfl, ⟨hi.ctxs, hi.below, hi.count, hi.next, hi.full, hi.hcount, hi.helpers, hi.attrs, hi.process, rfl⟩, Nat.le_succ _, keep, [], by simp, .nil⟩
  | setProcess b =>
    simp only [step, Option.some.injEq, Prod.mk.injEq] at e
    obtain ⟨rfl, rfl⟩ := e
    exact ⟨rfl, ⟨hi.ctxs, hi.below, hi.count, hi.next, hi.full, hi.hcount, hi.helpers, hi.attrs, rfl, hi.thread⟩, Nat.le_succ _, keep, [], by simp, .nil⟩

theorem codes_keep {t t' : List (Nat × String)} (h : Keeps t t') {as : List Asked} {es : List Cbor.Event} (hf : List.Forall₂ (Codes t) as es) : List.Forall₂ (Codes t') as es :=
  hf.imp fun _ _ hc => ⟨hc.1, h _ _ hc.2.1, hc.2.2⟩

theorem run_inv {attrs : List String} (prog : List (Nat × Op)) {s s' : State} {k : Known} {outs : List Out} (hi : Inv s k) (hn : s.next + prog.length < 2 ^ 64)
    (e : run attrs s prog = some (outs, s')) :
    AllGive attrs k prog outs ∧ Keeps s.table s'.table ∧ ∃ evs, s'.events = s.events ++ evs ∧ List.Forall₂ (Codes s'.table) (asked k prog outs) evs := by
  induction prog generalizing s k outs with
  | nil =>
    simp only [run, Option.some.injEq, Prod.mk.injEq] at e
    obtain ⟨rfl, rfl⟩ := e
    exact ⟨trivial, fun _ _ h => h, [], by simp, .nil⟩
  | cons p prog ih =>
    obtain ⟨t, op⟩ := p
    simp only [run] at e
    simp only [List.length_cons] at hn
    cases hs : step attrs s t op with
    | none => rw [hs] at e; cases e
    | some r =>
      obtain ⟨o, s1⟩ := r
      rw [hs] at e
      simp only [Option.map_eq_some_iff, Prod.mk.injEq] at e
      obtain ⟨r, hr, rfl, rfl⟩ := e
      obtain ⟨g1, g2, g3, g4, evs1, g5, g6⟩ := step_inv hi (by omega) hs
      obtain ⟨i1, i2, evs2, i3, i4⟩ := ih g2 (by omega) hr
      refine ⟨⟨g1, i1⟩, fun id n h => i2 id n (g4 id n h), evs1 ++ evs2, by rw [i3, g5, List.append_assoc], ?_⟩
      exact List.rel_append (codes_keep i2 g6) i4

/-! ## The theorems -/

/-- **C148, calls.** Every call gives what it has to give. -/
theorem calls_exact (attrs : List String) (prog : List (Nat × Op)) (outs : List Out) (s : State) (hn : prog.length < 2 ^ 64) (e : run attrs {} prog = some (outs, s)) :
    AllGive attrs {} prog outs := (run_inv prog inv_init (by simpa using hn) e).1

theorem asked_times (k : Known) (prog : List (Nat × Op)) (outs : List Out) : ((asked k prog outs).map (·.time)).Sublist (prog.map (·.1)) := by
  induction prog generalizing k outs with
  | nil => simp [asked]
  | cons p prog ih =>
    obtain ⟨t, op⟩ := p
    cases outs with
    | nil => simp [asked]
    | cons o os =>
      simp only [asked, List.map_append, List.map_cons]
      have : ((k.asks t op o).map (·.time)).Sublist [t] := by
        unfold Known.asks
        split <;> (try split) <;> simp
      exact List.Sublist.append this (ih _ _)

open NativeSource in
theorem codes_known {table : List (Nat × String)} {a : Asked} {e : Cbor.Event} (h : Codes table a e) : Spec.Known e := by
  obtain ⟨_, _, _, h⟩ := h
  unfold Spec.Known
  obtain ⟨t, n, w⟩ := a
  rcases w with _ | _ | l | z
  case count =>
    obtain ⟨h1, h2, h3⟩ := h
    refine ⟨by rw [h1]; rfl, fun _ => ?_⟩
    simp only [Spec.counterValue, h2, (C30.counter_round_trip z h3).1, Option.isSome_some]
  case mark =>
    cases l <;> obtain ⟨h1, _⟩ := h <;> exact ⟨by rw [h1]; rfl, fun h6 => by rw [h1] at h6; cases h6⟩
  all_goals
    obtain ⟨h1, _⟩ := h
    exact ⟨by rw [h1]; rfl, fun h6 => by rw [h1] at h6; cases h6⟩

open NativeSource in
theorem codes_shows {pid tid : Nat} {table : List (Nat × String)} {a : Asked} {e : Cbor.Event} (h : Codes table a e) {x : Entry}
    (hx : NativeSource.Shows [((pid : Int), table)] x ⟨pid, tid, e⟩) : C148.Shows pid tid a x := by
  obtain ⟨h1, h2, _, h⟩ := h
  obtain ⟨hs, hv⟩ := hx
  have hname : ScopeNames.getScopeName [((pid : Int), table)] pid e.id = a.name := by
    simp [ScopeNames.getScopeName, h2]
  have e1 : x.ts = Double.ts e.time := congrArg Spec.Shown.ts hs
  have e2 : x.pid = pid := congrArg Spec.Shown.pid hs
  have e3 : x.tid = tid := congrArg Spec.Shown.tid hs
  have e4 : x.name = Spec.shownName [((pid : Int), table)] ⟨pid, tid, e⟩ := congrArg Spec.Shown.name hs
  have e5 : x.ph = ((Spec.phase e.type).getD ("", none)).1 := congrArg Spec.Shown.ph hs
  have e6 : x.s = ((Spec.phase e.type).getD ("", none)).2 := congrArg Spec.Shown.s hs
  simp only [Spec.shownName, hname] at e4
  refine ⟨by rw [e1, h1], e2, e3, ?_, ?_, ?_⟩
  · obtain ⟨t, n, w⟩ := a
    rcases w with _ | _ | l | z
    case mark => cases l <;> obtain ⟨ht, _⟩ := h <;> rw [e5, e6, ht] <;> rfl
    all_goals obtain ⟨ht, _⟩ := h; rw [e5, e6, ht]; rfl
  · obtain ⟨t, n, w⟩ := a
    rcases w with _ | _ | l | z
    case mark => cases l <;> obtain ⟨ht, _⟩ := h <;> rw [e4, ht] <;> rfl
    case count =>
      obtain ⟨ht, _⟩ := h
      rw [e4, ht]
      exact EndToEnd.split_first n
    all_goals obtain ⟨ht, _⟩ := h; rw [e4, ht]; rfl
  · intro z hz
    rw [hz] at h
    simp only at h
    obtain ⟨ht, hd, hr⟩ := h
    apply hv
    have e4' := e4
    rw [ht] at e4'
    simp only [Spec.seriesOf]
    rw [if_pos ⟨ht, by rw [e2], by simp only [Spec.shownName, hname, ht, ↓reduceIte]; rw [e4']; rfl⟩]
    simp only [Spec.counterValue, hd, (C30.counter_round_trip z hr).1, Option.map_some, hname, EndToEnd.split_second]

open NativeSource in
theorem sort_sorted {l : List Entry} (h : l.Pairwise fun a b => a.ts ≤ b.ts) : stableSort l = l := by
  have := stableSort_filter (fun _ => true) l (by simpa using h)
  simpa using this

open NativeSource in
theorem forall2_right {table : List (Nat × String)} {pid tid : Nat} {as : List Asked} {es : List Cbor.Event} {xs : List Entry} (h : List.Forall₂ (Codes table) as es)
    (hx : List.Forall₂ (NativeSource.Shows [((pid : Int), table)]) xs (es.map fun e => ⟨pid, tid, e⟩)) : List.Forall₂ (C148.Shows pid tid) as xs := by
  induction h generalizing xs with
  | nil =>
    cases hx
    exact .nil
  | cons h1 _ ih =>
    cases hx with
    | cons h2 h3 => exact .cons (codes_shows h1 h2) (ih h3)

/-- **C148.** What a program asks to be recorded, while tracing is on, is what the viewer shows: one entry for each call, in the order of the calls, with the name of the context, the kind of the call, the level of a mark and the value
    of a counter. -/
theorem shown_exact (attrs : List String) (prog : List (Nat × Op)) (outs : List Out) (s : State) (hn : prog.length < 2 ^ 64) (e : run attrs {} prog = some (outs, s))
    (hsorted : (prog.map (·.1)).Pairwise (· ≤ ·)) (htimes : ∀ t ∈ prog.map (·.1), t < 2 ^ 64) (pid tid : Nat) (hp : pid < 2 ^ 31) (ht : tid < 2 ^ 64) :
    ∃ res, shown pid tid s = .ok res ∧ List.Forall₂ (Shows pid tid) (asked {} prog outs) res := by
  obtain ⟨_, _, evs, h1, h2⟩ := run_inv prog inv_init (by simpa using hn) e
  simp only [List.nil_append] at h1
  have times := asked_times {} prog outs
  have hlen : evs.length < 2 ^ 64 := by
    have := h2.length_eq
    have h3 := times.length_le
    simp only [List.length_map] at h3
    omega
  have emem : ∀ x ∈ evs, ∃ a ∈ asked {} prog outs, Codes s.table a x := by
    intro x hx
    obtain ⟨i, hi, rfl⟩ := List.mem_iff_getElem.1 hx
    have hi' : i < (asked {} prog outs).length := by rw [h2.length_eq]; exact hi
    exact ⟨_, List.getElem_mem hi', (List.forall₂_iff_get.1 h2).2 i hi' hi⟩
  have hv : NativeSource.Valid [(pid, [(tid, evs)])] := by
    intro b hb
    simp only [List.mem_singleton] at hb
    subst hb
    refine ⟨hp, by simp, by simpa using ht, by simp, by simpa using hlen, ?_⟩
    intro x hx y hy
    simp only [List.mem_singleton] at hx
    subst hx
    obtain ⟨a, ha, hc⟩ := emem y hy
    obtain ⟨c1, c2, c3, c4⟩ := hc
    refine ⟨?_, c3, ?_, ?_⟩
    · rw [c1]
      exact htimes _ (times.subset (List.mem_map_of_mem ha))
    · split at c4 <;> rw [c4.1] <;> decide
    · intro d hd
      obtain ⟨t, n, w⟩ := a
      rcases w with _ | _ | l | z
      case count =>
        simp only at c4
        rw [c4.2.1] at hd
        simp only [Option.some.injEq] at hd
        subst hd
        have := (C30.counter_round_trip z c4.2.2).2
        omega
      case mark => cases l <;> simp only at c4 <;> rw [c4.2] at hd <;> cases hd
      all_goals simp only at c4; rw [c4.2] at hd; cases hd
  have hr : NativeSource.Spec.recorded [(pid, [(tid, evs)])] = evs.map fun e => ⟨pid, tid, e⟩ := by simp [NativeSource.Spec.recorded]
  have hk : ∀ r ∈ NativeSource.Spec.recorded [(pid, [(tid, evs)])], NativeSource.Spec.Known r.event := by
    intro r hr'
    rw [hr] at hr'
    obtain ⟨x, hx, rfl⟩ := List.mem_map.1 hr'
    obtain ⟨a, _, hc⟩ := emem x hx
    exact codes_known hc
  obtain ⟨es, g1, g2, _, _⟩ := NativeSource.finish_known [((pid : Int), s.table)] [(pid, [(tid, evs)])] hv hk
  obtain ⟨es', g3, g4⟩ := NativeSource.convertAll_shows [((pid : Int), s.table)] _ hk []
  rw [g1] at g3
  simp only [Prod.mk.injEq, and_true] at g3
  subst g3
  have sorted : es.Pairwise fun a b => a.ts ≤ b.ts := by
    rw [hr] at g4
    have g5 := forall2_right h2 g4
    have : (asked {} prog outs).Pairwise fun a b => a.time ≤ b.time := by
      have := hsorted.sublist times
      rwa [List.pairwise_map] at this
    rw [List.pairwise_iff_getElem] at this ⊢
    intro i j hi hj hij
    have hl := g5.length_eq
    have a1 := (List.forall₂_iff_get.1 g5).2 i (by omega) hi
    have a2 := (List.forall₂_iff_get.1 g5).2 j (by omega) hj
    simp only [List.get_eq_getElem] at a1 a2
    rw [a1.time, a2.time]
    exact C64.timestamps_monotone _ _ (this i j (by omega) (by omega) hij)
  refine ⟨_, ?_, forall2_right h2 (by
    have := NativeSource.backfill_shows _ _ _ g4
    rwa [hr] at this)⟩
  unfold shown
  rw [h1, ← sort_sorted sorted] 
  exact g2

/-- What a user of the module expects: for every class of contexts there is a helper in the module. -/
def HelperForAll : Prop := ∀ c : Kind, ∃ (name : String) (h : Nat), moduleHelper name = some h ∧ ∃ x : Helper, ({} : State).helpers[h]? = some x ∧ x.kind = c

/-- The program uses only the helpers of the module. -/
def OnlyModule (prog : List (Nat × Op)) : Prop := ∀ p ∈ prog, ∀ (k : Kind) (n : String), p.2 ≠ .make k n ∧ p.2 ≠ .makeHelper n k

structure NoMarker (s : State) : Prop where
  ctxs : ∀ x ∈ s.ctxs, x.kind ≠ .marker
  helpers : ∀ x ∈ s.helpers, x.kind ≠ .marker

theorem newCtx_noMarker {s : State} (h : NoMarker s) {c : Kind} (hc : c ≠ .marker) (n : String) : NoMarker (newCtx s c n).2 ∧ (newCtx s c n).2.helpers = s.helpers := by
  unfold newCtx
  simp only
  split
  · refine ⟨⟨?_, h.helpers⟩, rfl⟩
    intro x hx
    simp only [List.mem_append, List.mem_singleton] at hx
    rcases hx with hx | rfl
    · exact h.ctxs x hx
    · exact hc
  · exact ⟨⟨h.ctxs, h.helpers⟩, rfl⟩

theorem push_noMarker {s : State} (h : NoMarker s) (e : Cbor.Event) : NoMarker (push s e) := by
  unfold push
  split
  · exact ⟨h.ctxs, h.helpers⟩
  · exact h

theorem step_noMarker {attrs : List String} {s s' : State} {t : Nat} {op : Op} {o : Out} (h : NoMarker s) (hm : ∀ (k : Kind) (n : String), op ≠ .make k n ∧ op ≠ .makeHelper n k)
    (e : step attrs s t op = some (o, s')) : NoMarker s' ∧ ∀ c l, op = .mark c l → o = .raised .attributeError := by
  cases op with
  | make k n => exact absurd rfl (hm k n).1
  | makeHelper n k => exact absurd rfl (hm k n).2
  | find n =>
    refine ⟨?_, by intro c l h; cases h⟩
    simp only [step] at e
    split at e <;> simp only [Option.some.injEq, Prod.mk.injEq] at e <;> rw [← e.2] <;> exact h
  | get i n =>
    refine ⟨?_, by intro c l h; cases h⟩
    simp only [step] at e
    cases hh : s.helpers[i]? with
    | none => rw [hh] at e; cases e
    | some x =>
      rw [hh] at e
      simp only at e
      have hx := h.helpers x (List.mem_of_getElem? hh)
      split at e
      · simp only [Option.some.injEq, Prod.mk.injEq] at e
        rw [← e.2]
        exact h
      · split at e
        · simp only [Option.some.injEq, Prod.mk.injEq] at e
          rw [← e.2]
          exact h
        · obtain ⟨h1, h2⟩ := newCtx_noMarker h hx (x.prefix_ ++ n)
          cases hc : newCtx s x.kind (x.prefix_ ++ n) with
          | mk o1 s1 =>
            rw [hc] at e h1 h2
            cases o1 with
            | ctx j =>
              simp only [Option.some.injEq, Prod.mk.injEq] at e
              rw [← e.2]
              refine ⟨h1.ctxs, ?_⟩
              intro y hy
              rcases List.mem_or_eq_of_mem_set hy with hy | rfl
              · exact h.helpers y hy
              · exact hx
            | _ =>
              simp only [Option.some.injEq, Prod.mk.injEq] at e
              rw [← e.2]
              exact h1
  | mark c l =>
    simp only [step, Option.map_eq_some_iff] at e
    obtain ⟨x, hx, e⟩ := e
    rw [if_neg (h.ctxs x (List.mem_of_getElem? hx))] at e
    simp only [Prod.mk.injEq] at e
    rw [← e.2, ← e.1]
    exact ⟨h, fun _ _ _ => rfl⟩
  | enter c =>
    refine ⟨?_, by intro c l h; cases h⟩
    simp only [step, Option.map_eq_some_iff, Prod.mk.injEq] at e
    obtain ⟨x, _, _, rfl⟩ := e
    exact push_noMarker h _
  | exit c =>
    refine ⟨?_, by intro c l h; cases h⟩
    simp only [step, Option.map_eq_some_iff, Prod.mk.injEq] at e
    obtain ⟨x, _, _, rfl⟩ := e
    exact push_noMarker h _
  | count c v =>
    refine ⟨?_, by intro c l h; cases h⟩
    simp only [step, Option.map_eq_some_iff] at e
    obtain ⟨x, _, e⟩ := e
    split at e
    · split at e
      · split at e <;> simp only [Prod.mk.injEq] at e <;> rw [← e.2]
        · exact push_noMarker h _
        · exact h
      · simp only [Prod.mk.injEq] at e
        rw [← e.2]
        exact h
    · simp only [Prod.mk.injEq] at e
      rw [← e.2]
      exact h
  | setThread b =>
    refine ⟨?_, by intro c l h; cases h⟩
    simp only [step, Option.some.injEq, Prod.mk.injEq] at e
    rw [← e.2]
    exact ⟨h.ctxs, h.helpers⟩
  | setProcess b =>
    refine ⟨?_, by intro c l h; cases h⟩
    simp only [step, Option.some.injEq, Prod.mk.injEq] at e
    rw [← e.2]
    exact ⟨h.ctxs, h.helpers⟩

theorem run_noMarker {attrs : List String} (prog : List (Nat × Op)) {s s' : State} {outs : List Out} (h : NoMarker s) (hm : OnlyModule prog) (e : run attrs s prog = some (outs, s')) :
    ∀ x ∈ prog.zip outs, ∀ c l, x.1.2 = .mark c l → x.2 = .raised .attributeError := by
  induction prog generalizing s outs with
  | nil => simp
  | cons p prog ih =>
    obtain ⟨t, op⟩ := p
    simp only [run] at e
    cases hs : step attrs s t op with
    | none => rw [hs] at e; cases e
    | some r =>
      obtain ⟨o, s1⟩ := r
      rw [hs] at e
      simp only [Option.map_eq_some_iff, Prod.mk.injEq] at e
      obtain ⟨r, hr, rfl, rfl⟩ := e
      obtain ⟨g1, g2⟩ := step_noMarker h (fun k n => hm (t, op) (by simp) k n) hs
      intro x hx
      simp only [List.zip_cons_cons, List.mem_cons] at hx
      rcases hx with rfl | hx
      · exact g2
      · exact ih g1 (fun p hp => hm p (by simp [hp])) hr x hx

/-- A program that gets its contexts from the helpers of the module cannot make marks: every attempt raises an exception. -/
theorem no_marks (attrs : List String) (prog : List (Nat × Op)) (outs : List Out) (s : State) (hm : OnlyModule prog) (e : run attrs {} prog = some (outs, s)) :
    ∀ x ∈ prog.zip outs, ∀ c l, x.1.2 = .mark c l → x.2 = .raised .attributeError :=
  run_noMarker prog ⟨by simp, by simp⟩ hm e

/-- There is no helper for marks: `tracing.trace_mark`, which examples/readme_example.py:60, 68 use, does not exist. -/
theorem not_HelperForAll : ¬ HelperForAll := by
  intro h
  obtain ⟨name, i, h1, x, h2, h3⟩ := h .marker
  unfold moduleHelper at h1
  split at h1
  · cases h1
    simp at h2
    subst h2
    cases h3
  · split at h1
    · cases h1
      simp at h2
      subst h2
      cases h3
    · cases h1

/-! ## Examples -/

/-- A section, a mark in it, a counter with two series, the thread switched off and on, and a helper for marks that the program has made. -/
def sample : List (Nat × Op) :=
  [(1, .find "trace_section"), (2, .get 0 "work"), (3, .enter 0), (4, .makeHelper "m/" .marker), (5, .get 2 "here"), (6, .mark 1 .process), (7, .get 1 "mem/used"), (8, .count 2 (.int (-5))),
   (9, .setThread false), (10, .mark 1 .global), (11, .setThread true), (12, .get 2 "here"), (13, .mark 1 .thread), (14, .count 2 .other), (15, .mark 0 .thread), (16, .find "trace_mark"), (17, .exit 0)]

theorem sample_run : (run ["__init__"] {} sample).map (·.1) = some
    [.helper 0, .ctx 0, .none, .helper 2, .ctx 1, .none, .ctx 2, .none, .none, .none, .none, .ctx 1, .none, .raised .typeError, .raised .attributeError, .raised .attributeError, .none] := by
  decide +kernel

/-- What is shown for it. -/
example : ∃ outs s res, run ["__init__"] {} sample = some (outs, s) ∧ shown 7 70 s = .ok res ∧
    List.Forall₂ (Shows 7 70) [⟨3, "work", .enter⟩, ⟨6, "m/here", .mark .process⟩, ⟨8, "mem/used", .count (-5)⟩, ⟨13, "m/here", .mark .thread⟩, ⟨17, "work", .leave⟩] res := by
  have h := sample_run
  rw [Option.map_eq_some_iff] at h
  obtain ⟨⟨outs, s⟩, e, ho⟩ := h
  obtain ⟨res, h1, h2⟩ := shown_exact _ sample outs s (by decide) e (by decide) (by decide) 7 70 (by decide) (by decide)
  refine ⟨outs, s, res, e, h1, ?_⟩
  simp only at ho
  rw [ho] at h2
  exact h2

example : AllGive ["__init__"] {} sample
    [.helper 0, .ctx 0, .none, .helper 2, .ctx 1, .none, .ctx 2, .none, .none, .none, .none, .ctx 1, .none, .raised .typeError, .raised .attributeError, .raised .attributeError, .none] := by
  have h := sample_run
  rw [Option.map_eq_some_iff] at h
  obtain ⟨⟨outs, s⟩, e, ho⟩ := h
  have := calls_exact _ sample outs s (by decide) e
  simp only at ho
  rw [ho] at this
  exact this

/-- A program that tries to mark with what the module gives. -/
example : OnlyModule [(1, .find "trace_mark"), (2, .get 0 "x"), (3, .mark 0 .global)] := by
  intro p hp k n
  simp only [List.mem_cons, List.not_mem_nil, or_false] at hp
  rcases hp with rfl | rfl | rfl <;> simp

end Scalopus.C148
