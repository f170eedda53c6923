import Verif.Model.Destinations
import Verif.Props.C17_Discovery

/-!
# C59 destinations are told apart, C61 the loopback factory
-/

namespace Scalopus.C59

open Protocol Discovery SocketTable Destinations

theorem printDec_eq (n : Nat) (buf : Bytes) : printDec n buf = decimal n ++ buf := by
  fun_induction printDec n buf with
  | case1 n buf h => rw [decimal, if_pos h]; rfl
  | case2 n buf h ih => rw [ih]; conv => rhs; rw [decimal, if_neg h]
                        simp

theorem decimal_length (k : Nat) : ∀ n, n < 10 ^ (k + 1) → (decimal n).length ≤ k + 1 := by
  induction k with
  | zero => intro n h; rw [decimal, if_pos (by simpa using h)]; simp
  | succ k ih =>
    intro n h
    rw [decimal]
    split
    · simp
    · simp only [List.length_append, List.length_singleton]
      have := ih (n / 10) (by rw [Nat.div_lt_iff_lt_mul (by omega)]; rw [← Nat.pow_succ]; exact h)
      omega

/-- The name a server binds is the one that C17 assumes, and clients connect to the same name. -/
theorem socketName_eq (pid : Nat) (h : pid < 2 ^ 64) : Addr.abstract (socketName pid) = serverAddr pid := by
  unfold socketName serverAddr
  rw [printDec_eq, C17.scalopus_eq]
  have hlen := decimal_length 19 pid (by omega)
  rw [List.take_of_length_le (by simp [suffix]; omega)]
  congr 1
  apply C17.cStr_noNul
  intro x hx
  rw [List.mem_append] at hx
  rcases hx with hx | hx
  · exact (C17.digit_facts x (C17.decimal_digits pid x hx)).1
  · revert x; decide

/-- **C59, unix.** Two destinations, made from process ids as the kernel hands them out, have the same hash iff they denote the
    same process; the same holds for their printed form; and the servers of two processes use different socket names. -/
theorem unix_destinations (p q : Nat) (hp : p < 2 ^ 32) (hq : q < 2 ^ 32) :
    ((destUnix p).hash = (destUnix q).hash ↔ p = q) ∧ ((destUnix p).str = (destUnix q).str ↔ p = q) ∧
    (socketName p = socketName q ↔ p = q) := by
  have hh : ∀ n, n < 2 ^ 32 → (destUnix n).hash = n := by
    intro n hn
    unfold destUnix DestUnix.hash
    simp only [UInt32.toNat_ofNat']
    exact Nat.mod_eq_of_lt hn
  refine ⟨by rw [hh p hp, hh q hq], ?_, ?_⟩
  · constructor
    · intro h
      unfold DestUnix.str at h
      rw [List.append_cancel_left_eq, printDec_eq, printDec_eq] at h
      have := C17.decimal_inj _ _ (List.append_cancel_right h)
      rw [← hh p hp, ← hh q hq]
      exact this
    · rintro rfl; rfl
  · constructor
    · intro h
      have := congrArg Addr.abstract h
      rw [socketName_eq p (by omega), socketName_eq q (by omega)] at this
      exact C17.serverAddr_inj _ _ this
    · rintro rfl; rfl

/-- The printed form of the destination of a process is `<unix:pid>`. -/
theorem unix_form (p : Nat) (hp : p < 2 ^ 32) : (destUnix p).str = ("<unix:".toList.map fun c => UInt8.ofNat c.toNat) ++ decimal p ++ (">".toList.map fun c => UInt8.ofNat c.toNat) := by
  have h1 : ("<unix:".toList.map fun c => UInt8.ofNat c.toNat) = [60, 117, 110, 105, 120, 58] := by decide
  have h2 : (">".toList.map fun c => UInt8.ofNat c.toNat) = [62] := by decide
  rw [h1, h2]
  unfold DestUnix.str
  rw [printDec_eq, List.append_assoc, show (destUnix p).pid.toNat = p from by
    unfold destUnix; simp only [UInt32.toNat_ofNat']; exact Nat.mod_eq_of_lt hp]

example : (destUnix 16121).hash ≠ (destUnix 16122).hash := by decide

/-- The full property C59 for loopback destinations (false). -/
def LoopbackToldApart : Prop :=
  ∀ (h : Heap), h.Sound → ∀ a b : DestLoop, a.hash h = b.hash h ↔ a.obj = b.obj

/-- **C59, loopback, partial.** While the servers exist, two loopback destinations have the same hash iff they denote the same
    server object. Missing: destinations of servers that are gone. -/
theorem loopback_destinations_partial (h : Heap) (hs : h.Sound) (a b : DestLoop) (x : Nat)
    (ha : h a.obj = some x) (hb : h b.obj ≠ none) : a.hash h = b.hash h ↔ a.obj = b.obj := by
  cases hb' : h b.obj with
  | none => exact absurd hb' hb
  | some y =>
    unfold DestLoop.hash
    rw [ha, hb']
    simp only [Option.getD_some]
    constructor
    · rintro rfl; exact hs.2 _ _ _ ha hb'
    · intro e; rw [e, hb'] at ha; simp at ha; exact ha.symm

/-- A destination of a server that is gone is never taken for one of a server that exists. -/
theorem gone_is_not_live (h : Heap) (hs : h.Sound) (a b : DestLoop) (ha : h a.obj = none) (hb : h b.obj ≠ none) :
    a.hash h ≠ b.hash h := by
  cases hb' : h b.obj with
  | none => exact absurd hb' hb
  | some y =>
    unfold DestLoop.hash
    rw [ha, hb']
    simp only [Option.getD_none, Option.getD_some]
    intro e
    exact hs.1 b.obj (by rw [hb', ← e])

/-- **C59 is violated**: destinations of two different servers that are gone are taken for the same. -/
theorem gone_destinations_collide : ¬ LoopbackToldApart := by
  intro h
  have := (h (fun _ => none) ⟨by simp, by simp⟩ ⟨0⟩ ⟨1⟩).1 rfl
  simp at this

/-- **C59, loopback, exactly.** In every state of the process two loopback destinations are taken for the same server iff they denote the same server object or both servers are gone. -/
theorem loopback_destinations_exact (h : Heap) (hs : h.Sound) (a b : DestLoop) : a.hash h = b.hash h ↔ a.obj = b.obj ∨ h a.obj = none ∧ h b.obj = none := by
  cases ha : h a.obj with
  | none =>
    cases hb : h b.obj with
    | none => simp [DestLoop.hash, ha, hb]
    | some y =>
      have := gone_is_not_live h hs a b ha (by simp [hb])
      simp only [this, false_iff, reduceCtorEq, and_false, or_false]
      intro e
      rw [e, hb] at ha
      cases ha
  | some x =>
    cases hb : h b.obj with
    | none =>
      have := gone_is_not_live h hs b a hb (by simp [ha])
      simp only [this.symm, false_iff, reduceCtorEq, false_and, or_false]
      intro e
      rw [e, hb] at ha
      cases ha
    | some y =>
      rw [loopback_destinations_partial h hs a b x ha (by simp [hb])]
      simp

/-- Whatever servers there are: when one goes, a new one can be put in its place in memory, and gets the hash that was recorded for the old one. -/
theorem recorded_hash_reused_always (h : Heap) (hs : h.Sound) (old new : DestLoop) (ho : h old.obj ≠ none) (hn : h new.obj = none) :
    ∃ after : Heap, after.Sound ∧ after old.obj = none ∧ after new.obj ≠ none ∧ (∀ i, i ≠ old.obj → i ≠ new.obj → after i = h i) ∧ new.hash after = old.hash h := by
  have hne : old.obj ≠ new.obj := by intro e; rw [e] at ho; exact ho hn
  obtain ⟨x, hx⟩ := Option.ne_none_iff_exists'.mp ho
  refine ⟨fun i => if i = new.obj then some x else if i = old.obj then none else h i, ⟨?_, ?_⟩, ?_, ?_, ?_, ?_⟩
  · intro i e
    simp only at e
    split at e
    · exact hs.1 old.obj (by rw [hx, e])
    · split at e
      · cases e
      · exact hs.1 i e
  · intro i j y h1 h2
    simp only at h1 h2
    split at h1 <;> split at h2
    · rename_i e1 e2; rw [e1, e2]
    · rename_i e1 e2
      split at h2
      · cases h2
      · rename_i e3
        rw [Option.some.injEq] at h1
        subst h1
        exact absurd (hs.2 _ _ _ h2 hx) e3
    · rename_i e1 e2
      split at h1
      · cases h1
      · rename_i e3
        rw [Option.some.injEq] at h2
        subst h2
        exact absurd (hs.2 _ _ _ h1 hx) e3
    · split at h1
      · cases h1
      · split at h2
        · cases h2
        · exact hs.2 _ _ _ h1 h2
  · simp [hne]
  · simp
  · intro i h1 h2; simp [h1, h2]
  · simp [DestLoop.hash, hx]

/-- A server that takes the place of one that is gone can get the hash that was recorded for the old one: hashes may not be kept
    longer than the server. -/
theorem recorded_hash_is_reused :
    ∃ (before after : Heap) (old new : DestLoop), before.Sound ∧ after.Sound ∧ old.obj ≠ new.obj ∧
      before old.obj ≠ none ∧ after new.obj ≠ none ∧ old.hash before = new.hash after := by
  refine ⟨fun i => if i = 0 then some 4096 else none, fun i => if i = 1 then some 4096 else none, ⟨0⟩, ⟨1⟩,
    ⟨?_, ?_⟩, ⟨?_, ?_⟩, by simp, by simp, by simp, rfl⟩
  · intro i; simp only; split <;> simp
  · intro i j a h1 h2; grind
  · intro i; simp only; split <;> simp
  · intro i j a h1 h2; grind

example : Heap.Sound (fun i => if i < 3 then some (64 * (i + 1)) else none) ∧
    (DestLoop.mk 1).hash (fun i => if i < 3 then some (64 * (i + 1)) else none) = 128 := by
  refine ⟨⟨?_, ?_⟩, rfl⟩
  · intro i; simp only; split <;> simp
  · intro i j a h1 h2; grind

end Scalopus.C59

namespace Scalopus.C61

open Destinations

/-- Nothing is ahead of the counter of objects. -/
structure Inv (f : Factory) : Prop where
  servers : ∀ o ∈ f.servers, o < f.next
  live : ∀ o ∈ f.live, o < f.next
  nodup : f.servers.Nodup
  clients : ∀ x ∈ f.clients, x.1 < f.next ∧ x.2 < f.next

theorem inv_step (f : Factory) (h : Inv f) (a : Act) : Inv (f.step a) := by
  obtain ⟨h1, h2, h3, h4⟩ := h
  cases a with
  | serve =>
    constructor
    · intro o ho; simp [Factory.step, Factory.serve] at ho ⊢; rcases ho with ho | ho
      · have := h1 o ho; omega
      · omega
    · intro o ho; simp [Factory.step, Factory.serve] at ho ⊢; rcases ho with ho | ho
      · have := h2 o ho; omega
      · omega
    · simp only [Factory.step, Factory.serve]
      rw [List.nodup_append]
      refine ⟨h3, by simp, ?_⟩
      intro a ha b hb
      simp at hb
      have := h1 a ha
      omega
    · intro x hx
      have := h4 x hx
      simp only [Factory.step, Factory.serve]; omega
  | connect d =>
    simp only [Factory.step, Factory.connect]
    split
    · rename_i hl
      constructor
      · intro o ho; have := h1 o ho; simp only; omega
      · intro o ho; simp at ho ⊢; rcases ho with ho | ho
        · have := h2 o ho; omega
        · omega
      · exact h3
      · intro x hx; simp at hx ⊢; rcases hx with hx | hx
        · have := h4 x hx; omega
        · subst hx; have := h2 _ hl; simp only; omega
    · exact ⟨h1, h2, h3, h4⟩
  | drop o =>
    refine ⟨h1, ?_, h3, h4⟩
    intro o' ho'
    simp [Factory.step, Factory.drop] at ho'
    exact h2 o' ho'.1

theorem inv_run (as : List Act) : ∀ f, Inv f → Inv (f.run as) := by
  induction as with
  | nil => intro f h; exact h
  | cons a as ih => intro f h; exact ih _ (inv_step f h a)

/-- **C61, discovery.** After any history, a new server is discovered, each server is discovered once, exactly until its owner drops
    it, and clients are never discovered. -/
theorem factory_discovers (as : List Act) :
    let f := Factory.run {} as
    f.discover.Nodup ∧
    (⟨f.serve.2⟩ : DestLoop) ∈ f.serve.1.discover ∧
    (∀ d, d ∈ f.serve.1.discover ↔ d ∈ f.discover ∨ d = ⟨f.serve.2⟩) ∧
    (∀ d d', d' ∈ (f.connect d).1.discover ↔ d' ∈ f.discover) ∧
    (∀ o d, d ∈ (f.drop o).discover ↔ d ∈ f.discover ∧ d.obj ≠ o) := by
  intro f
  obtain ⟨h1, h2, h3, h4⟩ := inv_run as {} ⟨by simp, by simp, by simp, by simp⟩
  change ∀ o ∈ f.servers, o < f.next at h1
  change ∀ o ∈ f.live, o < f.next at h2
  refine ⟨?_, ?_, ?_, ?_, ?_⟩
  · unfold Factory.discover
    apply List.Pairwise.map _ _ (h3.filter _)
    intro a b hab e
    simp at e; exact hab e
  · simp [Factory.discover, Factory.serve]
  · rintro ⟨o⟩
    simp only [Factory.discover, Factory.serve, List.mem_map, List.mem_filter, List.mem_append, List.mem_singleton,
      decide_eq_true_eq, DestLoop.mk.injEq, exists_eq_right]
    have := h1 o
    have := h2 o
    grind
  · rintro d ⟨o⟩
    unfold Factory.connect
    split
    · simp only [Factory.discover, List.mem_map, List.mem_filter, List.mem_append, List.mem_singleton,
        decide_eq_true_eq, DestLoop.mk.injEq, exists_eq_right]
      have := h1 o
      grind
    · rfl
  · rintro o ⟨o'⟩
    simp only [Factory.discover, Factory.drop, List.mem_map, List.mem_filter, 
      decide_eq_true_eq, DestLoop.mk.injEq, exists_eq_right]
    grind

/-- **C61, connecting.** Connecting to a discovered server gives a new client, which the server knows from then on and no other
    server does; connecting to a server that is gone gives a null pointer and changes nothing. -/
theorem factory_connects (as : List Act) (d : DestLoop) :
    let f := Factory.run {} as
    (d ∈ f.discover → ∃ c, (f.connect d).2 = some c ∧ c ∉ f.live ∧ c ∈ (f.connect d).1.live ∧
      ∀ s, (s, c) ∈ (f.connect d).1.clients ↔ s = d.obj) ∧
    (d.obj ∉ f.live → f.connect d = (f, none)) := by
  intro f
  obtain ⟨h1, h2, h3, h4⟩ := inv_run as {} ⟨by simp, by simp, by simp, by simp⟩
  change ∀ o ∈ f.live, o < f.next at h2
  change ∀ x ∈ f.clients, x.1 < f.next ∧ x.2 < f.next at h4
  refine ⟨?_, ?_⟩
  · intro hd
    have hl : d.obj ∈ f.live := by
      obtain ⟨o⟩ := d
      simp [Factory.discover] at hd
      exact hd.2
    refine ⟨f.next, by simp [Factory.connect, hl], ?_, by simp [Factory.connect, hl], ?_⟩
    · intro hc; have := h2 _ hc; omega
    · intro s
      simp only [Factory.connect, hl, if_true, List.mem_append, List.mem_singleton, Prod.mk.injEq, and_true]
      constructor
      · rintro (h | h)
        · have := (h4 _ h).2; simp at this
        · exact h
      · intro h; exact Or.inr h
  · intro hl
    simp [Factory.connect, hl]

example :
    let f := Factory.run {} [.serve, .serve, .connect ⟨1⟩, .drop 0]
    f.discover = [⟨1⟩] ∧ f.clients = [(1, 2)] ∧ (f.connect ⟨0⟩).2 = none := by decide

end Scalopus.C61
