import Verif.Model.TwoSenders

/-!
# C119: A process may be exposed over several transports

A user who exposes a process over two transports expects that the consumers of each get the events, each event once (`EachGetsAll`). False (`not_EachGetsAll`): the senders share the ring buffers.

* As long as the rounds of the senders do not overlap, each event is sent by exactly one of them (`split_partial`, `not_twice_partial`), so a consumer of the other transport does not get it.
* From every state in which an event waits and two senders are between rounds, their rounds can overlap such that both are about to move the same event out of its slot, which is a data race
  (`race_reachable`), and after that both send it, the second without the value of a counter (`sent_twice`).
* The rounds can also overlap such that an event is sent that nobody emitted (`phantom`).
-/

namespace Scalopus.C119

open TwoSenders

/-- What sender `j` has sent. -/
def sentBy (s : St) (j : Nat) : List Event := (s.out.filter (fun p => p.1 = j)).flatMap (·.2)

/-- What all senders have sent, in order. -/
def sentAll (s : St) : List Event := s.out.flatMap (·.2)

/-- The full property: what a sender has sent is always the first part of what was emitted. -/
def EachGetsAll : Prop := ∀ (n k : Nat), 0 < n → ∀ acts s, run (init n k) acts = some s → ∀ j, j < k → sentBy s j <+: s.acc

/-- No two senders are in a round. -/
def Alone (s : St) : Prop := ∀ (j k : Nat) (p q : Pc), s.pcs[j]? = some p → s.pcs[k]? = some q → p ≠ .idle → q ≠ .idle → j = k

/-- A history in which the rounds of the senders do not overlap. -/
inductive RunAlone : St → St → Prop
  | refl (s) : RunAlone s s
  | tail {s t u} (a : Act) : RunAlone s t → step t a = some u → Alone u → RunAlone s u

/-- `j` is about to move the event at place `k` out of its slot. -/
def AboutToMove (s : St) (j k : Nat) : Prop := ∃ r c i got, s.pcs[j]? = some (.loop r c i got) ∧ i < c ∧ k = (r + i) % s.n

/-! ## Rounds that do not overlap -/

/-- What a sender in its round knows. `P` and `C` are how many events were pushed and sent. -/
def PcInv (s : St) (C : Nat) : Pc → Prop
  | .idle => True
  | .sizeW w => ∃ W, w = W % s.n ∧ C ≤ W ∧ W ≤ s.acc.length
  | .sized m => C + m ≤ s.acc.length
  | .intoW m w => ∃ W, w = W % s.n ∧ C + m ≤ W ∧ W ≤ s.acc.length
  | .loop r c i got => r = C % s.n ∧ C + c ≤ s.acc.length ∧ i ≤ c ∧ got = (s.acc.drop C).take i

/-- How many events the sender in a round has moved out already. -/
def inHand : Pc → Nat
  | .loop _ _ i _ => i
  | _ => 0

structure Inv (s : St) : Prop where
  pos : 0 < s.n
  len : s.slots.length = s.n
  wi : s.wi = s.acc.length % s.n
  ri : s.ri = (sentAll s).length % s.n
  le : (sentAll s).length ≤ s.acc.length
  room : s.acc.length < (sentAll s).length + s.n
  pre : sentAll s = s.acc.take (sentAll s).length
  alone : Alone s
  pc : ∀ (j : Nat) (p : Pc), s.pcs[j]? = some p → PcInv s (sentAll s).length p
  slot : ∀ (q : Nat) (e : Event), (∀ (j : Nat) (p : Pc), s.pcs[j]? = some p → (sentAll s).length + inHand p ≤ q) → (sentAll s).length ≤ q → s.acc[q]? = some e → s.slots[q % s.n]? = some e

theorem inv_init {n : Nat} (hn : 0 < n) (k : Nat) : Inv (init n k) := by
  have idle : ∀ (j : Nat) (p : Pc), (init n k).pcs[j]? = some p → p = .idle := by
    intro j p h
    simp only [init, List.getElem?_replicate] at h
    split at h
    · cases h; rfl
    · cases h
  exact {
    pos := hn, len := by simp [init], wi := by simp [init], ri := by simp [init, sentAll], le := by simp [init, sentAll], room := by simpa [init, sentAll] using hn
    pre := by simp [init, sentAll]
    alone := fun j _ p _ h1 _ h3 _ => absurd (idle j p h1) h3
    pc := fun j p h => by rw [idle j p h]; trivial
    slot := fun q e _ _ h => by simp [init] at h }

theorem mod_ne {n a b : Nat} (h1 : a < b) (h2 : b < a + n) : a % n ≠ b % n := by
  intro h
  have hn : 0 < n := by omega
  have e1 := Nat.div_add_mod a n
  have e2 := Nat.div_add_mod b n
  have : n * (b / n) = n * (a / n) + (b - a) := by omega
  have hd : n ∣ b - a := by
    have hh : b - a = n * (b / n) - n * (a / n) := by omega
    rw [hh, ← Nat.mul_sub]; exact Nat.dvd_mul_right _ _
  have := Nat.le_of_dvd (by omega) hd
  omega

theorem available_mod {n C W : Nat} (hn : 0 < n) (h1 : C ≤ W) (h2 : W < C + n) : RingBuffer.available n (W % n) (C % n) = W - C := by
  unfold RingBuffer.available
  have e1 := Nat.div_add_mod C n
  have e2 := Nat.div_add_mod W n
  have l1 := Nat.mod_lt C hn
  have l2 := Nat.mod_lt W hn
  have hq : W / n = C / n ∨ W / n = C / n + 1 := by
    have a1 : C / n ≤ W / n := Nat.div_le_div_right h1
    have a2 : W / n < C / n + 2 := by
      rw [Nat.div_lt_iff_lt_mul hn]
      have : (C / n + 2) * n = n * (C / n) + 2 * n := by rw [Nat.add_mul, Nat.mul_comm]
      omega
    omega
  rcases hq with hq | hq
  · rw [hq] at e2
    split <;> omega
  · rw [hq, Nat.mul_add, Nat.mul_one] at e2
    split <;> omega

theorem get_set {l : List Pc} {j k : Nat} {p q : Pc} (h : (l.set j p)[k]? = some q) : (k = j ∧ q = p) ∨ (k ≠ j ∧ l[k]? = some q) := by
  rw [List.getElem?_set] at h
  split at h
  · rename_i e
    split at h
    · cases h; exact .inl ⟨e.symm, rfl⟩
    · cases h
  · rename_i e
    exact .inr ⟨fun c => e c.symm, h⟩

theorem inv_push {s s' : St} (h : Inv s) (e : Event) (hs : step s (.push e) = some s') : Inv s' := by
  simp only [step] at hs
  split at hs
  · cases hs; exact h
  · rename_i hne
    cases hs
    have hlt : s.acc.length + 1 < (sentAll s).length + s.n := by
      have := h.room
      rcases Nat.lt_or_ge (s.acc.length + 1) ((sentAll s).length + s.n) with q | q
      · exact q
      · exfalso
        apply hne
        rw [h.wi, h.ri, Nat.mod_add_mod]
        have : s.acc.length + 1 = (sentAll s).length + s.n := by omega
        rw [this, Nat.add_mod_right]
    have hle := h.le
    exact {
      pos := h.pos, len := by simpa using h.len
      wi := by simp only [List.length_append, List.length_cons, List.length_nil]; rw [h.wi, Nat.mod_add_mod]
      ri := h.ri
      le := by simp only [List.length_append, List.length_cons, List.length_nil]; exact Nat.le_succ_of_le h.le
      room := by simp only [List.length_append, List.length_cons, List.length_nil]; exact hlt
      pre := by
        change sentAll s = (s.acc ++ [e]).take (sentAll s).length
        rw [List.take_append_of_le_length h.le]; exact h.pre
      alone := h.alone
      pc := fun j p hp => by
        have := h.pc j p hp
        change PcInv { s with slots := _, wi := _, acc := _ } (sentAll s).length p
        cases p with
        | idle => trivial
        | sizeW w =>
          obtain ⟨W, a, b, c⟩ := this
          exact ⟨W, a, b, by simp only [List.length_append, List.length_cons, List.length_nil]; omega⟩
        | sized m => simp only [PcInv, List.length_append, List.length_cons, List.length_nil] at this ⊢; omega
        | intoW m w =>
          obtain ⟨W, a, b, c⟩ := this
          exact ⟨W, a, b, by simp only [List.length_append, List.length_cons, List.length_nil]; omega⟩
        | loop r c i got =>
          obtain ⟨a, b, c', d⟩ := this
          refine ⟨a, by simp only [List.length_append, List.length_cons, List.length_nil]; omega, c', ?_⟩
          simp only
          rw [d, List.drop_append_of_le_length h.le, List.take_append_of_le_length (by rw [List.length_drop]; omega)]
      slot := fun q x h1 h2 h3 => by
        change (sentAll s).length ≤ q at h2
        simp only at h3 ⊢
        rw [h.wi]
        rcases Nat.lt_trichotomy q s.acc.length with g | g | g
        · rw [List.getElem?_append_left g] at h3
          rw [List.getElem?_set_ne (mod_ne (a := q) (b := s.acc.length) g (by omega)).symm]
          exact h.slot q x h1 h2 h3
        · subst g
          rw [List.getElem?_append_right (Nat.le_refl _), Nat.sub_self] at h3
          cases h3
          rw [List.getElem?_set_self (by rw [h.len]; exact Nat.mod_lt _ h.pos)]
        · exfalso
          have := (List.getElem?_eq_some_iff.1 h3).1
          simp only [List.length_append, List.length_cons, List.length_nil] at this
          omega }

theorem set_get {l : List Pc} {j : Nat} {p q : Pc} (h : l[j]? = some q) : (l.set j p)[j]? = some p :=
  List.getElem?_set_self (List.getElem?_eq_some_iff.1 h).1

theorem inv_go {s s' : St} (h : Inv s) (j : Nat) (hs : step s (.go j) = some s') (ha : Alone s') : Inv s' := by
  -- the others are not in a round
  have pcs' : ∃ p p', s.pcs[j]? = some p ∧ s'.pcs = s.pcs.set j p' ∧ (p = .idle → p' ≠ .idle) := by
    cases hp : s.pcs[j]? with
    | none => simp only [step, hp] at hs; cases hs
    | some p =>
      cases p with
      | idle => simp only [step, hp] at hs; cases hs; exact ⟨_, _, rfl, rfl, fun _ c => by cases c⟩
      | sizeW w => simp only [step, hp] at hs; cases hs; exact ⟨_, _, rfl, rfl, fun c => by cases c⟩
      | sized m => simp only [step, hp] at hs; cases hs; exact ⟨_, _, rfl, rfl, fun c => by cases c⟩
      | intoW m w => simp only [step, hp] at hs; cases hs; exact ⟨_, _, rfl, rfl, fun c => by cases c⟩
      | loop r c i got =>
        simp only [step, hp] at hs
        split at hs
        · cases hs; exact ⟨_, _, rfl, rfl, fun c => by cases c⟩
        · cases hs; exact ⟨_, _, rfl, rfl, fun c => by cases c⟩
  obtain ⟨p0, p1, hp0, hset, hidle⟩ := pcs'
  have others : ∀ (k : Nat) (q : Pc), k ≠ j → s.pcs[k]? = some q → q = .idle := by
    intro k q hk hq
    refine Decidable.byContradiction fun hne => ?_
    by_cases hi : p0 = .idle
    · refine hk (ha k j q p1 ?_ ?_ hne (hidle hi))
      · rw [hset, List.getElem?_set_ne (fun c => hk c.symm)]; exact hq
      · rw [hset]; exact set_get hp0
    · exact hk (h.alone k j q p0 hq hp0 hne hi)
  have hpc := h.pc j p0 hp0
  have hroom := h.room
  have hle := h.le
  -- a step that only moves on in the program
  have plain : ∀ p, inHand p0 = 0 → inHand p = 0 → PcInv s (sentAll s).length p → Alone { s with pcs := s.pcs.set j p } → Inv { s with pcs := s.pcs.set j p } := by
    intro p hz hz' hi hal
    exact {
      pos := h.pos, len := h.len, wi := h.wi, ri := h.ri, le := h.le, room := h.room, pre := h.pre, alone := hal
      pc := fun k q hq => by
        rcases get_set hq with ⟨_, rfl⟩ | ⟨hk, hq⟩
        · exact hi
        · rw [others k q hk hq]; trivial
      slot := fun q e h1 h2 h3 => h.slot q e (fun k r hr => by
        by_cases hk : k = j
        · subst hk; rw [hp0] at hr; cases hr; rw [hz]; exact h2
        · rw [others k r hk hr]; exact h2) h2 h3 }
  cases p0 with
  | idle =>
    simp only [step, hp0] at hs; cases hs
    exact plain _ rfl rfl ⟨s.acc.length, h.wi, h.le, Nat.le_refl _⟩ ha
  | sizeW w =>
    simp only [step, hp0] at hs; cases hs
    obtain ⟨W, rfl, a, b⟩ := hpc
    refine plain _ rfl rfl ?_ ha
    change (sentAll s).length + RingBuffer.available s.n (W % s.n) s.ri ≤ s.acc.length
    rw [h.ri, available_mod h.pos a (by omega)]; omega
  | sized m =>
    simp only [step, hp0] at hs; cases hs
    exact plain _ rfl rfl ⟨s.acc.length, h.wi, hpc, Nat.le_refl _⟩ ha
  | intoW m w =>
    simp only [step, hp0] at hs; cases hs
    obtain ⟨W, rfl, a, b⟩ := hpc
    refine plain _ rfl rfl ⟨h.ri, ?_, Nat.zero_le _, rfl⟩ ha
    rw [h.ri, available_mod h.pos (by omega) (by omega)]; omega
  | loop r c i got =>
    obtain ⟨rfl, hc, hic, hgot⟩ := hpc
    simp only [step, hp0] at hs
    split at hs
    · rename_i hlt
      cases hs
      have hq : s.acc[(sentAll s).length + i]? = some (s.acc[(sentAll s).length + i]'(by omega)) := List.getElem?_eq_getElem _
      have hslot := h.slot _ _ (fun k p hp => by
        by_cases hk : k = j
        · subst hk; rw [hp0] at hp; cases hp; exact Nat.le_refl _
        · rw [others k p hk hp]; simp [inHand]) (Nat.le_add_right _ _) hq
      have hat : atSlot s (((sentAll s).length % s.n + i) % s.n) = s.acc[(sentAll s).length + i]'(by omega) := by
        unfold atSlot
        rw [Nat.mod_add_mod, hslot]; rfl
      exact {
        pos := h.pos, len := by simpa using h.len, wi := h.wi, ri := h.ri, le := h.le, room := h.room, pre := h.pre, alone := ha
        pc := fun k q hq' => by
          rcases get_set hq' with ⟨_, rfl⟩ | ⟨hk, hq'⟩
          · refine ⟨rfl, hc, hlt, ?_⟩
            change got ++ [_] = (s.acc.drop (sentAll s).length).take (i + 1)
            rw [hat, hgot, List.take_add_one, List.getElem?_drop, hq]; rfl
          · rw [others k q hk hq']; trivial
        slot := fun q e h1 h2 h3 => by
          have hj := h1 j _ (set_get hp0)
          change (sentAll s).length + (i + 1) ≤ q at hj
          have hql := (List.getElem?_eq_some_iff.1 h3).1
          simp only at hql ⊢
          rw [Nat.mod_add_mod, List.getElem?_set_ne (mod_ne (by omega) (by omega))]
          refine h.slot q e (fun k p hp => ?_) h2 h3
          by_cases hk : k = j
          · subst hk; rw [hp0] at hp; cases hp
            simp only [inHand]; omega
          · rw [others k p hk hp]; exact h2 }
    · rename_i hge
      have hi : i = c := by omega
      subst hi
      cases hs
      have hgl : got.length = i := by rw [hgot, List.length_take, List.length_drop]; omega
      have hall : sentAll { s with ri := ((sentAll s).length % s.n + i) % s.n, pcs := s.pcs.set j .idle, out := if i = 0 then s.out else s.out ++ [(j, got)] } = sentAll s ++ got := by
        unfold sentAll
        simp only
        split
        · rename_i h0
          rw [List.eq_nil_of_length_eq_zero (hgl.trans h0), List.append_nil]
        · simp
      have hl : (sentAll s ++ got).length = (sentAll s).length + i := by rw [List.length_append, hgl]
      exact {
        pos := h.pos, len := h.len, wi := h.wi
        ri := by rw [hall, hl]; simp [Nat.mod_add_mod]
        le := by rw [hall, hl]; exact hc
        room := by rw [hall, hl]; simp only; omega
        pre := by
          rw [hall, hl]
          simp only
          rw [List.take_add, ← h.pre, ← hgot]
        alone := ha
        pc := fun k q hq' => by
          rcases get_set hq' with ⟨_, rfl⟩ | ⟨hk, hq'⟩
          · trivial
          · rw [others k q hk hq']; trivial
        slot := fun q e h1 h2 h3 => by
          rw [hall, hl] at h2
          refine h.slot q e (fun k p hp => ?_) (by omega) h3
          by_cases hk : k = j
          · subst hk; rw [hp0] at hp; cases hp; exact h2
          · rw [others k p hk hp]; simp only [inHand]; omega }

theorem inv_run {s t : St} (h : Inv s) (r : RunAlone s t) : Inv t := by
  induction r with
  | refl => exact h
  | tail a _ e al ih =>
    cases a with
    | push x => exact inv_push ih x e
    | go j => exact inv_go ih j e al

/-- **C119, partial.** As long as rounds do not overlap, what the senders together have sent is the first part of what was emitted: each event is sent by one of them, once, unchanged and in order. -/
theorem split_partial {n k : Nat} (hn : 0 < n) {s : St} (h : RunAlone (init n k) s) : sentAll s <+: s.acc := by
  rw [(inv_run (inv_init hn k) h).pre]; exact List.take_prefix _ _

theorem sentBy_pairwise (l : List (Nat × List Event)) (hd : (l.flatMap (·.2)).Nodup) {j k : Nat} (hjk : j ≠ k) {e : Event}
    (hj : e ∈ (l.filter (fun p => p.1 = j)).flatMap (·.2)) (hk : e ∈ (l.filter (fun p => p.1 = k)).flatMap (·.2)) : False := by
  induction l with
  | nil => simp at hj
  | cons x l ih =>
    rw [List.flatMap_cons, List.nodup_append] at hd
    have sub : ∀ (m : Nat), e ∈ (l.filter (fun p => p.1 = m)).flatMap (·.2) → e ∈ l.flatMap (·.2) := by
      intro m hm
      obtain ⟨y, hy, he⟩ := List.mem_flatMap.1 hm
      exact List.mem_flatMap.2 ⟨y, (List.mem_filter.1 hy).1, he⟩
    have cas : ∀ (m : Nat), e ∈ ((x :: l).filter (fun p => p.1 = m)).flatMap (·.2) → (x.1 = m ∧ e ∈ x.2) ∨ e ∈ (l.filter (fun p => p.1 = m)).flatMap (·.2) := by
      intro m hm
      rw [List.filter_cons] at hm
      split at hm
      · rename_i c
        rw [List.flatMap_cons, List.mem_append] at hm
        rcases hm with q | q
        · exact .inl ⟨by simpa using c, q⟩
        · exact .inr q
      · exact .inr hm
    rcases cas j hj with ⟨q1, q2⟩ | q <;> rcases cas k hk with ⟨r1, r2⟩ | r
    · exact hjk (q1.symm.trans r1)
    · exact hd.2.2 e q2 e (sub k r) rfl
    · exact hd.2.2 e r2 e (sub j q) rfl
    · exact ih hd.2.1 q r

/-- **C119, the consequence for consumers.** As long as rounds do not overlap and the events differ (they carry times), an event that one sender has sent is never sent by another. -/
theorem not_twice_partial {n k : Nat} (hn : 0 < n) {s : St} (h : RunAlone (init n k) s) (hd : s.acc.Nodup) {i j : Nat} (hij : i ≠ j) {e : Event} (he : e ∈ sentBy s i) : e ∉ sentBy s j := fun c =>
  sentBy_pairwise s.out (List.Nodup.sublist (split_partial hn h).sublist hd) hij he c


theorem run_append {as bs : List Act} : ∀ {s t : St}, run s as = some t → run s (as ++ bs) = run t bs := by
  induction as with
  | nil => intro s t h; cases h; rfl
  | cons a as ih =>
    intro s t h
    obtain ⟨u, h1, h2⟩ := Option.bind_eq_some_iff.1 h
    change (step s a).bind _ = _
    rw [h1]; exact ih h2

/-- A sender in the loop of a round goes on to its end. -/
theorem finish (d : Nat) : ∀ (s : St) (j r c i : Nat) (got : List Event), s.pcs[j]? = some (.loop r c i got) → c = i + d → 0 < c →
    ∃ g, ∃ t, run s (List.replicate (d + 1) (.go j)) = some t ∧ t.out = s.out ++ [(j, got ++ g)] ∧ t.pcs = s.pcs.set j .idle ∧ t.acc = s.acc ∧ g.length = d := by
  induction d with
  | zero =>
    intro s j r c i got h hc h0
    have : ¬ i < c := by omega
    refine ⟨[], { s with ri := (r + c) % s.n, pcs := s.pcs.set j .idle, out := s.out ++ [(j, got)] }, ?_, by simp, rfl, rfl, rfl⟩
    have hc0 : c ≠ 0 := by omega
    simp [run, step, h, this, hc0]
  | succ d ih =>
    intro s j r c i got h hc h0
    have hlt : i < c := by omega
    obtain ⟨g, t, h1, h2, h3, h4, h5⟩ := ih { s with slots := s.slots.set ((r + i) % s.n) (moved (atSlot s ((r + i) % s.n))), pcs := s.pcs.set j (.loop r c (i + 1) (got ++ [atSlot s ((r + i) % s.n)])) }
      j r c (i + 1) (got ++ [atSlot s ((r + i) % s.n)]) (set_get h) (by omega) h0
    refine ⟨atSlot s ((r + i) % s.n) :: g, t, ?_, ?_, ?_, h4, by rw [List.length_cons, h5]⟩
    · rw [List.replicate_succ]
      change (step s (.go j)).bind _ = _
      simp only [step, h, hlt, if_true, Option.bind_some]
      exact h1
    · rw [h2]; simp
    · rw [h3]; simp

/-- A sender between rounds goes into the loop of a round. -/
theorem enter {s : St} {i : Nat} (hi : s.pcs[i]? = some .idle) :
    run s [.go i, .go i, .go i, .go i] = some { s with pcs := s.pcs.set i (.loop s.ri (RingBuffer.available s.n s.wi s.ri) 0 []) } := by
  have c1 : step s (.go i) = some { s with pcs := s.pcs.set i (.sizeW s.wi) } := by simp only [step, hi]
  have c2 : step { s with pcs := s.pcs.set i (.sizeW s.wi) } (.go i) = some { s with pcs := s.pcs.set i (.sized (RingBuffer.available s.n s.wi s.ri)) } := by
    simp only [step, set_get hi, List.set_set]
  have c3 : step { s with pcs := s.pcs.set i (.sized (RingBuffer.available s.n s.wi s.ri)) } (.go i) = some { s with pcs := s.pcs.set i (.intoW (RingBuffer.available s.n s.wi s.ri) s.wi) } := by
    simp only [step, set_get hi, List.set_set]
  have c4 : step { s with pcs := s.pcs.set i (.intoW (RingBuffer.available s.n s.wi s.ri) s.wi) } (.go i) =
      some { s with pcs := s.pcs.set i (.loop s.ri (RingBuffer.available s.n s.wi s.ri) 0 []) } := by
    simp only [step, set_get hi, List.set_set, Nat.min_self]
  simp only [run, c1, c2, c3, c4, Option.bind_some]

theorem trans_run {a b c : St} (h1 : RunAlone a b) (h2 : RunAlone b c) : RunAlone a c := by
  induction h2 with
  | refl => exact h1
  | tail x _ e al ih => exact .tail x ih e al

/-- If only sender `j` goes on and the others are between rounds, rounds do not overlap. -/
theorem alone_run (d : Nat) : ∀ (s t : St) (j : Nat), (∀ (k : Nat) (p : Pc), k ≠ j → s.pcs[k]? = some p → p = .idle) → run s (List.replicate d (.go j)) = some t → RunAlone s t := by
  induction d with
  | zero => intro s t j _ h; cases h; exact .refl _
  | succ d ih =>
    intro s t j ho h
    rw [List.replicate_succ] at h
    obtain ⟨u, h1, h2⟩ := Option.bind_eq_some_iff.1 h
    have hu : ∃ p, u.pcs = s.pcs.set j p := by
      simp only [step] at h1
      split at h1
      all_goals first | (cases h1; exact ⟨_, rfl⟩) | (split at h1 <;> (cases h1; exact ⟨_, rfl⟩)) | cases h1
    obtain ⟨p, hu⟩ := hu
    have ho' : ∀ (k : Nat) (p : Pc), k ≠ j → u.pcs[k]? = some p → p = .idle := by
      intro k q hk hq
      rw [hu, List.getElem?_set_ne (fun c => hk c.symm)] at hq
      exact ho k q hk hq
    have ha : Alone u := by
      intro a b pa pb h3 h4 h5 h6
      have e1 : a = j := Decidable.byContradiction fun c => h5 (ho' a pa c h3)
      have e2 : b = j := Decidable.byContradiction fun c => h6 (ho' b pb c h4)
      rw [e1, e2]
    have r := ih u t j ho' h2
    exact trans_run (.tail _ (.refl _) h1 ha) r

/-- Both senders have found the same events. -/
theorem both_in {s : St} (hr : s.ri < s.n) (hw : s.wi < s.n) (hne : s.wi ≠ s.ri) {i j : Nat} (hij : i ≠ j) (hi : s.pcs[i]? = some .idle) (hj : s.pcs[j]? = some .idle) :
    ∃ c, 0 < c ∧ run s [.go i, .go i, .go i, .go i, .go j, .go j, .go j, .go j] = some { s with pcs := (s.pcs.set i (.loop s.ri c 0 [])).set j (.loop s.ri c 0 []) } := by
  refine ⟨RingBuffer.available s.n s.wi s.ri, ?_, ?_⟩
  · unfold RingBuffer.available; split <;> omega
  · have li := (List.getElem?_eq_some_iff.1 hi).1
    have lj := (List.getElem?_eq_some_iff.1 hj).1
    have h1 := enter hi
    have h2 := enter (s := { s with pcs := s.pcs.set i (.loop s.ri (RingBuffer.available s.n s.wi s.ri) 0 []) }) (i := j) (by simp only; rw [List.getElem?_set_ne hij]; exact hj)
    exact (run_append (bs := [.go j, .go j, .go j, .go j]) h1).trans h2

/-- **C119, progress.** A history without overlap in which no sender is in a round can go on with a round of any sender, after which everything that was emitted is sent. -/
theorem round_partial {n k : Nat} (hn : 0 < n) {s : St} (h : RunAlone (init n k) s) (hidle : ∀ (j : Nat) (p : Pc), s.pcs[j]? = some p → p = .idle) {j : Nat} (hj : j < s.pcs.length) :
    ∃ t, RunAlone s t ∧ t.acc = s.acc ∧ sentAll t = s.acc ∧ ∀ i, i ≠ j → sentBy t i = sentBy s i := by
  have hi := inv_run (inv_init hn k) h
  have hp : s.pcs[j]? = some .idle := by
    have := hidle j _ (List.getElem?_eq_getElem hj)
    rw [List.getElem?_eq_getElem hj, this]
  have hav : RingBuffer.available s.n s.wi s.ri = s.acc.length - (sentAll s).length := by rw [hi.wi, hi.ri]; exact available_mod hi.pos hi.le hi.room
  rcases Nat.eq_or_lt_of_le hi.le with he | hlt
  · refine ⟨s, .refl _, rfl, ?_, fun _ _ => rfl⟩
    rw [hi.pre, he, List.take_length]
  · have h1 := enter hp
    rw [hav] at h1
    obtain ⟨g, t, k1, k2, k3, k4, k5⟩ := finish (s.acc.length - (sentAll s).length) { s with pcs := s.pcs.set j (.loop s.ri (s.acc.length - (sentAll s).length) 0 []) } j s.ri _ 0 [] (set_get hp) (by omega) (by omega)
    have hrun : run s (List.replicate (4 + (s.acc.length - (sentAll s).length + 1)) (.go j)) = some t := by
      rw [← List.replicate_append_replicate]
      exact (run_append h1).trans k1
    have ra := alone_run _ s t j (fun k p _ hk => hidle k p hk) hrun
    have hit := inv_run hi ra
    have hs : sentAll t = sentAll s ++ g := by unfold sentAll; rw [k2]; simp
    have hb : ∀ i, i ≠ j → sentBy t i = sentBy s i := by
      intro i hij
      unfold sentBy
      rw [k2]
      have : ¬ j = i := fun c => hij c.symm
      simp [this]
    refine ⟨t, ra, k4, ?_, hb⟩
    rw [hit.pre, hs, List.length_append, k5, k4, Nat.add_sub_cancel' hi.le, List.take_length]

/-! ## Rounds that overlap -/

/-- **C119, the data race.** From every state in which an event waits and two senders are between rounds, the senders can come to the point where both are about to move the same event out of its slot. -/
theorem race_reachable {s : St} (hr : s.ri < s.n) (hw : s.wi < s.n) (hne : s.wi ≠ s.ri) {i j : Nat} (hij : i ≠ j) (hi : s.pcs[i]? = some .idle) (hj : s.pcs[j]? = some .idle) :
    ∃ acts t, run s acts = some t ∧ AboutToMove t i s.ri ∧ AboutToMove t j s.ri := by
  obtain ⟨c, hc, h⟩ := both_in hr hw hne hij hi hj
  have li := (List.getElem?_eq_some_iff.1 hi).1
  have lj := (List.getElem?_eq_some_iff.1 hj).1
  refine ⟨_, _, h, ⟨s.ri, c, 0, [], ?_, hc, (Nat.mod_eq_of_lt hr).symm⟩, ⟨s.ri, c, 0, [], ?_, hc, (Nat.mod_eq_of_lt hr).symm⟩⟩
  · simp only
    rw [List.getElem?_set_ne (fun c => hij c.symm)]; exact set_get hi
  · exact List.getElem?_set_self (by simpa using lj)

/-- **C119, an event that is sent twice.** From every such state the senders can go on such that both send the first event that waits, `e`, and the second sends it without the value of a counter. -/
theorem sent_twice {s : St} (hr : s.ri < s.n) (hw : s.wi < s.n) (hlen : s.slots.length = s.n) (hne : s.wi ≠ s.ri) {i j : Nat} (hij : i ≠ j) (hi : s.pcs[i]? = some .idle)
    (hj : s.pcs[j]? = some .idle) {e : Event} (he : s.slots[s.ri]? = some e) :
    ∃ acts t g g', run s acts = some t ∧ t.out = s.out ++ [(i, e :: g), (j, { e with data := none } :: g')] ∧ t.acc = s.acc := by
  obtain ⟨c, hc, h⟩ := both_in hr hw hne hij hi hj
  have li := (List.getElem?_eq_some_iff.1 hi).1
  have lj := (List.getElem?_eq_some_iff.1 hj).1
  have hmod : (s.ri + 0) % s.n = s.ri := Nat.mod_eq_of_lt hr
  have hat : atSlot s s.ri = e := by unfold atSlot; rw [he]; rfl
  -- each moves the first event out
  have h2 : run { s with pcs := (s.pcs.set i (.loop s.ri c 0 [])).set j (.loop s.ri c 0 []) } [.go i, .go j] =
      some { s with slots := (s.slots.set s.ri (moved e)).set s.ri (moved (moved e)), pcs := (s.pcs.set i (.loop s.ri c 1 [e])).set j (.loop s.ri c 1 [moved e]) } := by
    have h3 : ((s.pcs.set i (.loop s.ri c 0 [])).set j (.loop s.ri c 0 []))[i]? = some (.loop s.ri c 0 []) := by
      rw [List.getElem?_set_ne (fun c => hij c.symm)]; exact set_get hi
    have h4 : (((s.pcs.set i (.loop s.ri c 0 [])).set j (.loop s.ri c 0 [])).set i (.loop s.ri c 1 [e]))[j]? = some (.loop s.ri c 0 []) := by
      rw [List.getElem?_set_ne hij]; exact List.getElem?_set_self (by simpa using lj)
    have h7 : (s.slots.set s.ri (moved e))[s.ri]? = some (moved e) := List.getElem?_set_self (by omega)
    have c1 : step { s with pcs := (s.pcs.set i (.loop s.ri c 0 [])).set j (.loop s.ri c 0 []) } (.go i) =
        some { s with slots := s.slots.set s.ri (moved e), pcs := ((s.pcs.set i (.loop s.ri c 0 [])).set j (.loop s.ri c 0 [])).set i (.loop s.ri c 1 [e]) } := by
      simp only [step, h3, hc, if_true, hmod, atSlot, he, Option.getD_some]; rfl
    have c2 : step { s with slots := s.slots.set s.ri (moved e), pcs := ((s.pcs.set i (.loop s.ri c 0 [])).set j (.loop s.ri c 0 [])).set i (.loop s.ri c 1 [e]) } (.go j) =
        some { s with slots := (s.slots.set s.ri (moved e)).set s.ri (moved (moved e)), pcs := (((s.pcs.set i (.loop s.ri c 0 [])).set j (.loop s.ri c 0 [])).set i (.loop s.ri c 1 [e])).set j (.loop s.ri c 1 [moved e]) } := by
      simp only [step, h4, hc, if_true, hmod, atSlot, h7, Option.getD_some]; rfl
    simp only [run, c1, c2, Option.bind_some]
    congr 2
    rw [List.set_comm _ _ (fun c => hij c.symm), List.set_set, List.set_set]
  obtain ⟨d, hd⟩ : ∃ d, c = 1 + d := ⟨c - 1, by omega⟩
  -- and goes on to the end of its round
  obtain ⟨g, t, k1, k2, k3, k4, _⟩ := finish d { s with slots := (s.slots.set s.ri (moved e)).set s.ri (moved (moved e)), pcs := (s.pcs.set i (.loop s.ri c 1 [e])).set j (.loop s.ri c 1 [moved e]) }
    i s.ri c 1 [e] (by simp only; rw [List.getElem?_set_ne (fun c => hij c.symm)]; exact set_get hi) hd hc
  obtain ⟨g', t', m1, m2, m3, m4, _⟩ := finish d t j s.ri c 1 [moved e] (by rw [k3, List.getElem?_set_ne hij]; exact List.getElem?_set_self (by simpa using lj)) hd hc
  refine ⟨[.go i, .go i, .go i, .go i, .go j, .go j, .go j, .go j] ++ ([.go i, .go j] ++ (List.replicate (d + 1) (.go i) ++ List.replicate (d + 1) (.go j))), t', g, g', ?_, ?_, ?_⟩
  · rw [run_append h, run_append h2, run_append k1]; exact m1
  · rw [m2, k2]; simp [moved]
  · rw [m4, k4]

/-- The states that histories without overlap reach meet the conditions of `race_reachable` and `sent_twice` whenever an event waits. -/
theorem waiting_meets {n k : Nat} (hn : 0 < n) {s : St} (h : RunAlone (init n k) s) (hw : (sentAll s).length < s.acc.length) (hidle : ∀ (j : Nat) (p : Pc), s.pcs[j]? = some p → p = .idle) :
    s.ri < s.n ∧ s.wi < s.n ∧ s.slots.length = s.n ∧ s.wi ≠ s.ri ∧ s.slots[s.ri]? = s.acc[(sentAll s).length]? := by
  have hi := inv_run (inv_init hn k) h
  refine ⟨by rw [hi.ri]; exact Nat.mod_lt _ hi.pos, by rw [hi.wi]; exact Nat.mod_lt _ hi.pos, hi.len, ?_, ?_⟩
  · rw [hi.wi, hi.ri]; exact (mod_ne hw hi.room).symm
  · rw [hi.ri, List.getElem?_eq_getElem hw]
    exact hi.slot _ _ (fun j p hp => by rw [hidle j p hp]; exact Nat.le_refl _) (Nat.le_refl _) (List.getElem?_eq_getElem hw)

/-- **C119, an event nobody emitted.** Two senders, a buffer of size three or more, two events: the first sender reads the write index, the second collects both events, and the first goes on with a read index
that has overtaken its write index. It sends an event that was never emitted. -/
theorem phantom {n : Nat} (hn : 3 ≤ n) (a b : Event) :
    ∃ acts t, run (init n 2) acts = some t ∧ t.acc = [a, b] ∧ sentBy t 1 = [a, b] ∧ sentBy t 0 = [{}] := by
  refine ⟨[.push a, .go 0, .go 0, .go 0, .push b, .go 1, .go 1, .go 1, .go 1, .go 1, .go 1, .go 1, .go 0, .go 0, .go 0], ?_⟩
  have h1 : 1 % n = 1 := Nat.mod_eq_of_lt (by omega)
  have h2 : 2 % n = 2 := Nat.mod_eq_of_lt (by omega)
  have h3 : (List.replicate n ({} : Event))[2]? = some ({} : Event) := by rw [List.getElem?_replicate, if_pos (by omega)]
  have h4 : n ≠ 0 := by omega
  have h5 : 1 < n := by omega
  have h6 : 0 < n := by omega
  have h7 : 2 < n := by omega
  have h8 : min (1 + n - 2) 1 = 1 := by omega
  simp [run, step, init, atSlot, moved, RingBuffer.available, h1, h2, h3, h4, h5, h6, h7, h8, sentBy, List.getElem?_set]

/-- Histories without overlap: the first sender sends one event, the second the next. -/
example : ∃ s, RunAlone (init 4 2) s ∧ s.acc.Nodup ∧ sentBy s 0 = [{ time := 1, id := 7 }] ∧ sentBy s 1 = [{ time := 2, id := 8 }] := by
  obtain ⟨a1, e1⟩ : ∃ u, step (init 4 2) (.push { time := 1, id := 7 }) = some u ∧ Alone u ∧ u = { init 4 2 with slots := [{ time := 1, id := 7 }, {}, {}, {}], wi := 1, acc := [{ time := 1, id := 7 }] } :=
    ⟨_, rfl, fun j k p q h1 _ h3 _ => by
      exfalso; apply h3
      match j, h1 with
      | 0, h1 => cases h1; rfl
      | 1, h1 => cases h1; rfl, rfl⟩
  obtain ⟨e1, al, rfl⟩ := e1
  have r1 : RunAlone (init 4 2) _ := .tail _ (.refl _) e1 al
  have idle : ∀ (k : Nat) (p : Pc), ([Pc.idle, Pc.idle] : List Pc)[k]? = some p → p = .idle := by
    intro k p h
    match k, h with
    | 0, h => cases h; rfl
    | 1, h => cases h; rfl
  have r2 := trans_run r1 (alone_run 6 _ _ 0 (fun k p _ h => idle k p h) rfl)
  have r3 := trans_run r2 (.tail (.push { time := 2, id := 8 }) (.refl _) rfl (fun j k p q h1 _ h3 _ => absurd (idle j p h1) h3))
  have r4 := trans_run r3 (alone_run 6 _ _ 1 (fun k p _ h => idle k p h) rfl)
  exact ⟨_, r4, by decide, by decide, by decide⟩

/-- The full property is false. -/
theorem not_EachGetsAll : ¬ EachGetsAll := by
  intro h
  obtain ⟨acts, t, h1, h2, _, h4⟩ := phantom (n := 3) (by omega) { time := 1 } { time := 2 }
  have := h 3 2 (by omega) acts t h1 0 (by omega)
  rw [h2, h4] at this
  revert this
  decide

end Scalopus.C119
