import Verif.Spec.TraceState
import Verif.Proofs.Assoc

/-!
# The tracing switches refine their specification
-/

namespace Scalopus.TraceState

open Assoc

/-- How a state of the model and a state of the specification correspond. -/
structure R (s : State) (a : Spec.State) : Prop where
  process : s.process = a.process
  log : s.log = a.log
  len : s.threads.length = a.threads.length
  thread : ∀ (i : Nat) (th : Thread) (x : Spec.Thread), s.threads[i]? = some th → a.threads[i]? = some x →
    th.tid = x.tid ∧ th.pc = x.pc ∧ th.ended = x.ended ∧ th.cleanup = x.used
  distinct : ∀ (i j : Nat) (x y : Spec.Thread), a.threads[i]? = some x → a.threads[j]? = some y → x.ended = false → y.ended = false →
    x.tid = y.tid → i = j
  fresh : ∀ (i : Nat) (x : Spec.Thread), a.threads[i]? = some x → x.used = false → x.on = true
  cell : ∀ (c : Nat) (y : Cell), s.cells[c]? = some y →
    ∃ x : Spec.Thread, a.threads[y.owner]? = some x ∧ x.on = y.val ∧ x.used = true
  inj : ∀ (c d : Nat) (y z : Cell), s.cells[c]? = some y → s.cells[d]? = some z → y.owner = z.owner → c = d
  map : ∀ (k c : Nat), s.map.lookup k = some c →
    ∃ (y : Cell) (x : Spec.Thread), s.cells[c]? = some y ∧ a.threads[y.owner]? = some x ∧ x.tid = k ∧ x.listed = true
  mapBack : ∀ (i : Nat) (x : Spec.Thread), a.threads[i]? = some x → x.listed = true →
    ∃ (c : Nat) (y : Cell), s.map.lookup x.tid = some c ∧ s.cells[c]? = some y ∧ y.owner = i
  cache : ∀ (i : Nat) (th : Thread) (k : Backend × Fn) (c : Nat), s.threads[i]? = some th → th.cache.lookup k = some c →
    th.cleanup = true ∧ ∃ y : Cell, s.cells[c]? = some y ∧ y.owner = i
  pc : ∀ (i : Nat) (th : Thread) (be : Backend) (p : Point), s.threads[i]? = some th → th.pc = .ready be p ∨ th.pc = .loaded be p →
    th.ended = false ∧ be ≠ .nop ∧ (th.cache.lookup (be, p.fn)).isSome = true
  snapLen : s.snaps.length = a.snaps.length
  snap : ∀ (h : Nat) (m : List (Nat × Nat)) (old : List Spec.Thread) (k : Nat), s.snaps[h]? = some m → a.snaps[h]? = some old →
    (∀ c, m.lookup k = some c → ∃ y : Cell, s.cells[c]? = some y ∧ Spec.who old k = some y.owner) ∧
    (m.lookup k = none → Spec.who old k = none)
  keys : (s.map.map (·.1)).Nodup

theorem R_init : R {} {} where
  process := rfl
  log := rfl
  len := rfl
  thread := by simp
  distinct := by simp
  fresh := by simp
  cell := by simp
  inj := by simp
  map := by simp
  mapBack := by simp
  cache := by simp
  pc := by simp
  snapLen := rfl
  snap := by simp
  keys := by simp

theorem who_some {ths : List Spec.Thread} {k i : Nat} (h : Spec.who ths k = some i) :
    ∃ x : Spec.Thread, ths[i]? = some x ∧ x.listed = true ∧ x.tid = k := by
  unfold Spec.who at h
  rw [List.findIdx?_eq_some_iff_getElem] at h
  obtain ⟨hlt, hp, _⟩ := h
  simp at hp
  exact ⟨ths[i], by simp [hlt], hp.1, hp.2⟩

theorem who_none {ths : List Spec.Thread} {k : Nat} (h : Spec.who ths k = none) (i : Nat) (x : Spec.Thread)
    (hx : ths[i]? = some x) (hl : x.listed = true) : x.tid ≠ k := by
  unfold Spec.who at h
  rw [List.findIdx?_eq_none_iff] at h
  have := h x (List.mem_of_getElem? hx)
  simp [hl] at this
  exact this

theorem R.getA {s : State} {a : Spec.State} (h : R s a) {t : Nat} {th : Thread} (ht : s.threads[t]? = some th) :
    ∃ x : Spec.Thread, a.threads[t]? = some x ∧ th.tid = x.tid ∧ th.pc = x.pc ∧ th.ended = x.ended ∧ th.cleanup = x.used := by
  have hl : t < a.threads.length := by
    have := (List.getElem?_eq_some_iff.mp ht).1
    rw [← h.len]; exact this
  exact ⟨a.threads[t], by simp [hl], h.thread t th _ ht (by simp [hl])⟩

theorem R.getNone {s : State} {a : Spec.State} (h : R s a) {t : Nat} (ht : s.threads[t]? = none) : a.threads[t]? = none := by
  simp only [List.getElem?_eq_none_iff] at ht ⊢
  rw [← h.len]; exact ht

/-- `getThreadStatePtr` marks the thread as used and gives its own cell. -/
theorem R_ptr {s : State} {a : Spec.State} (h : R s a) {t : Nat} {th : Thread} (ht : s.threads[t]? = some th)
    (he : th.ended = false) :
    R (threadStatePtr s t th).1 (a.upd t fun x => { x with used := true }) ∧
    ∃ y : Cell, (threadStatePtr s t th).1.cells[(threadStatePtr s t th).2]? = some y ∧ y.owner = t := by
  obtain ⟨x, hx, h1, h2, h3, h4⟩ := h.getA ht
  have hl := (List.getElem?_eq_some_iff.mp hx).1
  have hl' := (List.getElem?_eq_some_iff.mp ht).1
  unfold threadStatePtr Spec.State.upd
  rw [modify_eq_set hx]
  simp only
  cases hm : s.map.lookup th.tid with
  | some c =>
    obtain ⟨y, z, hy, hz, hk, hli⟩ := h.map _ _ hm
    have howner : y.owner = t := by
      apply h.distinct _ _ _ _ hz hx
      · simp [Spec.Thread.listed] at hli; exact hli.2
      · rw [← h3]; exact he
      · rw [hk, h1]
    refine ⟨?_, y, hy, howner⟩
    have hzx : z = x := by rw [howner, hx] at hz; exact (Option.some.inj hz).symm
    subst hzx
    have hused : z.used = true := by simp [Spec.Thread.listed] at hli; exact hli.1
    have e1 : a.threads.set t { z with used := true } = a.threads := by
      have : ({ z with used := true } : Spec.Thread) = z := by rw [← hused]
      rw [this]
      apply List.ext_getElem?; intro j
      simp only [List.getElem?_set]; grind
    have e2 : s.threads.set t { th with cleanup := true } = s.threads := by
      have : ({ th with cleanup := true } : Thread) = th := by rw [← hused, ← h4]
      rw [this]
      apply List.ext_getElem?; intro j
      simp only [List.getElem?_set]; grind
    rw [e1, e2]
    exact h
  | none =>
    refine ⟨?_, ⟨t, true⟩, by simp, rfl⟩
    have hun : x.used = false := by
      cases hu : x.used with
      | false => rfl
      | true =>
        obtain ⟨c, y, hc, _, _⟩ := h.mapBack t x hx (by simp [Spec.Thread.listed, hu, ← h3, he])
        rw [← h1, hm] at hc
        simp at hc
    have hon := h.fresh t x hx hun
    have hnocell : ∀ (c : Nat) (y : Cell), s.cells[c]? = some y → y.owner ≠ t := by
      intro c y hy hcon
      obtain ⟨x', hx', _, hu⟩ := h.cell c y hy
      rw [hcon, hx] at hx'
      cases hx'
      rw [hun] at hu; simp at hu
    constructor
    · exact h.process
    · exact h.log
    · simp [h.len]
    · have := h.thread; simp only [List.getElem?_set]; grind
    · have := h.distinct; simp only [List.getElem?_set]; grind
    · have := h.fresh; simp only [List.getElem?_set]; grind
    · have := h.cell; simp only [List.getElem?_set, List.getElem?_append]; grind
    · have := h.inj; simp only [List.getElem?_append]; grind
    · have := h.map
      intro k c hk
      rw [lookup_snoc] at hk
      split at hk
      · obtain ⟨y, z, hy, hz, hk', hli⟩ := h.map _ _ hk
        refine ⟨y, z, ?_, ?_, hk', hli⟩
        · simp only [List.getElem?_append]; grind
        · simp only [List.getElem?_set]; grind
      · split at hk
        · simp at hk
          subst hk
          refine ⟨⟨t, true⟩, { x with used := true }, by simp, by simp [hl], by grind, ?_⟩
          simp [Spec.Thread.listed, ← h3, he]
        · simp at hk
    · intro i z hz hli
      simp only [List.getElem?_set] at hz
      split at hz
      · rename_i hi
        subst hi
        simp only [hl, ↓reduceIte, Option.some.injEq] at hz
        subst hz
        refine ⟨s.cells.length, ⟨t, true⟩, ?_, by simp, rfl⟩
        rw [lookup_snoc]
        simp [← h1, hm]
      · obtain ⟨c, y, hc, hy, ho⟩ := h.mapBack i z hz hli
        refine ⟨c, y, ?_, ?_, ho⟩
        · rw [lookup_snoc]; simp [hc]
        · simp only [List.getElem?_append]; grind
    · have := h.cache; simp only [List.getElem?_set, List.getElem?_append]; grind
    · have := h.pc; simp only [List.getElem?_set]; grind
    · exact h.snapLen
    · intro i m old k hm' ho'
      obtain ⟨h5, h6⟩ := h.snap i m old k hm' ho'
      refine ⟨?_, h6⟩
      intro c hc
      obtain ⟨y, hy, hw⟩ := h5 c hc
      refine ⟨y, ?_, hw⟩
      simp only [List.getElem?_append]; grind
    · have := h.keys
      have h7 := lookup_none.mp hm
      simp only [List.map_append, List.map_cons, List.map_nil]
      rw [List.nodup_append]
      refine ⟨this, by simp, ?_⟩
      intro a' ha' b' hb'
      simp at hb'
      subst hb'
      rintro rfl
      exact h7 ha'

/-- Writing a cell sets the switch of its thread. -/
theorem R_store {s : State} {a : Spec.State} (h : R s a) {c : Nat} {y : Cell} (hy : s.cells[c]? = some y) (b : Bool) :
    R (store s c b) (a.upd y.owner fun x => { x with on := b }) := by
  obtain ⟨x, hx, hon, hu⟩ := h.cell c y hy
  have hl := (List.getElem?_eq_some_iff.mp hx).1
  have hlc := (List.getElem?_eq_some_iff.mp hy).1
  have hget : ∀ d : Nat, (s.cells.set c { y with val := b })[d]? = if c = d then some { y with val := b } else s.cells[d]? := by
    intro d; simp only [List.getElem?_set]; grind
  have hgetA : ∀ i : Nat, (a.threads.set y.owner { x with on := b })[i]? =
      if y.owner = i then some { x with on := b } else a.threads[i]? := by
    intro d; simp only [List.getElem?_set]; grind
  have hsome : ∀ (d : Nat) (z : Cell), s.cells[d]? = some z →
      ∃ z' : Cell, (s.cells.set c { y with val := b })[d]? = some z' ∧ z'.owner = z.owner := by
    intro d z hz
    rw [hget]
    split
    · rename_i hd; subst hd; rw [hy] at hz; cases hz; exact ⟨_, rfl, rfl⟩
    · exact ⟨z, hz, rfl⟩
  unfold store Spec.State.upd
  rw [modify_eq_set hx, modify_eq_set hy]
  constructor
  · exact h.process
  · exact h.log
  · simp [h.len]
  · have := h.thread; simp only [hgetA]; grind
  · have := h.distinct; simp only [hgetA]; grind
  · have := h.fresh; simp only [hgetA]; grind
  · have h1 := h.cell; have h2 := h.inj; simp only [hgetA, hget]; grind
  · have := h.inj; simp only [hget]; grind
  · intro k d hk
    obtain ⟨z, w, hz, hw, hk', hli⟩ := h.map k d hk
    obtain ⟨z', hz', ho⟩ := hsome d z hz
    simp only [hgetA]
    by_cases hyo : y.owner = z.owner
    · refine ⟨z', { w with on := b }, hz', ?_, hk', hli⟩
      rw [ho, if_pos hyo]
      rw [← hyo, hx] at hw
      cases hw; rfl
    · refine ⟨z', w, hz', ?_, hk', hli⟩
      rw [ho, if_neg hyo]; exact hw
  · intro i z hz hli
    simp only [hgetA] at hz
    have : ∃ w : Spec.Thread, a.threads[i]? = some w ∧ w.tid = z.tid ∧ w.listed = z.listed := by
      split at hz
      · rename_i hi; subst hi; cases hz; exact ⟨x, hx, rfl, rfl⟩
      · exact ⟨z, hz, rfl, rfl⟩
    obtain ⟨w, hw, hwt, hwl⟩ := this
    obtain ⟨d, v, hd, hv, ho⟩ := h.mapBack i w hw (by rw [hwl]; exact hli)
    obtain ⟨v', hv', ho'⟩ := hsome d v hv
    exact ⟨d, v', by rw [← hwt]; exact hd, hv', by rw [ho', ho]⟩
  · intro i th k d hth hk
    obtain ⟨hcl, v, hv, ho⟩ := h.cache i th k d hth hk
    obtain ⟨v', hv', ho'⟩ := hsome d v hv
    exact ⟨hcl, v', hv', by rw [ho', ho]⟩
  · exact h.pc
  · exact h.snapLen
  · intro i m old k hm ho
    obtain ⟨h5, h6⟩ := h.snap i m old k hm ho
    refine ⟨?_, h6⟩
    intro d hd
    obtain ⟨v, hv, hw⟩ := h5 d hd
    obtain ⟨v', hv', ho'⟩ := hsome d v hv
    exact ⟨v', hv', by rw [ho']; exact hw⟩
  · exact h.keys

/-- Changing what a thread does, with its switch and its place in the map kept. -/
theorem R_set {s : State} {a : Spec.State} (h : R s a) {t : Nat} {th th' : Thread} {x x' : Spec.Thread}
    (ht : s.threads[t]? = some th) (hx : a.threads[t]? = some x)
    (h1 : th'.tid = th.tid) (h2 : th'.ended = th.ended) (h3 : th'.cleanup = th.cleanup)
    (h4 : x'.tid = x.tid) (h5 : x'.ended = x.ended) (h6 : x'.used = x.used) (h7 : x'.on = x.on) (h8 : th'.pc = x'.pc)
    (hc : ∀ (k : Backend × Fn) (c : Nat), th'.cache.lookup k = some c → th'.cleanup = true ∧ ∃ y : Cell, s.cells[c]? = some y ∧ y.owner = t)
    (hp : ∀ (be : Backend) (p : Point), th'.pc = .ready be p ∨ th'.pc = .loaded be p →
      th'.ended = false ∧ be ≠ .nop ∧ (th'.cache.lookup (be, p.fn)).isSome = true) :
    R { s with threads := s.threads.set t th' } (a.upd t fun _ => x') := by
  have hl := (List.getElem?_eq_some_iff.mp hx).1
  have hl' := (List.getElem?_eq_some_iff.mp ht).1
  have h0 := h.thread t th x ht hx
  have hget : ∀ d : Nat, (s.threads.set t th')[d]? = if t = d then some th' else s.threads[d]? := by
    intro d; simp only [List.getElem?_set]; grind
  have hgetA : ∀ i : Nat, (a.threads.set t x')[i]? = if t = i then some x' else a.threads[i]? := by
    intro d; simp only [List.getElem?_set]; grind
  have hli : x'.listed = x.listed := by simp [Spec.Thread.listed, h5, h6]
  have hsome : ∀ (i : Nat) (z : Spec.Thread), a.threads[i]? = some z →
      ∃ z' : Spec.Thread, (a.threads.set t x')[i]? = some z' ∧ z'.tid = z.tid ∧ z'.listed = z.listed ∧ z'.on = z.on ∧ z'.used = z.used := by
    intro i z hz
    rw [hgetA]
    split
    · rename_i hd; subst hd; rw [hx] at hz; cases hz; exact ⟨_, rfl, h4, hli, h7, h6⟩
    · exact ⟨z, hz, rfl, rfl, rfl, rfl⟩
  have hback : ∀ (i : Nat) (z' : Spec.Thread), (a.threads.set t x')[i]? = some z' →
      ∃ z : Spec.Thread, a.threads[i]? = some z ∧ z'.tid = z.tid ∧ z'.listed = z.listed ∧ z'.on = z.on ∧ z'.used = z.used ∧ z'.ended = z.ended := by
    intro i z hz
    rw [hgetA] at hz
    split at hz
    · rename_i hd; subst hd; cases hz; exact ⟨_, hx, h4, hli, h7, h6, h5⟩
    · exact ⟨z, hz, rfl, rfl, rfl, rfl, rfl⟩
  unfold Spec.State.upd
  rw [modify_eq_set hx]
  constructor
  · exact h.process
  · exact h.log
  · simp [h.len]
  · have := h.thread; simp only [hgetA, hget]; grind
  · have := h.distinct; simp only [hgetA]; grind
  · have := h.fresh; simp only [hgetA]; grind
  · intro c y hy
    obtain ⟨z, hz, ho, hu⟩ := h.cell c y hy
    obtain ⟨z', hz', _, _, ho', hu'⟩ := hsome _ z hz
    exact ⟨z', hz', by rw [ho', ho], by rw [hu', hu]⟩
  · exact h.inj
  · intro k c hk
    obtain ⟨y, z, hy, hz, hk', hl''⟩ := h.map k c hk
    obtain ⟨z', hz', ht', hl3, _, _⟩ := hsome _ z hz
    exact ⟨y, z', hy, hz', by rw [ht', hk'], by rw [hl3, hl'']⟩
  · intro i z' hz' hl'
    obtain ⟨z, hz, ht', hl'', _⟩ := hback i z' hz'
    rw [ht']
    exact h.mapBack i z hz (by rw [← hl'']; exact hl')
  · intro i th0 k c hth0 hk
    simp only [hget] at hth0
    split at hth0
    · rename_i hi; subst hi; cases hth0; exact hc k c hk
    · exact h.cache i th0 k c hth0 hk
  · intro i th0 be p hth0 hk
    simp only [hget] at hth0
    split at hth0
    · rename_i hi; subst hi; cases hth0; exact hp be p hk
    · exact h.pc i th0 be p hth0 hk
  · exact h.snapLen
  · exact h.snap
  · exact h.keys

theorem R_out {s : State} {a : Spec.State} (h : R s a) (o : Obs) : R { s with log := s.log ++ [o] } (a.out o) :=
  { h with log := by simp [Spec.State.out, h.log] }

theorem R_exit {s : State} {a : Spec.State} (h : R s a) {t : Nat} {th : Thread} (ht : s.threads[t]? = some th)
    (he : th.ended = false) (hpc : th.pc = .idle) :
    R (if th.cleanup then { s with threads := s.threads.set t { th with ended := true }, map := s.map.filter fun x => x.1 ≠ th.tid }
       else { s with threads := s.threads.set t { th with ended := true } })
      (a.upd t fun x => { x with ended := true }) := by
  obtain ⟨x, hx, h1, h2, h3, h4⟩ := h.getA ht
  have hl := (List.getElem?_eq_some_iff.mp hx).1
  have hl' := (List.getElem?_eq_some_iff.mp ht).1
  have hget : ∀ d : Nat, (s.threads.set t { th with ended := true })[d]? = if t = d then some { th with ended := true } else s.threads[d]? := by
    intro d; simp only [List.getElem?_set]; grind
  have hgetA : ∀ i : Nat, (a.threads.set t { x with ended := true })[i]? = if t = i then some { x with ended := true } else a.threads[i]? := by
    intro d; simp only [List.getElem?_set]; grind
  have hnm : th.cleanup = false → (s.map.filter fun x => x.1 ≠ th.tid) = s.map := by
    intro hcl
    rw [List.filter_eq_self]
    rintro ⟨k, c⟩ hkc
    simp only [ne_eq, decide_not, Bool.not_eq_eq_eq_not, Bool.not_true, decide_eq_false_iff_not]
    rintro rfl
    obtain ⟨y, z, hy, hz, hk, hli⟩ := h.map _ _ (mem_lookup h.keys hkc)
    simp [Spec.Thread.listed] at hli
    have := h.distinct _ _ _ _ hz hx hli.2 (by rw [← h3]; exact he) (by rw [hk, h1])
    rw [this, hx] at hz
    cases hz
    rw [← h4, hcl] at hli
    simp at hli
  have hall : R { s with threads := s.threads.set t { th with ended := true }, map := s.map.filter fun x => x.1 ≠ th.tid }
      (a.upd t fun x => { x with ended := true }) := by
    unfold Spec.State.upd
    rw [modify_eq_set hx]
    constructor
    · exact h.process
    · exact h.log
    · simp [h.len]
    · have := h.thread; simp only [hgetA, hget]; grind
    · have := h.distinct; simp only [hgetA]; grind
    · have := h.fresh; simp only [hgetA]; grind
    · have := h.cell; simp only [hgetA]; grind
    · exact h.inj
    · intro k c hk
      rw [lookup_filter] at hk
      split at hk
      · simp at hk
      · rename_i hne
        obtain ⟨y, z, hy, hz, hk', hli⟩ := h.map k c hk
        refine ⟨y, z, hy, ?_, hk', hli⟩
        simp only [hgetA]
        rw [if_neg]
        · exact hz
        · rintro rfl
          rw [hx] at hz; cases hz
          exact hne (by rw [h1, hk'])
    · intro i z hz hli
      simp only [hgetA] at hz
      split at hz
      · cases hz; simp [Spec.Thread.listed] at hli
      · rename_i hne
        obtain ⟨c, y, hc, hy, ho⟩ := h.mapBack i z hz hli
        refine ⟨c, y, ?_, hy, ho⟩
        rw [lookup_filter, if_neg]
        · exact hc
        · intro hcon
          simp [Spec.Thread.listed] at hli
          exact hne (h.distinct _ _ _ _ hx hz (by rw [← h3]; exact he) hli.2 (by rw [← h1]; exact hcon.symm))
    · have := h.cache; simp only [hget]; grind
    · have := h.pc; simp only [hget]; grind
    · exact h.snapLen
    · exact h.snap
    · exact h.keys.sublist (List.Sublist.map _ List.filter_sublist)
  split
  · exact hall
  · rename_i hcl
    rw [hnm (by simpa using hcl)] at hall
    exact hall

theorem upd_upd (a : Spec.State) (t : Nat) (f g : Spec.Thread → Spec.Thread) :
    (a.upd t f).upd t g = a.upd t (fun x => g (f x)) := by
  unfold Spec.State.upd
  simp only [Spec.State.mk.injEq, and_true, true_and]
  apply List.ext_getElem?
  intro j
  simp only [List.getElem?_modify]
  cases a.threads[j]? <;> by_cases t = j <;> simp_all

theorem upd_const {a : Spec.State} {t : Nat} {x : Spec.Thread} (hx : a.threads[t]? = some x) (f : Spec.Thread → Spec.Thread) :
    a.upd t f = a.upd t (fun _ => f x) := by
  unfold Spec.State.upd
  rw [modify_eq_set hx, modify_eq_set hx]

theorem upd_get {a : Spec.State} {t : Nat} {x : Spec.Thread} (hx : a.threads[t]? = some x) (f : Spec.Thread → Spec.Thread) :
    (a.upd t f).threads[t]? = some (f x) := by
  unfold Spec.State.upd
  simp [List.getElem?_modify, hx]

theorem ptr_threads {s : State} {t : Nat} {th : Thread} :
    (threadStatePtr s t th).1.threads = s.threads.set t { th with cleanup := true } := by
  unfold threadStatePtr; simp only; split <;> rfl

theorem ptr_log {s : State} {t : Nat} {th : Thread} : (threadStatePtr s t th).1.log = s.log := by
  unfold threadStatePtr; simp only; split <;> rfl

theorem R_start {s : State} {a : Spec.State} (h : R s a) (tid : Nat)
    (hno : a.threads.any (fun th => th.tid = tid ∧ th.ended = false) = false) :
    R { s with threads := s.threads ++ [{ tid := tid }] } { a with threads := a.threads ++ [{ tid := tid }] } := by
  have hno' : ∀ (i : Nat) (x : Spec.Thread), a.threads[i]? = some x → x.ended = false → x.tid ≠ tid := by
    intro i x hx he htid
    have hm := List.mem_of_getElem? hx
    rw [List.any_eq_false] at hno
    exact hno x hm (by simp [he, htid])
  have hlen := h.len
  have hgetA : ∀ i : Nat, (a.threads ++ [({ tid := tid } : Spec.Thread)])[i]? =
      if i = a.threads.length then some { tid := tid } else a.threads[i]? := by
    intro i; simp only [List.getElem?_append]; grind
  have hget : ∀ i : Nat, (s.threads ++ [({ tid := tid } : Thread)])[i]? =
      if i = s.threads.length then some { tid := tid } else s.threads[i]? := by
    intro i; simp only [List.getElem?_append]; grind
  have hout : a.threads[a.threads.length]? = none := by simp
  constructor
  · exact h.process
  · exact h.log
  · simp [h.len]
  · have := h.thread; simp only [hgetA, hget]; grind
  · have := h.distinct; simp only [hgetA]; grind
  · have := h.fresh; simp only [hgetA]; grind
  · have := h.cell; simp only [hgetA]; grind
  · exact h.inj
  · have := h.map; simp only [hgetA]; grind
  · intro i x hx hli
    simp only [hgetA] at hx
    split at hx
    · cases hx; simp [Spec.Thread.listed] at hli
    · exact h.mapBack i x hx hli
  · intro i th k c hth hk
    simp only [hget] at hth
    split at hth
    · cases hth; simp at hk
    · exact h.cache i th k c hth hk
  · intro i th be p hth hk
    simp only [hget] at hth
    split at hth
    · cases hth; simp at hk
    · exact h.pc i th be p hth hk
  · exact h.snapLen
  · exact h.snap
  · exact h.keys

theorem R_any {s : State} {a : Spec.State} (h : R s a) (tid : Nat) :
    s.threads.any (fun th => th.tid = tid ∧ th.ended = false) = a.threads.any (fun th => th.tid = tid ∧ th.ended = false) := by
  have : s.threads.map (fun th => (th.tid, th.ended)) = a.threads.map (fun th => (th.tid, th.ended)) := by
    apply List.ext_getElem?
    intro i
    simp only [List.getElem?_map]
    cases hs : s.threads[i]? with
    | none => simp [h.getNone hs]
    | some th =>
      obtain ⟨x, hx, h1, h2, h3, h4⟩ := h.getA hs
      simp [hx, h1, h3]
  have e1 : s.threads.any (fun th => th.tid = tid ∧ th.ended = false) =
      (s.threads.map (fun th => (th.tid, th.ended))).any (fun p => p.1 = tid ∧ p.2 = false) := by
    simp [List.any_map, Function.comp_def]
  have e2 : a.threads.any (fun th => th.tid = tid ∧ th.ended = false) =
      (a.threads.map (fun th => (th.tid, th.ended))).any (fun p => p.1 = tid ∧ p.2 = false) := by
    simp [List.any_map, Function.comp_def]
  rw [e1, e2, this]

theorem R_step {s s' : State} {a : Spec.State} (h : R s a) (x : Act) (hs : step s x = .ok s') : R s' (Spec.step a x) := by
  cases x with
  | start tid =>
    simp only [step] at hs
    simp only [Spec.step, ← R_any h]
    split at hs
    · rename_i hc
      simp only [Res.ok.injEq] at hs
      subst hs
      rw [if_pos hc]
      exact h
    · rename_i hc
      simp only [Res.ok.injEq] at hs
      subst hs
      rw [if_neg hc]
      refine R_start h tid ?_
      rw [← R_any h]
      simpa using hc
  | getThread t =>
    simp only [step] at hs
    simp only [Spec.step]
    cases ht : s.threads[t]? with
    | none => rw [ht] at hs; rw [h.getNone ht]; simp at hs; subst hs; exact h
    | some th =>
      obtain ⟨x, hx, h1, h2, h3, h4⟩ := h.getA ht
      rw [ht] at hs
      rw [hx]
      simp only [Spec.Thread.free, ← h2, ← h3] at hs ⊢
      by_cases he : th.ended = true
      · simp [he] at hs
      · have he' : th.ended = false := by simpa using he
        by_cases hpc : th.pc = .idle
        · simp only [he', hpc] at hs
          obtain ⟨hR, y, hy, ho⟩ := R_ptr h ht he'
          simp only [Bool.false_eq_true, ↓reduceIte, hy, Res.ok.injEq] at hs
          subst hs
          simp only [he', hpc]
          have hval : y.val = x.on := by
            obtain ⟨z, hz, hzo, _⟩ := hR.cell _ y hy
            rw [ho, upd_get hx] at hz
            cases hz
            exact hzo.symm
          rw [hval]
          exact R_out hR _
        · simp [he', hpc] at hs
          subst hs
          simpa [he', hpc] using h
  | setThread t b =>
    simp only [step] at hs
    simp only [Spec.step]
    cases ht : s.threads[t]? with
    | none => rw [ht] at hs; rw [h.getNone ht]; simp at hs; subst hs; exact h
    | some th =>
      obtain ⟨x, hx, h1, h2, h3, h4⟩ := h.getA ht
      rw [ht] at hs
      rw [hx]
      simp only [Spec.Thread.free, ← h2, ← h3] at hs ⊢
      by_cases he : th.ended = true
      · simp [he] at hs
      · have he' : th.ended = false := by simpa using he
        by_cases hpc : th.pc = .idle
        · simp only [he', hpc] at hs
          obtain ⟨hR, y, hy, ho⟩ := R_ptr h ht he'
          simp only [Bool.false_eq_true, ↓reduceIte, hy, Res.ok.injEq] at hs
          subst hs
          simp only [he', hpc]
          have hval : y.val = x.on := by
            obtain ⟨z, hz, hzo, _⟩ := hR.cell _ y hy
            rw [ho, upd_get hx] at hz
            cases hz
            exact hzo.symm
          rw [hval]
          have hR2 := R_store hR hy b
          rw [ho, upd_upd] at hR2
          exact R_out hR2 _
        · simp [he', hpc] at hs
          subst hs
          simpa [he', hpc] using h
  | getProcess =>
    simp only [step, Res.ok.injEq] at hs
    subst hs
    simp only [Spec.step, ← h.process]
    exact R_out h _
  | setProcess b =>
    simp only [step, Res.ok.injEq] at hs
    subst hs
    simp only [Spec.step, ← h.process]
    have : R { s with process := b } { a with process := b } := { h with process := rfl }
    exact R_out this _
  | storeProcess b =>
    simp only [step, Res.ok.injEq] at hs
    subst hs
    exact { h with process := rfl }
  | reach t be p =>
    simp only [step] at hs
    simp only [Spec.step]
    cases ht : s.threads[t]? with
    | none => rw [ht] at hs; rw [h.getNone ht]; simp at hs; subst hs; exact h
    | some th =>
      obtain ⟨x, hx, h1, h2, h3, h4⟩ := h.getA ht
      rw [ht] at hs
      rw [hx]
      simp only [Spec.Thread.free, ← h2, ← h3] at hs ⊢
      by_cases hpc : th.pc = .idle
      · simp only [hpc, ↓reduceIte] at hs
        by_cases hnop : be = .nop
        · subst hnop
          simp at hs
          subst hs
          simpa using h
        · rw [if_neg hnop] at hs
          have hs2 := hs
          by_cases he : th.ended = true
          · simp [he] at hs2
          · have he' : th.ended = false := by simpa using he
            rw [if_neg he] at hs2
            rw [if_pos ⟨by simp [he', hpc], hnop⟩]
            cases hk : th.cache.lookup (be, p.fn) with
            | some c =>
              rw [hk] at hs2
              simp only [Res.ok.injEq] at hs2
              subst hs2
              rw [upd_const hx]
              have hcu := (h.cache t th _ c ht hk).1
              refine R_set (x' := { x with used := true, pc := .ready be p }) h ht hx rfl rfl rfl rfl rfl ?_ rfl rfl ?_ ?_
              · simp only [← h4, hcu]
              · intro k c' hk'
                exact h.cache t th k c' ht hk'
              · intro be' p' hp'
                simp at hp'
                obtain ⟨rfl, rfl⟩ := hp'
                exact ⟨he', hnop, by simp [hk]⟩
            | none =>
              rw [hk] at hs2
              simp only [Res.ok.injEq] at hs2
              subst hs2
              obtain ⟨hR, y, hy, ho⟩ := R_ptr h ht he'
              have hl' := (List.getElem?_eq_some_iff.mp ht).1
              have ht' : (threadStatePtr s t th).1.threads[t]? = some { th with cleanup := true } := by
                rw [ptr_threads]; simp [hl']
              have hx' := upd_get (a := a) hx (fun x => { x with used := true })
              have := R_set hR ht' hx'
                (th' := { th with cleanup := true, cache := th.cache ++ [((be, p.fn), (threadStatePtr s t th).2)], pc := .ready be p })
                (x' := { x with used := true, pc := .ready be p }) rfl rfl rfl rfl rfl rfl rfl rfl ?_ ?_
              · rw [upd_upd] at this
                rw [upd_const hx]
                exact this
              · intro k c' hk'
                refine ⟨rfl, ?_⟩
                simp only at hk'
                rw [lookup_snoc] at hk'
                split at hk'
                · exact (hR.cache t _ k c' ht' hk').2
                · split at hk'
                  · simp at hk'
                    rw [← hk']
                    exact ⟨y, hy, ho⟩
                  · simp at hk'
              · intro be' p' hp'
                simp at hp'
                obtain ⟨rfl, rfl⟩ := hp'
                refine ⟨he', hnop, ?_⟩
                simp only
                rw [lookup_snoc]
                simp [hk]
      · simp [hpc] at hs
        subst hs
        simpa [hpc] using h
  | loadProcess t =>
    simp only [step] at hs
    simp only [Spec.step]
    cases ht : s.threads[t]? with
    | none => rw [ht] at hs; rw [h.getNone ht]; simp at hs; subst hs; exact h
    | some th =>
      obtain ⟨x, hx, h1, h2, h3, h4⟩ := h.getA ht
      rw [ht] at hs
      rw [hx]
      simp only [← h2] at hs ⊢
      cases hpc : th.pc with
      | idle => rw [hpc] at hs; simp at hs; subst hs; exact h
      | loaded be p => rw [hpc] at hs; simp at hs; subst hs; exact h
      | ready be p =>
        rw [hpc] at hs
        simp only at hs ⊢
        have hp := h.pc t th be p ht (.inl hpc)
        rw [upd_const hx, ← h.process]
        by_cases hpr : s.process = true
        · rw [if_pos hpr] at hs ⊢
          simp only [Res.ok.injEq] at hs
          subst hs
          refine R_set (th' := { th with pc := .loaded be p }) (x' := { x with pc := .loaded be p }) h ht hx rfl rfl rfl rfl rfl rfl rfl rfl ?_ ?_
          · intro k c' hk'; exact h.cache t th k c' ht hk'
          · intro be' p' hp'
            simp at hp'
            obtain ⟨rfl, rfl⟩ := hp'
            exact hp
        · rw [if_neg hpr] at hs ⊢
          simp only [Res.ok.injEq] at hs
          subst hs
          refine R_set (th' := { th with pc := .idle }) (x' := { x with pc := .idle }) h ht hx rfl rfl rfl rfl rfl rfl rfl rfl ?_ ?_
          · intro k c' hk'; exact h.cache t th k c' ht hk'
          · intro be' p' hp'
            simp at hp'
  | loadThread t =>
    simp only [step] at hs
    simp only [Spec.step]
    cases ht : s.threads[t]? with
    | none => rw [ht] at hs; rw [h.getNone ht]; simp at hs; subst hs; exact h
    | some th =>
      obtain ⟨x, hx, h1, h2, h3, h4⟩ := h.getA ht
      rw [ht] at hs
      rw [hx]
      simp only [← h2] at hs ⊢
      cases hpc : th.pc with
      | idle => rw [hpc] at hs; simp at hs; subst hs; exact h
      | ready be p => rw [hpc] at hs; simp at hs; subst hs; exact h
      | loaded be p =>
        rw [hpc] at hs
        simp only at hs ⊢
        have hR : R { s with threads := s.threads.set t { th with pc := .idle } } (a.upd t fun x => { x with pc := .idle }) := by
          rw [upd_const hx]
          refine R_set h ht hx rfl rfl rfl rfl rfl rfl rfl rfl ?_ ?_
          · intro k c' hk'; exact h.cache t th k c' ht hk'
          · intro be' p' hp'
            simp at hp'
        cases hk : th.cache.lookup (be, p.fn) with
        | none => rw [hk] at hs; simp at hs
        | some c =>
          rw [hk] at hs
          simp only at hs
          obtain ⟨_, y, hy, ho⟩ := h.cache t th _ c ht hk
          have hval : y.val = x.on := by
            obtain ⟨z, hz, hzo, _⟩ := h.cell _ y hy
            rw [ho, hx] at hz
            cases hz
            exact hzo.symm
          rw [hy] at hs
          simp only [hval] at hs
          cases hon : x.on with
          | false =>
            rw [hon] at hs
            simp at hs
            subst hs
            simpa using hR
          | true =>
            rw [hon] at hs
            simp only [↓reduceIte] at hs
            cases hr : record be p with
            | none =>
              rw [hr] at hs
              simp at hs
              subst hs
              simpa using hR
            | some r =>
              rw [hr] at hs
              simp only [Res.ok.injEq] at hs
              subst hs
              have hR2 := R_out hR (.event t th.tid r)
              have e : Obs.event t th.tid r = Obs.event t x.tid r := by rw [h1]
              rw [e] at hR2 ⊢
              exact hR2
  | exit t =>
    simp only [step] at hs
    simp only [Spec.step]
    cases ht : s.threads[t]? with
    | none => rw [ht] at hs; rw [h.getNone ht]; simp at hs; subst hs; exact h
    | some th =>
      obtain ⟨x, hx, h1, h2, h3, h4⟩ := h.getA ht
      rw [ht] at hs
      rw [hx]
      simp only [Spec.Thread.free, ← h2, ← h3] at hs ⊢
      by_cases hc : th.ended = false ∧ th.pc = .idle
      · have := R_exit h ht hc.1 hc.2
        simp only [hc, and_self, ↓reduceIte] at hs
        simp only [hc.1, hc.2, Bool.not_false, BEq.rfl, Bool.and_self, ↓reduceIte]
        simp only [hc.2] at this
        cases hcl : th.cleanup with
        | true => 
          simp only [hcl, ↓reduceIte, Res.ok.injEq] at hs this
          subst hs
          exact this
        | false =>
          simp only [hcl, Bool.false_eq_true, ↓reduceIte, Res.ok.injEq] at hs this
          subst hs
          exact this
      · rw [if_neg hc] at hs
        simp only [Res.ok.injEq] at hs
        subst hs
        rw [if_neg]
        · exact h
        · simp only [Bool.and_eq_true, Bool.not_eq_eq_eq_not, Bool.not_true, beq_iff_eq]
          exact hc
  | getMap =>
    simp only [step, Res.ok.injEq] at hs
    subst hs
    simp only [Spec.step]
    refine { h with snapLen := by simp [h.snapLen], snap := ?_ }
    intro i m old k hm ho
    have hlen := h.snapLen
    have : (s.snaps[i]? = some m ∧ a.snaps[i]? = some old) ∨ (m = s.map ∧ old = a.threads) := by
      simp only [List.getElem?_append] at hm ho
      grind
    rcases this with ⟨h1, h2⟩ | ⟨rfl, rfl⟩
    · exact h.snap i m old k h1 h2
    · refine ⟨?_, ?_⟩
      · intro c hc
        obtain ⟨y, x, hy, hx, hk, hli⟩ := h.map k c hc
        refine ⟨y, hy, ?_⟩
        cases hw : Spec.who a.threads k with
        | none => exact absurd hk (who_none hw _ x hx hli)
        | some j =>
          obtain ⟨z, hz, hzl, hzk⟩ := who_some hw
          simp [Spec.Thread.listed] at hzl hli
          rw [h.distinct _ _ _ _ hz hx hzl.2 hli.2 (by rw [hzk, hk])]
      · intro hc
        cases hw : Spec.who a.threads k with
        | none => rfl
        | some j =>
          obtain ⟨z, hz, hzl, hzk⟩ := who_some hw
          obtain ⟨c, _, hc', _⟩ := h.mapBack j z hz hzl
          rw [hzk, hc] at hc'
          simp at hc'
  | remoteStore i tid b =>
    simp only [step] at hs
    simp only [Spec.step]
    cases hm : s.snaps[i]? with
    | none =>
      have : a.snaps[i]? = none := by
        simp only [List.getElem?_eq_none_iff] at hm ⊢; rw [← h.snapLen]; exact hm
      rw [hm] at hs; simp at hs; subst hs; rw [this]; exact h
    | some m =>
      have hlt := (List.getElem?_eq_some_iff.mp hm).1
      rw [h.snapLen] at hlt
      have ho : a.snaps[i]? = some a.snaps[i] := by simp [hlt]
      obtain ⟨h5, h6⟩ := h.snap i m _ tid hm ho
      rw [hm] at hs
      rw [ho]
      simp only at hs ⊢
      cases hk : m.lookup tid with
      | none => rw [hk] at hs; simp at hs; subst hs; rw [h6 hk]; exact h
      | some c =>
        obtain ⟨y, hy, hw⟩ := h5 c hk
        rw [hk] at hs
        simp only [Res.ok.injEq] at hs
        subst hs
        rw [hw]
        exact R_store h hy b
  | remoteLoad i tid =>
    simp only [step] at hs
    simp only [Spec.step]
    cases hm : s.snaps[i]? with
    | none =>
      have : a.snaps[i]? = none := by
        simp only [List.getElem?_eq_none_iff] at hm ⊢; rw [← h.snapLen]; exact hm
      rw [hm] at hs; simp at hs; subst hs; rw [this]; exact h
    | some m =>
      have hlt := (List.getElem?_eq_some_iff.mp hm).1
      rw [h.snapLen] at hlt
      have ho : a.snaps[i]? = some a.snaps[i] := by simp [hlt]
      obtain ⟨h5, h6⟩ := h.snap i m _ tid hm ho
      rw [hm] at hs
      rw [ho]
      simp only at hs ⊢
      cases hk : m.lookup tid with
      | none => rw [hk] at hs; simp at hs; subst hs; rw [h6 hk]; exact h
      | some c =>
        obtain ⟨y, hy, hw⟩ := h5 c hk
        obtain ⟨x, hx, hon, _⟩ := h.cell c y hy
        rw [hk] at hs
        simp only [hy, Res.ok.injEq] at hs
        subst hs
        rw [hw]
        simp only [hx, hon]
        exact R_out h _

theorem R_run {s s' : State} {a : Spec.State} (h : R s a) (xs : List Act) (hs : run s xs = .ok s') : R s' (Spec.run a xs) := by
  induction xs generalizing s a with
  | nil => simp [run] at hs; subst hs; exact h
  | cons x xs ih =>
    simp only [run] at hs
    cases hx : step s x with
    | ok s1 => rw [hx] at hs; exact ih (R_step h x hx) hs
    | throws m => rw [hx] at hs; simp [Res.bind] at hs
    | ub => rw [hx] at hs; simp [Res.bind] at hs
    | terminate => rw [hx] at hs; simp [Res.bind] at hs

end Scalopus.TraceState
