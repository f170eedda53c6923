import Verif.Proofs.EndToEndData

/-!
# What a finished interval shows of the whole system
-/

namespace Scalopus.Recording

variable {δ : Type}

theorem step_completed {s s' : State δ} {a : Act δ} (e : step s a = some s') :
    s'.log = s.log ∨ ∃ o, s'.log = s.log ++ [o] ∧ ∀ n, o = .completed n → ¬ isNone (s.arr n) := by
  cases a <;> simp only [Recording.step] at e <;> grind [State.setSrc, State.setArr, isNone]

/-- A call completes after it began. -/
theorem completed_called {s : State δ} (h : Reachable s) (n : Nat) : ∀ l1 l2, s.log = l1 ++ .completed n :: l2 → ∃ d, .called n d ∈ l1 := by
  induction h with
  | init => intro l1 l2 e; simp at e
  | @step s s' a hr e ih =>
    intro l1 l2 hl
    rcases step_completed e with h | ⟨o, h, ho⟩
    · exact ih l1 l2 (h ▸ hl)
    · rw [h] at hl
      rcases snoc_split hl with ⟨rfl, h2, _⟩ | ⟨l2', _, h2⟩
      · have L := (linv 0 n hr).called
        rw [track_called] at L
        exact L.mpr (ho n h2.symm)
      · exact ih l1 l2' h2

end Scalopus.Recording

namespace Scalopus.EndToEnd

open Collector (Ev Batch)
open NativeSource (Entry)

theorem exists_forall₂ {α β : Type} (R : α → β → Prop) (l : List α) (h : ∀ a ∈ l, ∃ b, R a b) : ∃ k, List.Forall₂ R l k := by
  induction l with
  | nil => exact ⟨[], .nil⟩
  | cons a l ih =>
    obtain ⟨b, hb⟩ := h a (by simp)
    obtain ⟨k, hk⟩ := ih fun a ha => h a (by simp [ha])
    exact ⟨b :: k, .cons hb hk⟩

theorem forall₂_map_eq {α β γ : Type} {R : α → β → Prop} {l : List α} {k : List β} (f : α → γ) (g : β → γ) (h : List.Forall₂ R l k)
    (hfg : ∀ a b, R a b → f a = g b) : l.map f = k.map g := by
  induction h with
  | nil => rfl
  | cons h1 _ ih => simp [hfg _ _ h1, ih]

theorem forall₂_mem_left {α β : Type} {R : α → β → Prop} {l : List α} {k : List β} (h : List.Forall₂ R l k) (a : α) (ha : a ∈ l) : ∃ b ∈ k, R a b := by
  induction h with
  | nil => cases ha
  | cons h1 _ ih =>
    rcases List.mem_cons.mp ha with rfl | ha
    · exact ⟨_, by simp, h1⟩
    · obtain ⟨b, hb, hr⟩ := ih ha
      exact ⟨b, by simp [hb], hr⟩

theorem forall₂_mem_right {α β : Type} {R : α → β → Prop} {l : List α} {k : List β} (h : List.Forall₂ R l k) (b : β) (hb : b ∈ k) : ∃ a ∈ l, R a b := by
  induction h with
  | nil => cases hb
  | cons h1 _ ih =>
    rcases List.mem_cons.mp hb with rfl | hb
    · exact ⟨_, by simp, h1⟩
    · obtain ⟨a, ha, hr⟩ := ih hb
      exact ⟨a, by simp [ha], hr⟩

/-- Different on the left, different on the right. -/
theorem forall₂_nodup {α β γ κ : Type} {R : α → β → Prop} {l : List α} {k : List β} (f : α → γ) (g : β → κ) (h : List.Forall₂ R l k)
    (hn : (l.map f).Nodup) (hfg : ∀ a b a' b', R a b → R a' b' → g b = g b' → f a = f a') : (k.map g).Nodup := by
  induction h with
  | nil => simp
  | @cons a b l k h1 h2 ih =>
    simp only [List.map_cons, List.nodup_cons] at hn ⊢
    refine ⟨?_, ih hn.2⟩
    intro hm
    obtain ⟨b', hb', e⟩ := List.mem_map.mp hm
    obtain ⟨a', ha', hr⟩ := forall₂_mem_right h2 b' hb'
    exact hn.1 (List.mem_map.mpr ⟨a', ha', hfg _ _ _ _ hr h1 e⟩)

theorem arrivals_nodup_gen (l : List (Nat × Nat)) (h : ∀ q, (ofProc q l).Nodup) : l.Nodup := by
  induction l with
  | nil => simp
  | cons a l ih =>
    obtain ⟨p, k⟩ := a
    refine List.nodup_cons.mpr ⟨?_, ih fun q => ?_⟩
    · intro hm
      have := h p
      simp only [ofProc, List.filterMap_cons, ↓reduceIte, List.nodup_cons] at this
      exact this.1 (List.mem_filterMap.mpr ⟨(p, k), hm, by simp⟩)
    · have := h q
      unfold ofProc at this ⊢
      exact ((List.sublist_cons_self _ _).filterMap _).nodup this

theorem arrivals_nodup {pids : List Nat} {s : State} (h : Inv pids s) : s.arrivals.Nodup := by
  apply arrivals_nodup_gen
  intro q
  cases hq : s.procs[q]? with
  | some x =>
    have := (h.msgs q x hq).nodup
    exact (List.nodup_append.mp this).2.1
  | none =>
    have : ofProc q s.arrivals = [] := by
      unfold ofProc
      rw [List.filterMap_eq_nil_iff]
      intro y hy
      have h1 := h.known y hy
      have h2 : s.procs.length ≤ q := by simpa using hq
      rw [if_neg (by omega)]
    rw [this]
    exact List.nodup_nil

/-- The numbers of the data that a finish returns are different. -/
theorem returned_nodup {r : Recording.State Bytes} (h : Recording.Reachable r) (i : Nat) (ds : List (Nat × Bytes)) (l1 l2 : List (Recording.Obs Bytes))
    (hl : r.log = l1 ++ .returned i ds :: l2) : (ds.map (·.1)).Nodup := by
  rw [List.nodup_iff_count_le_one]
  intro n
  have hsub : ds.Sublist (Recording.returnedBy i r.log) := by
    rw [hl]
    unfold Recording.returnedBy
    rw [List.flatMap_append, List.flatMap_cons]
    simp only [Recording.taken, if_pos]
    exact (List.sublist_append_left _ _).trans (List.sublist_append_right _ _)
  have h1 := C34.never_twice h i n
  have h2 := ((hsub.filter fun p => p.1 = n)).length_le
  have h3 : List.count n (ds.map (·.1)) = (ds.filter fun p => p.1 = n).length := by
    rw [List.count_eq_length_filter, List.filter_map, List.length_map]
    congr 1
  omega

/-- A batch in the hands of the consumer: number of the process, number of the batch, the process. -/
abbrev Src := Nat × Nat × Proc

def Src.events (y : Src) : List (Nat × Proc × Nat × Ev Emission) :=
  (batchAt y.2.2 y.2.1).events.flatMap fun z => z.2.map fun e => (y.1, y.2.2, z.1, e)

def toRec (q : Nat × Proc × Nat × Ev Emission) : NativeSource.Spec.Rec := ⟨q.2.1.pid, q.2.2.1, eventOf q.2.2.2.val⟩

def toBatch (y : Src) : Nat × Cbor.Threads := (y.2.2.pid, threadsOf (batchAt y.2.2 y.2.1).events)

theorem recorded_perm (k : List Src) (h : ∀ y ∈ k, ((batchAt y.2.2 y.2.1).events.map (·.1)).Nodup) :
    (NativeSource.Spec.recorded (k.map toBatch)).Perm ((k.flatMap Src.events).map toRec) := by
  induction k with
  | nil => exact .refl _
  | cons y k ih =>
    have ih := ih fun z hz => h z (by simp [hz])
    simp only [NativeSource.Spec.recorded, List.map_cons, List.flatMap_cons, List.map_append] at ih ⊢
    refine List.Perm.append ?_ ih
    have hp := threadsOf_perm _ (h y (by simp))
    have h1 := hp.flatMap_right (fun x => x.2.map fun e => (⟨y.2.2.pid, x.1, e⟩ : NativeSource.Spec.Rec))
    refine h1.trans ?_
    rw [List.flatMap_map]
    simp only [Src.events, List.map_flatMap, List.map_map, asEvents]
    exact .refl _

/-- The events of all these batches are different. -/
theorem events_nodup (k : List Src) (hk : (k.map fun y => (y.1, y.2.1)).Nodup) (procs : List Proc) (hp : ∀ y ∈ k, procs[y.1]? = some y.2.2)
    (hb : ∀ y ∈ k, y.2.1 < y.2.2.coll.batches.length) (hc : ∀ y ∈ k, CInv y.2.2.coll) :
    ((k.flatMap Src.events).map fun q => (q.1, q.2.2.2)).Nodup := by
  have e : (k.flatMap Src.events).map (fun q => (q.1, q.2.2.2)) = k.flatMap fun y => (eventsIn (batchAt y.2.2 y.2.1)).map fun e => (y.1, e) := by
    rw [List.map_flatMap]
    congr 1
    funext y
    simp only [Src.events, eventsIn, List.map_flatMap, List.map_map]
    rfl
  have hat : ∀ y ∈ k, y.2.2.coll.batches[y.2.1]? = some (batchAt y.2.2 y.2.1) := by
    intro y hy
    rw [List.getElem?_eq_getElem (hb y hy)]
    unfold batchAt
    rw [List.getD_eq_getElem?_getD, List.getElem?_eq_getElem (hb y hy)]
    rfl
  rw [e, List.nodup_flatMap]
  constructor
  · intro y hy
    have h1 := (List.nodup_flatMap.mp (batches_nodup (hc y hy))).1 _ (List.mem_of_getElem? (hat y hy))
    exact h1.map (fun a b h => by simpa using h)
  · rw [List.Nodup, List.pairwise_map] at hk
    refine hk.imp_of_mem ?_
    intro y z hy hz hne
    simp only [Function.onFun]
    intro q hq1 hq2
    obtain ⟨e1, he1, rfl⟩ := List.mem_map.mp hq1
    obtain ⟨e2, he2, heq⟩ := List.mem_map.mp hq2
    simp only [Prod.mk.injEq] at heq
    obtain ⟨hpq, rfl⟩ := heq
    have hx : y.2.2 = z.2.2 := by
      have h1 := hp y hy
      have h2 := hp z hz
      rw [hpq, h1] at h2
      exact Option.some.inj h2
    have hkk : y.2.1 ≠ z.2.1 := by
      intro e
      apply hne
      rw [hpq, e]
    have hd := (List.nodup_flatMap.mp (batches_nodup (hc y hy))).2
    have hi := hat y hy
    have hj := hat z hz
    rw [← hx] at hj he2
    obtain ⟨hi1, hi2⟩ := List.getElem?_eq_some_iff.mp hi
    obtain ⟨hj1, hj2⟩ := List.getElem?_eq_some_iff.mp hj
    rcases Nat.lt_or_gt_of_ne hkk with hlt | hlt
    · have := List.pairwise_iff_getElem.mp hd _ _ hi1 hj1 hlt
      rw [hi2, hj2] at this
      exact this he1 he2
    · have := List.pairwise_iff_getElem.mp hd _ _ hj1 hi1 hlt
      rw [hi2, hj2] at this
      exact this he2 he1

/-- Arrivals stay. -/
theorem step_arrivals {s s' : State} {a : Act} (h : step s a = some s') : ∃ l, s'.arrivals = s.arrivals ++ l := by
  cases a with
  | register p id n =>
    simp only [step, Option.bind_eq_some_iff] at h
    obtain ⟨x, hx, h⟩ := h
    split at h
    · simp only [Option.some.injEq] at h; subst h; exact ⟨[], by simp [setProc]⟩
    · cases h
  | trace p t point time lag =>
    simp only [step, Option.bind_eq_some_iff] at h
    obtain ⟨x, hx, h⟩ := h
    split at h
    · simp only [Option.map_eq_some_iff] at h
      obtain ⟨c, hc, rfl⟩ := h
      exact ⟨[], by simp [setProc]⟩
    · cases h
  | collector p b =>
    simp only [step, Option.bind_eq_some_iff] at h
    obtain ⟨x, hx, h⟩ := h
    cases b with
    | emit t v lag => cases h
    | start tid =>
      simp only at h
      split at h
      · simp only [Option.map_eq_some_iff] at h
        obtain ⟨c, hc, rfl⟩ := h
        exact ⟨[], by simp [setProc]⟩
      · cases h
    | finish =>
      simp only [Option.map_eq_some_iff] at h
      obtain ⟨c, hc, h⟩ := h
      split at h
      · split at h <;> subst h <;> exact ⟨[], by simp [setProc]⟩
      · subst h; exact ⟨[], by simp [setProc]⟩
    | _ =>
      simp only [Option.map_eq_some_iff] at h
      obtain ⟨c, hc, rfl⟩ := h
      exact ⟨[], by simp [setProc]⟩
  | connect p c =>
    simp only [step, Option.map_eq_some_iff] at h
    obtain ⟨x, hx, rfl⟩ := h
    exact ⟨[], by simp [setProc]⟩
  | disconnect p c =>
    simp only [step, Option.bind_eq_some_iff] at h
    obtain ⟨x, hx, h⟩ := h
    split at h
    · cases h
    · simp only [Option.some.injEq] at h; subst h; exact ⟨[], by simp [setProc]⟩
  | pump p broken =>
    simp only [step, Option.bind_eq_some_iff] at h
    obtain ⟨x, hx, h⟩ := h
    split at h
    · cases h
    · simp only [Option.some.injEq] at h; subst h; exact ⟨[], by simp [setProc]⟩
  | receive p pending =>
    simp only [step, Option.bind_eq_some_iff] at h
    obtain ⟨x, hx, h⟩ := h
    split at h
    · cases h
    · split at h
      · split at h
        · split at h
          · simp only [Option.map_eq_some_iff] at h
            obtain ⟨r, _, rfl⟩ := h
            exact ⟨_, rfl⟩
          · simp only [Option.some.injEq] at h; subst h; exact ⟨[], by simp [setProc]⟩
        · simp only [Option.some.injEq] at h; subst h; exact ⟨[], by simp [setProc]⟩
      · cases h
  | consume b =>
    cases b <;> simp only [step, Option.map_eq_some_iff, reduceCtorEq] at h <;> (obtain ⟨r, _, rfl⟩ := h; exact ⟨[], by simp⟩)

theorem steps_arrivals {s s' : State} (h : Steps s s') : ∃ l, s'.arrivals = s.arrivals ++ l := by
  induction h with
  | refl => exact ⟨[], by simp⟩
  | step _ h ih =>
    obtain ⟨l, e⟩ := ih
    obtain ⟨l', e'⟩ := step_arrivals h
    exact ⟨l ++ l', by rw [e', e, List.append_assoc]⟩

/-- The first occurrence. -/
theorem first_split {α : Type} [DecidableEq α] {l : List α} {a : α} (h : a ∈ l) : ∃ l1 l2, l = l1 ++ a :: l2 ∧ a ∉ l1 := by
  induction l with
  | nil => cases h
  | cons b l ih =>
    by_cases e : b = a
    · subst e; exact ⟨[], l, rfl, by simp⟩
    · rcases List.mem_cons.mp h with rfl | h
      · exact absurd rfl e
      · obtain ⟨l1, l2, rfl, h2⟩ := ih h
        exact ⟨b :: l1, l2, rfl, by simp [h2, Ne.symm e]⟩

/-- An event that was emitted and handed over during the interval is in the data that is returned. -/
theorem captured_data {pids : List Nat} {s : State} (h : Reachable pids s) (hsmall : SmallBatches s) (i : Nat) (ds : List (Nat × Bytes))
    (l1 l2 : List (Recording.Obs Bytes)) (hl : s.rec'.log = l1 ++ .returned i ds :: l2) (p : Nat) (e : Ev Emission) (hc : Captured pids s i l1 p e) :
    ∃ n k x tid d, (n, d) ∈ ds ∧ s.arrivals[n]? = some (p, k) ∧ s.procs[p]? = some x ∧ k < x.coll.batches.length ∧ Collector.listed (batchAt x k) tid e := by
  obtain ⟨s0, s1, c, l4, hr0, h01, h1s, ⟨a, b, hab, hub⟩, hne, hlog1, huc, ⟨x1, k, bt, n, tid, hx1, hbt, hlist, harr, hcomp⟩, hl1, hns, hnr⟩ := hc
  have hr1 : Reachable pids s1 := hr0.trans h01
  have hsm1 := small_earlier h1s hsmall
  have hsm0 := small_earlier h01 hsm1
  have inv := inv_reachable h hsmall
  have inv1 := inv_reachable hr1 hsm1
  have inv0 := inv_reachable hr0 hsm0
  have hlt1 := (List.getElem?_eq_some_iff.mp hbt).1
  have hat1 : batchAt x1 k = bt := by
    unfold batchAt
    rw [List.getD_eq_getElem?_getD, hbt]
    rfl
  let d := payload x1.pid (batchAt x1 k)
  have hcall1 : .called n d ∈ s1.rec'.log := (inv1.calls n d).mpr ⟨p, k, x1, harr, hx1, rfl⟩
  /- it was not called before `s0` -/
  have hnot0 : ∀ d', .called n d' ∉ s0.rec'.log := by
    intro d' hd'
    obtain ⟨q, j, y, g1, g2, _⟩ := (inv0.calls n d').mp hd'
    obtain ⟨l, hla⟩ := steps_arrivals h01
    have : s1.arrivals[n]? = some (q, j) := by
      rw [hla, List.getElem?_append_left (List.getElem?_eq_some_iff.mp g1).1]
      exact g1
    rw [harr] at this
    simp only [Option.some.injEq, Prod.mk.injEq] at this
    obtain ⟨rfl, rfl⟩ := this
    obtain ⟨y', g3, g4⟩ := steps_later h01 p y g2
    rw [hx1] at g3
    cases g3
    have hk0 : k < y.coll.batches.length := (inv0.msgs p y g2).bound k (by
      simp only [List.mem_append]
      right
      exact List.mem_filterMap.mpr ⟨(p, k), List.mem_of_getElem? g1, by simp⟩)
    obtain ⟨l', hl'⟩ := g4.batches
    have hbt0 : y.coll.batches[k]? = some bt := by
      rw [hl', List.getElem?_append_left hk0] at hbt
      exact hbt
    obtain ⟨z, hz, rfl, hez⟩ := hlist
    obtain ⟨g5, th, g6, g7⟩ := (inv0.coll y (List.mem_of_getElem? g2)).cons.tidsB bt (List.mem_of_getElem? hbt0) z hz e hez
    exact hne z.1 ⟨y, th, g2, g5, g6, g7⟩
  have hcall : .called n d ∈ c := by
    rw [hlog1] at hcall1
    rcases List.mem_append.mp hcall1 with h' | h'
    · exact absurd h' (hnot0 d)
    · exact h'
  obtain ⟨c1, c2, hc12, hc1⟩ := first_split hcall
  /- it completed after that -/
  have hcomp2 : .completed n ∈ c2 := by
    have hnotearly : .completed n ∉ s0.rec'.log ++ c1 := by
      intro hm
      obtain ⟨m1, m2, hm12⟩ := List.append_of_mem hm
      obtain ⟨d', hd'⟩ := Recording.completed_called inv1.reach n m1 (m2 ++ .called n d :: c2) (by
        rw [hlog1, hc12, ← List.append_assoc, hm12]; simp)
      have hd'' : .called n d' ∈ s0.rec'.log ++ c1 := by rw [hm12]; simp [hd']
      rcases List.mem_append.mp hd'' with h' | h'
      · exact hnot0 d' h'
      · have := Recording.called_once inv1.reach n d d' hcall1 (by rw [hlog1, hc12]; simp [h'])
        subst this
        exact hc1 h'
    rw [hlog1, hc12, ← List.append_assoc] at hcomp
    rcases List.mem_append.mp hcomp with h' | h'
    · exact absurd h' hnotearly
    · rcases List.mem_cons.mp h' with h' | h'
      · cases h'
      · exact h'
  obtain ⟨c3, c4, hc34⟩ := List.append_of_mem hcomp2
  subst hc34
  subst hc12
  obtain ⟨u1, u2, u3⟩ := huc
  simp only [List.mem_append, List.mem_cons, not_or] at u1 u2 u3
  obtain ⟨v1, v2, v3⟩ := hub
  have hmem : (n, d) ∈ ds := by
    refine C34.arrived_is_returned inv.reach i n d ds a (b ++ c1) c3 (c4 ++ l4) l2 ?_ ?_ ?_ ?_ ?_
    · rw [hl, hl1, hlog1, hab]; simp
    · refine ⟨?_, ?_, ?_⟩ <;> simp only [List.mem_append, not_or]
      · exact ⟨v1, u1.1⟩
      · exact ⟨v2, u2.1⟩
      · exact ⟨v3, u3.1⟩
    · exact ⟨u1.2.2.1, u2.2.2.1, u3.2.2.1⟩
    · simp only [List.mem_append, not_or]; exact ⟨u1.2.2.2.2, hns⟩
    · intro ds' hm
      apply hnr ds'
      simp only [List.mem_append, List.mem_cons] at hm ⊢
      tauto
  obtain ⟨l, hla⟩ := steps_arrivals h1s
  obtain ⟨x, hx, hlat⟩ := steps_later h1s p x1 hx1
  obtain ⟨l', hl'⟩ := hlat.batches
  refine ⟨n, k, x, tid, d, hmem, ?_, hx, ?_, ?_⟩
  · rw [hla, List.getElem?_append_left (List.getElem?_eq_some_iff.mp harr).1]
    exact harr
  · rw [hl', List.length_append]; omega
  · rw [batchAt_append hl' k hlt1, hat1]
    exact hlist

end Scalopus.EndToEnd
