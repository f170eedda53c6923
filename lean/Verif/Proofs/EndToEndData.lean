import Verif.Proofs.EndToEnd
import Verif.Props.C31_NativeSource
import Verif.Props.C35_ScopeNames

/-!
# What the batches of the whole system contain
-/

namespace Scalopus.EndToEnd

open Cbor (Event Threads ThreadsValid insertKey)
open Collector (Ev Batch)
open TraceState (Point)

/-! ### The map of a round -/

theorem insertKey_perm (m : Threads) (k : Nat) (v : List Event) (h : ∀ x ∈ m, x.1 ≠ k) : (insertKey m k v).Perm ((k, v) :: m) := by
  induction m with
  | nil => exact .refl _
  | cons x r ih =>
    rw [insertKey]
    split
    · exact .refl _
    · rw [if_neg (fun e => h x (by simp) e.symm)]
      exact ((ih fun y hy => h y (by simp [hy])).cons x).trans (List.Perm.swap _ _ _)

theorem insertKey_sorted (m : Threads) (k : Nat) (v : List Event) (h : ∀ x ∈ m, x.1 ≠ k) (hs : m.Pairwise fun x y => x.1 < y.1) :
    (insertKey m k v).Pairwise fun x y => x.1 < y.1 := by
  induction m with
  | nil => simp [insertKey]
  | cons x r ih =>
    have hs' := List.pairwise_cons.mp hs
    rw [insertKey]
    split
    · rename_i hlt
      refine List.pairwise_cons.mpr ⟨fun y hy => ?_, hs⟩
      rcases List.mem_cons.mp hy with rfl | hy
      · exact hlt
      · exact Nat.lt_trans hlt (hs'.1 y hy)
    · rename_i hge
      have hne := h x (by simp)
      rw [if_neg (fun e => hne e.symm)]
      refine List.pairwise_cons.mpr ⟨fun y hy => ?_, ih (fun y hy => h y (by simp [hy])) hs'.2⟩
      have := (insertKey_perm r k v (fun y hy => h y (by simp [hy]))).mem_iff.mp hy
      rcases List.mem_cons.mp this with rfl | hy'
      · simp only; omega
      · exact hs'.1 y hy'

def asEvents (x : Nat × List (Ev Emission)) : Nat × List Event := (x.1, x.2.map fun e => eventOf e.val)

theorem fold_threads (l : List (Nat × List (Ev Emission))) : ∀ (acc : Threads), (acc.map (·.1) ++ l.map (·.1)).Nodup → acc.Pairwise (fun x y => x.1 < y.1) →
    (l.foldl (fun acc x => insertKey acc x.1 (x.2.map fun e => eventOf e.val)) acc).Perm (acc ++ l.map asEvents) ∧
    (l.foldl (fun acc x => insertKey acc x.1 (x.2.map fun e => eventOf e.val)) acc).Pairwise (fun x y => x.1 < y.1) := by
  induction l with
  | nil => intro acc _ hs; exact ⟨by simp, hs⟩
  | cons x l ih =>
    intro acc hn hs
    have hx : ∀ y ∈ acc, y.1 ≠ x.1 := by
      intro y hy
      rw [List.nodup_append] at hn
      exact hn.2.2 y.1 (List.mem_map_of_mem hy) x.1 (by simp)
    have hp := insertKey_perm acc x.1 (x.2.map fun e => eventOf e.val) hx
    obtain ⟨h1, h2⟩ := ih (insertKey acc x.1 (x.2.map fun e => eventOf e.val)) (by
      refine (List.Perm.nodup_iff ?_).mp hn
      refine List.Perm.trans ?_ ((hp.map (·.1)).symm.append_right _)
      simp only [List.map_cons]
      exact List.perm_middle) (insertKey_sorted _ _ _ hx hs)
    refine ⟨h1.trans ?_, h2⟩
    refine (hp.append_right _).trans ?_
    simp only [List.map_cons, List.cons_append]
    exact List.perm_middle.symm

theorem threadsOf_perm (m : List (Nat × List (Ev Emission))) (h : (m.map (·.1)).Nodup) : (threadsOf m).Perm (m.map asEvents) := by
  have := (fold_threads m [] (by simpa using h) List.Pairwise.nil).1
  rwa [List.nil_append] at this

theorem threadsOf_sorted (m : List (Nat × List (Ev Emission))) (h : (m.map (·.1)).Nodup) : (threadsOf m).Pairwise fun x y => x.1 < y.1 :=
  (fold_threads m [] (by simpa using h) List.Pairwise.nil).2

/-! ### Sizes -/

theorem head_pos (a n : Nat) : 1 ≤ (Cbor.head a n).length := by
  unfold Cbor.head
  split
  · simp
  · split
    · simp
    · split
      · simp
      · split <;> simp

theorem encode_pos (e : Event) : 1 ≤ e.encode.length := by
  unfold Event.encode
  have := head_pos 4 3
  have := head_pos 4 4
  split <;> simp only [List.length_append] <;> omega

theorem flatten_length {α β : Type} (f : α → List β) (l : List α) (h : ∀ a, 1 ≤ (f a).length) : l.length ≤ ((l.map f).flatten).length := by
  induction l with
  | nil => simp
  | cons a l ih => simp only [List.map_cons, List.flatten_cons, List.length_append, List.length_cons]; have := h a; omega

theorem flatten_mem {α β : Type} (f : α → List β) (l : List α) (a : α) (h : a ∈ l) : (f a).length ≤ ((l.map f).flatten).length := by
  induction l with
  | nil => cases h
  | cons b l ih =>
    simp only [List.map_cons, List.flatten_cons, List.length_append]
    rcases List.mem_cons.mp h with rfl | h
    · omega
    · have := ih h; omega

theorem encodeThread_length (x : Nat × List Event) : x.2.length + 1 ≤ (Cbor.encodeThread x).length := by
  unfold Cbor.encodeThread
  have h1 := head_pos 0 x.1
  have h2 := flatten_length Event.encode x.2 encode_pos
  simp only [List.length_append]
  omega

theorem encodeBatch_length (pid : Nat) (m : Threads) : m.length ≤ (Cbor.encodeBatch pid m).length ∧ ∀ x ∈ m, x.2.length ≤ (Cbor.encodeBatch pid m).length := by
  have h1 := flatten_length Cbor.encodeThread m (fun x => by have := encodeThread_length x; omega)
  have h2 : ((m.map Cbor.encodeThread).flatten).length ≤ (Cbor.encodeBatch pid m).length := by
    unfold Cbor.encodeBatch Cbor.encodeThreads
    simp only [List.length_append]
    omega
  refine ⟨by omega, fun x hx => ?_⟩
  have h3 := flatten_mem Cbor.encodeThread m x hx
  have h4 := encodeThread_length x
  omega

/-! ### Events -/

theorem fits_valid (e : Emission) (h : Fits e.point e.time = true) : (eventOf e).Valid ∧ NativeSource.Spec.Known (eventOf e) := by
  obtain ⟨n, p, t⟩ := e
  unfold Fits at h
  cases p with
  | entry id => simp at h; exact ⟨⟨h.1, h.2, by simp [eventOf, TraceState.record], by simp [eventOf, TraceState.record]⟩, by simp [NativeSource.Spec.Known, eventOf, TraceState.record, NativeSource.Spec.phase]⟩
  | exit id => simp at h; exact ⟨⟨h.1, h.2, by simp [eventOf, TraceState.record], by simp [eventOf, TraceState.record]⟩, by simp [NativeSource.Spec.Known, eventOf, TraceState.record, NativeSource.Spec.phase]⟩
  | mark id l =>
    simp at h
    cases l <;> exact ⟨⟨h.1, h.2, by simp [eventOf, TraceState.record], by simp [eventOf, TraceState.record]⟩, by simp [NativeSource.Spec.Known, eventOf, TraceState.record, NativeSource.Spec.phase]⟩
  | count id v =>
    simp at h
    have hr := C30.counter_round_trip v ⟨h.2.1.2, h.2.2⟩
    refine ⟨⟨h.1, h.2.1.1, by simp [eventOf, TraceState.record], ?_⟩, ?_⟩
    · intro d hd
      simp only [eventOf, TraceState.record, Option.map_some, Option.some.injEq] at hd
      subst hd
      omega
    · simp [NativeSource.Spec.Known, eventOf, TraceState.record, NativeSource.Spec.phase, NativeSource.Spec.counterValue, hr.1]

/-- The batches of a process are valid messages. -/
theorem batch_valid {c : Collector.State Emission} (h : CInv c) (b : Batch Emission) (hb : b ∈ c.batches) (pid : Nat)
    (hs : (payload pid b).length < 2 ^ 32) : ThreadsValid (threadsOf b.events) := by
  have hk := (h.cons.keysB b hb).1
  have hp := threadsOf_perm b.events hk
  have hl := encodeBatch_length pid (threadsOf b.events)
  unfold payload at hs
  refine ⟨threadsOf_sorted b.events hk, ?_, by omega, fun x hx => by have := hl.2 x hx; omega, ?_⟩
  · intro x hx
    obtain ⟨y, hy, rfl⟩ := List.mem_map.mp (hp.mem_iff.mp hx)
    exact h.keys.2 b hb y hy
  · intro x hx e he
    obtain ⟨y, hy, rfl⟩ := List.mem_map.mp (hp.mem_iff.mp hx)
    obtain ⟨e', he', rfl⟩ := List.mem_map.mp he
    exact (fits_valid e'.val (h.fits _ (h.cons.tidsB b hb y hy e' he').1)).1

/-! ### Nothing twice -/

theorem log_nodup {c : Collector.State Emission} (h : CInv c) : (c.log.map (·.1)).Nodup := by
  rw [List.nodup_iff_getElem?_ne_getElem?]
  intro i j hij hj
  rw [List.length_map] at hj
  rw [List.getElem?_map, List.getElem?_map, List.getElem?_eq_getElem (by omega), List.getElem?_eq_getElem hj]
  simp only [Option.map_some, ne_eq, Option.some.injEq]
  intro e
  have h1 := h.serial i _ (List.getElem?_eq_getElem (by omega))
  have h2 := h.serial j _ (List.getElem?_eq_getElem hj)
  rw [e] at h1
  omega

/-- All events of a round. -/
def eventsIn (b : Batch Emission) : List (Ev Emission) := b.events.flatMap (·.2)

theorem ofThread_flat (m : List (Nat × List (Ev Emission))) (t tid : Nat) (hk : (m.map (·.1)).Nodup)
    (h : ∀ x ∈ m, ∀ e ∈ x.2, e.thread = t → x.1 = tid) :
    Collector.ofThread t (m.flatMap (·.2)) = Collector.ofThread t (Collector.under m tid) := by
  have nothing : ∀ m : List (Nat × List (Ev Emission)), (∀ x ∈ m, ∀ e ∈ x.2, e.thread = t → x.1 = tid) → tid ∉ m.map (·.1) →
      Collector.ofThread t (m.flatMap (·.2)) = [] := by
    intro m hm hn
    unfold Collector.ofThread
    rw [List.filter_eq_nil_iff]
    intro e he
    obtain ⟨x, hx, hxe⟩ := List.mem_flatMap.mp he
    simp only [decide_eq_true_eq]
    intro ht
    exact hn (List.mem_map.mpr ⟨x, hx, hm x hx e hxe ht⟩)
  induction m with
  | nil => rfl
  | cons x m ih =>
    obtain ⟨k, l⟩ := x
    simp only [List.map_cons, List.nodup_cons] at hk
    have hm : ∀ x ∈ m, ∀ e ∈ x.2, e.thread = t → x.1 = tid := fun x hx => h x (by simp [hx])
    rw [List.flatMap_cons, Collector.ofThread_append]
    unfold Collector.under
    simp only [List.lookup]
    by_cases hkt : k = tid
    · subst hkt
      simp only [beq_self_eq_true, Option.getD_some]
      rw [nothing m hm hk.1, List.append_nil]
    · have : (tid == k) = false := by simpa using fun e => hkt e.symm
      simp only [this]
      have hl : Collector.ofThread t l = [] := by
        unfold Collector.ofThread
        rw [List.filter_eq_nil_iff]
        intro e he
        simp only [decide_eq_true_eq]
        intro ht
        exact hkt (h (k, l) (by simp) e he ht)
      rw [hl, List.nil_append]
      exact ih hk.2 hm

theorem batches_nodup {c : Collector.State Emission} (h : CInv c) : (c.batches.flatMap eventsIn).Nodup := by
  rw [List.nodup_iff_count_le_one]
  intro e
  by_cases he : e ∈ c.batches.flatMap eventsIn
  · obtain ⟨b, hb, he⟩ := List.mem_flatMap.mp he
    obtain ⟨x, hx, he⟩ := List.mem_flatMap.mp he
    obtain ⟨_, th, ht, htid⟩ := h.cons.tidsB b hb x hx e he
    have h1 : List.count e (c.batches.flatMap eventsIn) = List.count e (Collector.ofThread e.thread (c.batches.flatMap eventsIn)) := by
      unfold Collector.ofThread
      rw [List.count_filter (by simp)]
    have h2 : Collector.ofThread e.thread (c.batches.flatMap eventsIn) =
        Collector.ofThread e.thread (c.batches.flatMap fun b => Collector.under b.events th.tid) := by
      have key : ∀ l : List (Batch Emission), (∀ b ∈ l, b ∈ c.batches) → Collector.ofThread e.thread (l.flatMap eventsIn) =
          Collector.ofThread e.thread (l.flatMap fun b => Collector.under b.events th.tid) := by
        intro l hl
        induction l with
        | nil => rfl
        | cons b l ih =>
          rw [List.flatMap_cons, List.flatMap_cons, Collector.ofThread_append, Collector.ofThread_append, ih fun b hb => hl b (by simp [hb])]
          congr 1
          refine ofThread_flat b.events e.thread th.tid (h.cons.keysB b (hl b (by simp))).1 ?_
          intro y hy e' he' hee
          obtain ⟨_, th', ht', htid'⟩ := h.cons.tidsB b (hl b (by simp)) y hy e' he'
          rw [hee, ht] at ht'
          cases ht'
          exact htid'.symm
      exact key _ fun _ h => h
    rw [h1, h2]
    have h3 := h.cons.all e.thread th ht
    have h4 : (Collector.accepted e.thread c).Nodup := by
      have hsub : (Collector.accepted e.thread c).Sublist (c.log.map (·.1)) := by
        unfold Collector.accepted Collector.ofThread
        exact List.filter_sublist.trans (List.filter_sublist.map _)
      exact hsub.nodup (log_nodup h)
    have h5 : (Collector.ofThread e.thread (c.batches.flatMap fun b => Collector.under b.events th.tid)).Sublist (Collector.accepted e.thread c) := by
      rw [h3]
      unfold Collector.collectedOf
      rw [List.append_assoc]
      exact List.sublist_append_left _ _
    exact List.nodup_iff_count_le_one.mp (h5.nodup h4) e
  · rw [List.count_eq_zero_of_not_mem he]
    omega

end Scalopus.EndToEnd
