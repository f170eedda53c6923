import Verif.Proofs.Recording

/-!
# C34: a source records exactly its interval

The log of a history lists when calls begin and return. Nothing is assumed about the number of sources and receiving threads or about their interleaving.
A call of `incoming` that overlaps a start, stop or finish may count as before or after it.
-/

namespace Scalopus.C34

open Recording

variable {δ : Type}

/-- **C34, nothing is lost.** Data that arrives after `startInterval()` returned and before the next start, stop or finish of this source begins is returned by the next
    `finishInterval()`, unless the source is started anew before. -/
theorem arrived_is_returned {s : State δ} (h : Reachable s) (i n : Nat) (d : δ) (ds : List (Nat × δ)) (l1 l2 l3 l4 l5 : List (Obs δ))
    (hl : s.log = l1 ++ .started i :: l2 ++ .called n d :: l3 ++ .completed n :: l4 ++ .returned i ds :: l5)
    (h2 : Undisturbed i l2) (h3 : Undisturbed i l3) (h4 : .starting i ∉ l4) (h4' : ∀ ds, .returned i ds ∉ l4) : (n, d) ∈ ds := by
  have hg := good h _ i ds l5 hl n
  have hk : (track i n (l1 ++ .started i :: l2 ++ .called n d :: l3 ++ .completed n :: l4)).kept = true := by
    rw [track_append, List.foldl_cons, track_append, List.foldl_cons, track_append, List.foldl_cons]
    apply fold_kept i n l4 h4 h4'
    have e1 := fold_recs i n l2 h2 ((track i n l1).next i n (.started i : Obs δ)) (by simp [Q.next])
    have e2 := fold_whole i n l3 h3 _ (show ((l2.foldl (Q.next i n) ((track i n l1).next i n (.started i : Obs δ))).next i n (.called n d)).recs = true by
      simpa [Q.next] using e1) (by simpa [Q.next] using e1)
    have e3 : ∀ q : Q, q.whole = true → (q.next i n (.completed n : Obs δ)).kept = true := fun q hq => by simp [Q.next, hq]
    exact e3 _ e2
  obtain ⟨d', hd'⟩ := hg.1 hk
  have := called_once h n d d' (by rw [hl]; simp) (by
    have := hg.2.2.1 d' hd'
    rw [hl]
    exact List.mem_append_left _ this)
  rwa [this]

/-- **C34, nothing else is returned.** What `finishInterval()` returns arrived in the interval: its call of `incoming` had not completed when the last `startInterval()` began, and had
    begun before the first stop or finish after that. -/
theorem returned_arrived {s : State δ} (h : Reachable s) (i n : Nat) (d : δ) (ds : List (Nat × δ)) (l1 l2 : List (Obs δ))
    (hl : s.log = l1 ++ .returned i ds :: l2) (hd : (n, d) ∈ ds) :
    ∃ a b c, l1 = a ++ .starting i :: b ++ c ∧ .starting i ∉ b ++ c ∧ .completed n ∉ a ∧ .called n d ∈ a ++ .starting i :: b ∧
      .stopping i ∉ b ∧ .finishing i ∉ b := by
  have hg := good h _ i ds l2 hl n
  obtain ⟨g1, g2, g3⟩ := hg.2.1 ⟨d, hd⟩
  obtain ⟨a, b, e1, e2, e3, _, e5⟩ := track_seen i n l1 g1
  obtain ⟨b1, b2, e6, ⟨d', e7⟩, e8, e9⟩ := e5 g2
  refine ⟨a, b1, b2, by rw [e1, e6]; simp, by rw [← e6]; exact e2, ?_, ?_, e8, e9⟩
  · intro hc
    have := e3.mpr hc
    rw [g3] at this
    cases this
  · have hd2 := hg.2.2.1 d hd
    have := called_once h n d d' (by rw [hl]; exact List.mem_append_left _ hd2) (by
      rw [hl, e1, e6]
      simp only [List.mem_append, List.mem_cons] at e7 ⊢
      tauto)
    rwa [this]

/-- **C34, never twice.** All calls of `finishInterval()` of a source together return the data of an arrival at most once. -/
theorem never_twice {s : State δ} (h : Reachable s) (i n : Nat) : ((returnedBy i s.log).filter fun p => p.1 = n).length ≤ 1 := by
  have := (oinv i n h).le
  rw [List.countP_append, List.countP_eq_length_filter] at this
  omega

/-- **C34, order.** Data that arrived after other data had arrived is not returned before it. -/
theorem in_order {s : State δ} (h : Reachable s) (i n m : Nat) (d : δ) (ds : List (Nat × δ)) (l1 l2 l3 l4 : List (Obs δ))
    (hl : s.log = l1 ++ .completed n :: l2 ++ .called m d :: l3 ++ .returned i ds :: l4) :
    ds.Pairwise fun x y => ¬ (x.1 = m ∧ y.1 = n) := by
  apply (good h _ i ds l4 hl n).2.2.2 m
  rw [after_append, List.foldl_cons, after_append, List.foldl_cons]
  have e1 := fold_after1 n m l2 (nextAfter n m (after n m l1) (.completed n : Obs δ)) (by simp [nextAfter])
  apply fold_after2
  · simpa [nextAfter] using e1
  · simpa [nextAfter] using e1

/-- Run these steps. -/
def run (s : State δ) : List (Act δ) → Option (State δ)
  | [] => some s
  | a :: as => (step s a).bind fun s' => run s' as

theorem run_reachable (as : List (Act δ)) (s s' : State δ) (h : Reachable s) (e : run s as = some s') : Reachable s' := by
  induction as generalizing s with
  | nil => simp only [run, Option.some.injEq] at e; subst e; exact h
  | cons a as ih =>
    rw [run] at e
    cases hs : step s a with
    | none => rw [hs] at e; cases e
    | some t => rw [hs] at e; exact ih t (.step h hs) e

/-- Two sources; data 10 arrives before the start, 20 during the interval of source 0, 30 after it is stopped; source 1 only records 20. -/
def history : List (Act Nat) :=
  [.make, .make, .call 0 10, .lock 0, .check 0 1, .check 0 0, .unlock 0, .ret 0,
   .start 0, .start 1, .clear 0, .on 0, .clear 1, .on 1,
   .call 1 20, .lock 1, .check 1 0, .check 1 1, .unlock 1, .add 1 1, .add 1 0, .ret 1,
   .stop 0, .call 2 30, .lock 2, .check 2 0, .finish 1, .check 2 1, .unlock 2, .ret 2,
   .finish 0, .swap 1, .swap 0]

/-- Evaluation of the history; it meets the conditions of the theorems above for both sources. -/
example : (run {} history).map (fun s => s.log) = some
    [.called 0 10, .completed 0, .starting 0, .starting 1, .started 0, .started 1, .called 1 20, .completed 1, .stopping 0, .called 2 30, .finishing 1,
     .completed 2, .finishing 0, .returned 1 [(1, 20)], .returned 0 [(1, 20)]] := by decide

/-- What happens with a call that overlaps: a second finish, without a new start, can still return data that was in the hands of `incoming` during the first. -/
theorem overlapping_call_comes_later : ∃ s : State Nat, Reachable s ∧ s.log =
    [.starting 0, .started 0, .called 0 10, .finishing 0, .returned 0 [], .completed 0, .finishing 0, .returned 0 [(0, 10)]] := by
  cases e : run ({} : State Nat) [.make, .start 0, .clear 0, .on 0, .call 0 10, .lock 0, .check 0 0, .unlock 0, .finish 0, .swap 0, .add 0 0, .ret 0, .finish 0, .swap 0] with
  | none => exact absurd (congrArg Option.isSome e) (by decide)
  | some s =>
    refine ⟨s, run_reachable _ _ _ .init e, ?_⟩
    have : (run ({} : State Nat) [.make, .start 0, .clear 0, .on 0, .call 0 10, .lock 0, .check 0 0, .unlock 0, .finish 0, .swap 0, .add 0 0, .ret 0, .finish 0, .swap 0]).map
        (fun s => s.log) = some [.starting 0, .started 0, .called 0 10, .finishing 0, .returned 0 [], .completed 0, .finishing 0, .returned 0 [(0, 10)]] := by decide
    rw [e] at this
    simpa using this

end Scalopus.C34
