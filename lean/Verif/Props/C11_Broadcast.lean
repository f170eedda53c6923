import Verif.Model.Broadcast
import Verif.Spec.Broadcast

/-!
# C11, C12: broadcasts
-/

namespace Scalopus.C11

open Protocol Broadcast Spec.Broadcast

theorem pop_nil : popBroadcast [] = none := rfl

theorem pop_snoc (q : List (Bytes × Bytes)) (m : Bytes × Bytes) : popBroadcast (q ++ [m]) = some (m, q) := by
  simp [popBroadcast]

/-- A queue is empty or has a last element. -/
theorem queue_cases (q : List (Bytes × Bytes)) : q = [] ∨ ∃ q' m, q = q' ++ [m] := by
  cases h : q.getLast? with
  | none => left; simpa using h
  | some m => right; exact ⟨q.dropLast, m, by rw [List.getLast?_eq_some_iff] at h; obtain ⟨l, rfl⟩ := h; simp⟩

theorem deliveredTo_process (c : Nat) (s : State) (q m) (broken) (hq : s.queue = q ++ [m]) (hnd : s.conns.Nodup) :
    deliveredTo c (step s (.process broken)) =
      deliveredTo c s ++ if c ∈ s.conns ∧ c ∉ broken then [message m] else [] := by
  simp only [step, hq, pop_snoc, deliveredTo, List.filter_append, List.map_append]
  congr 1
  clear hq
  revert hnd
  generalize s.conns = cs
  intro hnd
  induction cs with
  | nil => simp
  | cons d ds ih =>
    have hds := (List.nodup_cons.1 hnd)
    have ih := ih hds.2
    by_cases hb : d ∈ broken
    · by_cases hc : c = d
      · subst hc; simp [List.filter_cons, hb] at ih ⊢
        grind
      · simp [List.filter_cons, hb, hc] at ih ⊢; exact ih
    · by_cases hc : c = d
      · subst hc
        have hn : c ∉ ds := hds.1
        simp [List.filter_cons, hb, hn] at ih ⊢
        exact ih
      · have : ¬ d = c := fun e => hc e.symm
        simp [List.filter_cons, hb, hc, this] at ih ⊢
        exact ih

theorem nodup_step (s : State) (a : Act) (h : s.conns.Nodup) : (step s a).conns.Nodup := by
  cases a with
  | broadcast n d => exact h
  | process b => simp only [step]; split <;> exact h
  | connect c =>
    simp only [step]
    split
    · exact h
    · rename_i hc
      rw [List.nodup_append]
      exact ⟨h, by simp, by intro a ha b hb; simp at hb; subst hb; intro e; subst e; exact hc ha⟩
  | disconnect c => exact List.Sublist.nodup List.filter_sublist h

theorem nodup_run (as : List Act) : ∀ s : State, s.conns.Nodup → (run s as).conns.Nodup := by
  induction as with
  | nil => intro s h; exact h
  | cons a as ih => intro s h; exact ih _ (nodup_step s a h)

theorem message_eq : message = carrying := rfl

theorem exactly_once_gen (c : Nat) (bs : List Act) : ∀ (s : State), s.conns.Nodup → c ∈ s.conns → Undisturbed c bs →
    ∃ l, deliveredTo c (run s bs) = deliveredTo c s ++ l.map message ∧ (l ++ (run s bs).queue).Perm (s.queue ++ called bs) := by
  induction bs with
  | nil => intro s _ _ _; exact ⟨[], by simp [run], by simp [run, called]⟩
  | cons a bs ih =>
    intro s hnd hc hu
    cases a with
    | broadcast n d =>
      obtain ⟨l, h1, h2⟩ := ih (step s (.broadcast n d)) (nodup_step s _ hnd) hc hu
      refine ⟨l, h1, ?_⟩
      simp only [step, List.append_assoc, List.singleton_append] at h2
      exact h2
    | connect d =>
      have hc' : c ∈ (step s (.connect d)).conns := by
        simp only [step]; split
        · exact hc
        · simp [hc]
      obtain ⟨l, h1, h2⟩ := ih _ (nodup_step s _ hnd) hc' hu.2
      exact ⟨l, h1, h2⟩
    | disconnect d =>
      have hc' : c ∈ (step s (.disconnect d)).conns := by
        simp only [step, List.mem_filter]
        exact ⟨hc, by simpa using fun e => hu.1 e.symm⟩
      obtain ⟨l, h1, h2⟩ := ih _ (nodup_step s _ hnd) hc' hu.2
      exact ⟨l, h1, h2⟩
    | process broken =>
      have hc' : c ∈ (step s (.process broken)).conns := by simp only [step]; split <;> exact hc
      obtain ⟨l, h1, h2⟩ := ih _ (nodup_step s _ hnd) hc' hu.2
      rcases queue_cases s.queue with hq | ⟨q, m, hq⟩
      · have hs : step s (.process broken) = s := by simp [step, hq, pop_nil]
        rw [hs] at h1 h2
        refine ⟨l, ?_, ?_⟩
        · show deliveredTo c (run (step s (.process broken)) bs) = _
          rw [hs]; exact h1
        · show (l ++ (run (step s (.process broken)) bs).queue).Perm _
          rw [hs]; exact h2
      · have hdel := deliveredTo_process c s q m broken hq hnd
        rw [if_pos ⟨hc, hu.1⟩] at hdel
        refine ⟨m :: l, ?_, ?_⟩
        · show deliveredTo c (run (step s (.process broken)) bs) = _
          rw [h1, hdel]; simp
        · show (m :: l ++ (run (step s (.process broken)) bs).queue).Perm _
          have hq' : (step s (.process broken)).queue = q := by simp [step, hq, pop_snoc]
          rw [hq'] at h2
          rw [hq]
          simp only [called, List.append_assoc, List.cons_append]
          refine (h2.cons m).trans ?_
          exact List.perm_middle.symm

/-- **C11.** Take any history `as`, a client `c` that is connected after it, and any continuation `bs` during which the client
    stays connected with a working connection. Then what the client is sent during `bs` are exactly the broadcasts that were
    queued at the beginning or called during `bs`, each of them once, except for those that are still in the queue
    at the end; and these remain in the queue once. -/
theorem broadcast_exactly_once (as bs : List Act) (c : Nat) (hc : c ∈ (run {} as).conns) (hu : Undisturbed c bs) :
    ∃ l, deliveredTo c (run {} (as ++ bs)) = deliveredTo c (run {} as) ++ l.map carrying ∧
      (l ++ (run {} (as ++ bs)).queue).Perm ((run {} as).queue ++ called bs) := by
  have hsplit : run {} (as ++ bs) = run (run {} as) bs := by simp [run]
  rw [hsplit]
  exact exactly_once_gen c bs _ (nodup_run as {} (by simp)) hc hu

/-- **C11, nothing to others.** A client that is not connected and does not connect is sent nothing. -/
theorem broadcast_to_no_one_else (bs : List Act) : ∀ (s : State) (c : Nat), c ∉ s.conns → (∀ a ∈ bs, a ≠ .connect c) →
    deliveredTo c (run s bs) = deliveredTo c s := by
  induction bs with
  | nil => intro s c _ _; rfl
  | cons a bs ih =>
    intro s c hc ha
    have ha' : ∀ a ∈ bs, a ≠ .connect c := fun a h => ha a (by simp [h])
    have h0 := ha a (by simp)
    have key : c ∉ (step s a).conns ∧ deliveredTo c (step s a) = deliveredTo c s := by
      cases a with
      | broadcast n d => exact ⟨hc, rfl⟩
      | connect d =>
        have hd : d ≠ c := by intro e; subst e; exact h0 rfl
        refine ⟨?_, rfl⟩
        simp only [step]
        split
        · exact hc
        · simp [hc]; exact fun e => hd e.symm
      | disconnect d => exact ⟨by simp only [step, List.mem_filter]; exact fun h => hc h.1, rfl⟩
      | process b =>
        simp only [step]
        split
        · exact ⟨hc, rfl⟩
        · rename_i m q _
          refine ⟨hc, ?_⟩
          simp only [deliveredTo, List.filter_append, List.map_append]
          have : List.filter (fun e : Nat × Msg => decide (e.1 = c))
              ((s.conns.filter (fun c => !b.contains c)).map (fun c => (c, message m))) = [] := by
            rw [List.filter_eq_nil_iff]
            intro e he
            simp only [List.mem_map, List.mem_filter] at he
            obtain ⟨d, hd, rfl⟩ := he
            simp
            intro e; subst e; exact hc hd.1
          rw [this]; simp
    show deliveredTo c (run (step s a) bs) = _
    rw [ih _ c key.1 ha', key.2]

/-- **C11, processing ends.** After as many rounds as there are queued broadcasts the queue is empty. -/
theorem queue_drained (s : State) (broken : List Nat) :
    (run s (List.replicate s.queue.length (.process broken))).queue = [] := by
  generalize hn : s.queue.length = n
  induction n generalizing s with
  | zero => simpa [run] using List.length_eq_zero_iff.1 hn
  | succ n ih =>
    rcases queue_cases s.queue with hq | ⟨q, m, hq⟩
    · rw [hq] at hn; simp at hn
    · show (run (step s (.process broken)) (List.replicate n (.process broken))).queue = []
      apply ih
      simp [step, hq, pop_snoc]
      rw [hq] at hn; simpa using hn

/-- Two clients, one connects between two broadcasts. -/
example :
    let s := run {} [.connect 1, .broadcast [1] [5], .process [], .connect 2, .broadcast [2] [6], .process []]
    deliveredTo 1 s = [carrying ([1], [5]), carrying ([2], [6])] ∧ deliveredTo 2 s = [carrying ([2], [6])] := by decide

end Scalopus.C11

namespace Scalopus.C12

open Protocol Broadcast Spec.Broadcast C11

/-- The full property C12 (false, see `broadcast_order_violated`): a client connected to a server with an empty queue
    receives what is broadcast in the order of the calls. -/
def BroadcastsInOrder : Prop :=
  ∀ (s : State) (c : Nat) (bs : List Act), s.conns.Nodup → c ∈ s.conns → s.queue = [] → Undisturbed c bs →
    (run s bs).queue = [] → deliveredTo c (run s bs) = deliveredTo c s ++ (called bs).map carrying

/-- **C12, what the code does.** Broadcasts that are queued when the worker comes by are delivered in reverse order. -/
theorem queued_broadcasts_reversed (s : State) (c : Nat) (hnd : s.conns.Nodup) (hc : c ∈ s.conns) :
    deliveredTo c (run s (List.replicate s.queue.length (.process []))) =
      deliveredTo c s ++ s.queue.reverse.map carrying := by
  generalize hn : s.queue.length = n
  induction n generalizing s with
  | zero => have := List.length_eq_zero_iff.1 hn; simp [run, this]
  | succ n ih =>
    rcases queue_cases s.queue with hq | ⟨q, m, hq⟩
    · rw [hq] at hn; simp at hn
    · show deliveredTo c (run (step s (.process [])) (List.replicate n (.process []))) = _
      have hq' : (step s (.process [])).queue = q := by simp [step, hq, pop_snoc]
      have hc' : (step s (.process [])).conns = s.conns := by simp [step, hq, pop_snoc]
      rw [ih _ (by rw [hc']; exact hnd) (by rw [hc']; exact hc) (by rw [hq']; rw [hq] at hn; simpa using hn)]
      rw [deliveredTo_process c s q m [] hq hnd, if_pos ⟨hc, by simp⟩, hq', hq]
      simp [message_eq]

/-- **C12 is violated**: two broadcasts made before the worker comes by arrive in the opposite order. -/
theorem broadcast_order_violated : ¬ BroadcastsInOrder := by
  intro h
  have := h { conns := [1] } 1 [.broadcast [1] [5], .broadcast [1] [6], .process [], .process []]
    (by simp) (by simp) rfl (by simp [Undisturbed]) (by decide)
  revert this
  decide

/-- **C12, partial.** If every broadcast is called when the earlier ones have already been sent, they arrive in the order of
    the calls. Missing from the full property: several broadcasts queued at the same time. -/
theorem broadcasts_in_order_partial (c : Nat) (bs : List Act) : ∀ (s : State), s.conns.Nodup → c ∈ s.conns →
    s.queue.length ≤ 1 → Undisturbed c bs → OneAtATime s bs →
    deliveredTo c (run s bs) ++ (run s bs).queue.map carrying =
      deliveredTo c s ++ (s.queue ++ called bs).map carrying := by
  induction bs with
  | nil => intro s _ _ _ _ _; simp [run, called]
  | cons a bs ih =>
    intro s hnd hc hq hu ho
    show deliveredTo c (run (step s a) bs) ++ (run (step s a) bs).queue.map carrying = _
    cases a with
    | broadcast n d =>
      have hq0 := ho.1 n d rfl
      rw [ih (step s (.broadcast n d)) (nodup_step s _ hnd) hc (by simp [step, hq0]) hu ho.2]
      simp [step, called, deliveredTo]
    | connect d =>
      have hc' : c ∈ (step s (.connect d)).conns := by
        simp only [step]; split
        · exact hc
        · simp [hc]
      rw [ih _ (nodup_step s _ hnd) hc' hq hu.2 ho.2]
      rfl
    | disconnect d =>
      have hc' : c ∈ (step s (.disconnect d)).conns := by
        simp only [step, List.mem_filter]
        exact ⟨hc, by simpa using fun e => hu.1 e.symm⟩
      rw [ih _ (nodup_step s _ hnd) hc' hq hu.2 ho.2]
      rfl
    | process broken =>
      have hc' : c ∈ (step s (.process broken)).conns := by simp only [step]; split <;> exact hc
      rcases queue_cases s.queue with hq0 | ⟨q, m, hq0⟩
      · have hs : step s (.process broken) = s := by simp [step, hq0, pop_nil]
        have ho2 := ho.2
        rw [hs] at ho2 ⊢
        rw [ih _ hnd hc hq hu.2 ho2]
        rfl
      · have hqe : q = [] := by
          rw [hq0] at hq; simp at hq; exact hq
        subst hqe
        have hq' : (step s (.process broken)).queue = [] := by simp only [step, hq0, pop_snoc]
        rw [ih _ (nodup_step s _ hnd) hc' (by rw [hq']; simp) hu.2 ho.2]
        rw [deliveredTo_process c s [] m broken hq0 hnd, if_pos ⟨hc, hu.1⟩, hq', hq0]
        simp [called, message_eq]

example : OneAtATime { conns := [1] } [.broadcast [1] [5], .process [], .broadcast [1] [6], .process []] := by
  simp [OneAtATime, step, popBroadcast]

/-! ### Exactly when the order is kept -/

/-- What is queued is sent, the newest first, once the queue is empty. -/
theorem newest_first (c : Nat) (bs : List Act) : ∀ (s : State), s.conns.Nodup → c ∈ s.conns → Undisturbed c bs → (run s bs).queue = [] →
    ∃ l, deliveredTo c (run s bs) = deliveredTo c s ++ l.map carrying ∧ s.queue.reverse.Sublist l := by
  induction bs with
  | nil => intro s _ _ _ hq; exact ⟨[], by simp [run], by have : s.queue = [] := hq; simp [this]⟩
  | cons a bs ih =>
    intro s hnd hc hu hq
    cases a with
    | broadcast n d =>
      obtain ⟨l, h1, h2⟩ := ih (step s (.broadcast n d)) (nodup_step s _ hnd) hc hu hq
      refine ⟨l, h1, List.Sublist.trans ?_ h2⟩
      simp [step]
    | connect d =>
      have hc' : c ∈ (step s (.connect d)).conns := by
        simp only [step]; split
        · exact hc
        · simp [hc]
      exact ih _ (nodup_step s _ hnd) hc' hu.2 hq
    | disconnect d =>
      have hc' : c ∈ (step s (.disconnect d)).conns := by
        simp only [step, List.mem_filter]
        exact ⟨hc, by simpa using fun e => hu.1 e.symm⟩
      exact ih _ (nodup_step s _ hnd) hc' hu.2 hq
    | process broken =>
      have hc' : c ∈ (step s (.process broken)).conns := by simp only [step]; split <;> exact hc
      obtain ⟨l, h1, h2⟩ := ih _ (nodup_step s _ hnd) hc' hu.2 hq
      rcases queue_cases s.queue with hq0 | ⟨q, m, hq0⟩
      · have hs : step s (.process broken) = s := by simp [step, hq0, pop_nil]
        rw [hs] at h1
        refine ⟨l, ?_, by simp [hq0]⟩
        show deliveredTo c (run (step s (.process broken)) bs) = _
        rw [hs]; exact h1
      · have hdel := deliveredTo_process c s q m broken hq0 hnd
        rw [if_pos ⟨hc, hu.1⟩] at hdel
        have hq' : (step s (.process broken)).queue = q := by simp [step, hq0, pop_snoc]
        rw [hq'] at h2
        refine ⟨m :: l, ?_, ?_⟩
        · show deliveredTo c (run (step s (.process broken)) bs) = _
          rw [h1, hdel]; simp [message_eq]
        · rw [hq0]; simpa using h2

/-- What is queued was queued at the beginning or called since. -/
theorem queue_called (bs : List Act) : ∀ (s : State), (run s bs).queue.Sublist (s.queue ++ called bs) := by
  induction bs with
  | nil => intro s; simp [run, called]
  | cons a bs ih =>
    intro s
    refine (ih (step s a)).trans ?_
    cases a with
    | broadcast n d => simp [step, called]
    | connect d => simp [step, called]
    | disconnect d => simp [step, called]
    | process broken =>
      rcases queue_cases s.queue with hq0 | ⟨q, m, hq0⟩
      · simp [step, hq0, pop_nil, called]
      · simp [step, hq0, pop_snoc, called]

theorem called_append (as bs : List Act) : called (as ++ bs) = called as ++ called bs := by
  induction as with
  | nil => rfl
  | cons a as ih => cases a <;> simp [called, ih]

theorem undisturbed_append {c : Nat} : ∀ {as bs : List Act}, Undisturbed c (as ++ bs) ↔ Undisturbed c as ∧ Undisturbed c bs := by
  intro as bs
  induction as with
  | nil => simp [Undisturbed]
  | cons a as ih => cases a <;> simp [Undisturbed, ih, and_assoc]

theorem conns_run {c : Nat} (bs : List Act) : ∀ (s : State), c ∈ s.conns → Undisturbed c bs → c ∈ (run s bs).conns := by
  induction bs with
  | nil => intro s hc _; exact hc
  | cons a bs ih =>
    intro s hc hu
    cases a with
    | broadcast n d => exact ih _ hc hu
    | connect d =>
      refine ih _ ?_ hu.2
      simp only [step]; split
      · exact hc
      · simp [hc]
    | disconnect d =>
      refine ih _ ?_ hu.2
      simp only [step, List.mem_filter]
      exact ⟨hc, by simpa using fun e => hu.1 e.symm⟩
    | process broken =>
      refine ih _ ?_ hu.2
      simp only [step]; split <;> exact hc

/-- **C12 fails, always:** a broadcast that is called while another one is queued arrives before that one, whatever happened before and happens afterwards. -/
theorem later_first (s : State) (c : Nat) (pre post : List Act) (n d : Bytes) (x : Bytes × Bytes) (hnd : s.conns.Nodup) (hc : c ∈ s.conns) (hu : Undisturbed c (pre ++ .broadcast n d :: post))
    (hx : x ∈ (run s pre).queue) (hq : (run s (pre ++ .broadcast n d :: post)).queue = []) :
    ∃ l, deliveredTo c (run s (pre ++ .broadcast n d :: post)) = deliveredTo c (run s pre) ++ l.map carrying ∧ [(n, d), x].Sublist l := by
  have hsplit : run s (pre ++ .broadcast n d :: post) = run (step (run s pre) (.broadcast n d)) post := by simp [run]
  rw [hsplit] at hq ⊢
  obtain ⟨hu1, hu2⟩ := undisturbed_append.1 hu
  obtain ⟨l, h1, h2⟩ := newest_first c post (step (run s pre) (.broadcast n d)) (nodup_step _ _ (nodup_run pre s hnd)) (conns_run pre s hc hu1) hu2 hq
  refine ⟨l, h1, List.Sublist.trans ?_ h2⟩
  simp only [step, List.reverse_append, List.reverse_cons, List.reverse_nil, List.nil_append, List.cons_append]
  refine List.Sublist.cons_cons _ ?_
  exact List.singleton_sublist.2 (List.mem_reverse.2 hx)

/-- A history in which not every call finds the queue empty has a first call that does not. -/
theorem not_oneAtATime (bs : List Act) : ∀ (s : State), ¬ OneAtATime s bs → ∃ pre n d post, bs = pre ++ .broadcast n d :: post ∧ (run s pre).queue ≠ [] := by
  induction bs with
  | nil => intro s h; exact absurd trivial h
  | cons a bs ih =>
    intro s h
    by_cases h1 : ∀ n d, a = .broadcast n d → s.queue = []
    · obtain ⟨pre, n, d, post, e, hq⟩ := ih (step s a) fun h2 => h ⟨h1, h2⟩
      exact ⟨a :: pre, n, d, post, by rw [e]; rfl, hq⟩
    · simp only [Classical.not_forall] at h1
      obtain ⟨n, d, e, hq⟩ := h1
      exact ⟨[], n, d, bs, by rw [e]; rfl, hq⟩

/-- Two different elements of a list without repetitions do not occur in both orders. -/
theorem not_both_orders {α : Type} {a b : α} {l : List α} (hl : l.Nodup) (h1 : [a, b].Sublist l) (h2 : [b, a].Sublist l) : False := by
  induction l with
  | nil => cases h1
  | cons x l ih =>
    obtain ⟨hx, hl⟩ := List.nodup_cons.1 hl
    have hab : a ≠ b := by
      intro e; subst e
      have := h1.nodup (List.nodup_cons.2 ⟨hx, hl⟩)
      simp at this
    cases h1 with
    | cons _ h1 =>
      cases h2 with
      | cons _ h2 => exact ih hl h1 h2
      | cons_cons _ h2 => exact hx (h1.subset (by simp))
    | cons_cons _ h1 =>
      cases h2 with
      | cons _ h2 => exact hx (h2.subset (by simp))
      | cons_cons _ h2 => exact hab rfl

theorem carrying_injective {x y : Bytes × Bytes} (h : carrying x = carrying y) : x = y := by
  cases x; cases y
  simp only [carrying, Msg.mk.injEq] at h
  simp [h.2.1, h.2.2]

theorem map_carrying_injective : ∀ {l k : List (Bytes × Bytes)}, l.map carrying = k.map carrying → l = k := by
  intro l
  induction l with
  | nil => intro k h; cases k <;> simp at h ⊢
  | cons x l ih =>
    intro k h
    cases k with
    | nil => simp at h
    | cons y k =>
      simp only [List.map_cons, List.cons.injEq] at h
      rw [carrying_injective h.1, ih h.2]

/-- **C12, exactly.** If the queue was empty, no two broadcasts are the same, and all have been sent in the end: they arrive in the order of the calls if and only if every call found all earlier broadcasts already
    sent. -/
theorem in_order_iff (s : State) (c : Nat) (bs : List Act) (hnd : s.conns.Nodup) (hc : c ∈ s.conns) (hs : s.queue = []) (hu : Undisturbed c bs) (hd : (called bs).Nodup) (hq : (run s bs).queue = []) :
    deliveredTo c (run s bs) = deliveredTo c s ++ (called bs).map carrying ↔ OneAtATime s bs := by
  constructor
  · intro h
    refine Classical.byContradiction fun hn => ?_
    obtain ⟨pre, n, d, post, rfl, hne⟩ := not_oneAtATime bs s hn
    obtain ⟨x, hx⟩ := List.exists_mem_of_ne_nil _ hne
    obtain ⟨l, h1, h2⟩ := later_first s c pre post n d x hnd hc hu hx hq
    obtain ⟨k, h3, -⟩ := exactly_once_gen c pre s hnd hc (undisturbed_append.1 hu).1
    rw [h1, h3, List.append_assoc, message_eq, ← List.map_append] at h
    have hl := map_carrying_injective (List.append_cancel_left h)
    have h4 : [(n, d), x].Sublist (called (pre ++ .broadcast n d :: post)) := by
      rw [← hl]; exact h2.trans (List.sublist_append_right _ _)
    have h5 : [x, (n, d)].Sublist (called (pre ++ .broadcast n d :: post)) := by
      rw [called_append]
      have : x ∈ called pre := by
        have := (queue_called pre s).subset hx
        simpa [hs] using this
      exact (List.singleton_sublist.2 this).append (List.singleton_sublist.2 (by simp [called]))
    exact not_both_orders hd h5 h4
  · intro h
    have := broadcasts_in_order_partial c bs s hnd hc (by simp [hs]) hu h
    simpa [hq, hs] using this

/-- Three broadcasts, of which two are queued at the same time. -/
example : let bs : List Act := [.broadcast [1] [5], .process [], .broadcast [1] [6], .broadcast [1] [7], .process [], .process []]
    (called bs).Nodup ∧ (run { conns := [1] } bs).queue = [] ∧ deliveredTo 1 (run { conns := [1] } bs) = [carrying ([1], [5]), carrying ([1], [7]), carrying ([1], [6])] := by decide

end Scalopus.C12
