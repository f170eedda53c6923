import Verif.Props.C107_Departed

/-!
# C107: exactly what is kept, for every viewer and every history
-/

namespace Scalopus.C107

open Departed

/-- The messages that viewer `v` sends in a history, in order. -/
def sent (v : Nat) : List Act → List Msg
  | [] => []
  | .send w m :: as => if w = v then m :: sent v as else sent v as
  | _ :: as => sent v as

/-- How many messages the session of viewer `v` handles in a history. As it handles them in order, these are the first ones that were sent. -/
def handled (v : Nat) : List Act → Nat
  | [] => 0
  | .work w :: as => if w = v then handled v as + 1 else handled v as
  | _ :: as => handled v as

/-- In this history the session of viewer `v` handles a start of tracing, after that neither a start nor an end, and `post` is what happens after that start was handled. -/
def LastStart (v : Nat) (as post : List Act) : Prop :=
  ∃ pre, as = pre ++ .work v :: post ∧ (sent v as)[handled v pre]? = some .start ∧ ∀ k, handled v pre < k → k < handled v as → (sent v as)[k]? = some .other

theorem sent_append (v : Nat) (as bs : List Act) : sent v (as ++ bs) = sent v as ++ sent v bs := by
  induction as with
  | nil => rfl
  | cons a as ih => cases a <;> simp only [List.cons_append, sent, ih] <;> split <;> simp

theorem handled_append (v : Nat) (as bs : List Act) : handled v (as ++ bs) = handled v as + handled v bs := by
  induction as with
  | nil => simp [handled]
  | cons a as ih =>
    cases a <;> simp only [List.cons_append, handled, ih]
    split <;> omega

theorem arrivals_append (as bs : List Act) : arrivals (as ++ bs) = arrivals as ++ arrivals bs := by
  induction as with
  | nil => rfl
  | cons a as ih => rw [List.cons_append, arrivals_cons, ih, ← List.append_assoc, ← arrivals_cons]

theorem handled_work (v : Nat) : handled v [.work v] = 1 := by simp [handled]

theorem handled_other {v : Nat} {a : Act} (h : a ≠ .work v) : handled v [a] = 0 := by
  cases a with
  | work w =>
    have : w ≠ v := fun e => h (by rw [e])
    simp [handled, this]
  | _ => rfl

theorem handled_pre (v : Nat) (pre post : List Act) : handled v (pre ++ .work v :: post) = handled v pre + 1 + handled v post := by
  rw [handled_append]; simp [handled]; omega

/-- A longer history, if the next step is not one of the session. -/
theorem last_other {v : Nat} {as : List Act} (hb : handled v as ≤ (sent v as).length) {a : Act} (ha : a ≠ .work v) (post' : List Act) :
    LastStart v (as ++ [a]) post' ↔ ∃ post, post' = post ++ [a] ∧ LastStart v as post := by
  have hs : ∀ k, k < handled v as → (sent v (as ++ [a]))[k]? = (sent v as)[k]? := fun k hk => by
    rw [sent_append, List.getElem?_append_left (by omega)]
  have hh : handled v (as ++ [a]) = handled v as := by rw [handled_append, handled_other ha]; rfl
  constructor
  · rintro ⟨pre, h1, h2, h3⟩
    rcases List.eq_nil_or_concat post' with rfl | ⟨post, b, rfl⟩
    · have := (List.append_inj' h1 rfl).2
      simp only [List.cons.injEq, and_true] at this
      exact absurd this ha
    · rw [List.concat_eq_append] at h1 ⊢
      rw [← List.cons_append, ← List.append_assoc] at h1
      obtain ⟨rfl, h4⟩ := List.append_inj' h1 rfl
      obtain rfl := (List.cons.inj h4).1
      have := handled_pre v pre post
      refine ⟨post, rfl, pre, rfl, by rw [← hs _ (by omega)]; exact h2, fun k k1 k2 => ?_⟩
      rw [← hs k k2]
      exact h3 k k1 (by rw [hh]; exact k2)
  · rintro ⟨post, rfl, pre, rfl, h2, h3⟩
    have := handled_pre v pre post
    refine ⟨pre, by simp, by rw [hs _ (by omega)]; exact h2, fun k k1 k2 => ?_⟩
    rw [hh] at k2
    rw [hs k k2]
    exact h3 k k1 k2

/-- A longer history, if the session handles message `m` next. -/
theorem last_work {v : Nat} {as : List Act} {m : Msg} (hm : (sent v as)[handled v as]? = some m) (post' : List Act) :
    LastStart v (as ++ [.work v]) post' ↔ (m = .start ∧ post' = []) ∨ (m = .other ∧ ∃ post, post' = post ++ [.work v] ∧ LastStart v as post) := by
  have hs : sent v (as ++ [.work v]) = sent v as := by rw [sent_append]; simp [sent]
  have hh : handled v (as ++ [.work v]) = handled v as + 1 := by rw [handled_append, handled_work]
  constructor
  · rintro ⟨pre, h1, h2, h3⟩
    rw [hs] at h2 h3
    rw [hh] at h3
    rcases List.eq_nil_or_concat post' with rfl | ⟨post, b, rfl⟩
    · obtain ⟨rfl, -⟩ := List.append_inj' h1 rfl
      rw [hm] at h2
      exact .inl ⟨Option.some.inj h2, rfl⟩
    · rw [List.concat_eq_append] at h1 ⊢
      rw [← List.cons_append, ← List.append_assoc] at h1
      obtain ⟨rfl, h4⟩ := List.append_inj' h1 rfl
      obtain rfl := (List.cons.inj h4).1
      have := handled_pre v pre post
      have h5 := h3 _ (by omega) (Nat.lt_succ_self (handled v (pre ++ .work v :: post)))
      rw [hm] at h5
      exact .inr ⟨Option.some.inj h5, post, rfl, pre, rfl, h2, fun k k1 k2 => h3 k k1 (by omega)⟩
  · rintro (⟨rfl, rfl⟩ | ⟨rfl, post, rfl, pre, rfl, h2, h3⟩)
    · exact ⟨as, rfl, by rw [hs]; exact hm, fun k k1 k2 => by omega⟩
    · refine ⟨pre, by simp, by rw [hs]; exact h2, fun k k1 k2 => ?_⟩
      rw [hs]
      rw [hh] at k2
      by_cases hk : k = handled v (pre ++ .work v :: post)
      · rw [hk]; exact hm
      · exact h3 k k1 (by omega)

/-- What is known of viewer `v` after the history `as`. -/
structure Now (v : Nat) (as : List Act) (t : State) : Prop where
  inv : Inv t
  queue : ∀ q, t.conn v = some q → (sent v as).drop (handled v as) = q
  before : t.count ≤ v → sent v as = [] 
  bound : handled v as ≤ (sent v as).length
  off : (t.src v).on = false → (t.src v).data = []
  on : (t.src v).on = true → ∃ post, LastStart v as post
  last : ∀ post, LastStart v as post → (t.src v).on = true ∧ (t.src v).data = arrivals post

theorem now_step {v : Nat} {as : List Act} {t u : State} (h : Now v as t) {a : Act} (e : step t a = some u) : Now v (as ++ [a]) u := by
  by_cases ha : a = .work v
  · subst ha
    have hi := inv_step h.inv e
    simp only [step] at e
    split at e
    · rename_i m q hq
      obtain rfl := Option.some.inj e
      have h1 := h.queue _ hq
      have hm : (sent v as)[handled v as]? = some m := by
        rw [← List.head?_drop, h1]; rfl
      have hs : sent v (as ++ [.work v]) = sent v as := by rw [sent_append]; simp [sent]
      have hh : handled v (as ++ [.work v]) = handled v as + 1 := by rw [handled_append, handled_work]
      have hlt := (List.getElem?_eq_some_iff.mp hm).1
      refine ⟨hi, ?_, fun hc => by rw [hs]; exact h.before hc, by rw [hs, hh]; exact hlt, ?_, ?_, ?_⟩
      · intro q' hq'
        simp only [set_self, Option.some.injEq] at hq'
        rw [hs, hh, ← List.drop_drop, h1, ← hq']; rfl
      · simp only [set_self]
        cases m with
        | start => intro h; cases h
        | finish => intro _; rfl
        | other => exact h.off
      · simp only [set_self]
        intro ho
        cases m with
        | start => exact ⟨[], (last_work hm _).mpr (.inl ⟨rfl, rfl⟩)⟩
        | finish => cases ho
        | other =>
          obtain ⟨post, hp⟩ := h.on ho
          exact ⟨_, (last_work hm _).mpr (.inr ⟨rfl, post, rfl, hp⟩)⟩
      · intro post hp
        simp only [set_self]
        rcases (last_work hm _).mp hp with ⟨rfl, rfl⟩ | ⟨rfl, post, rfl, hp'⟩
        · exact ⟨rfl, rfl⟩
        · have := h.last post hp'
          exact ⟨this.1, by rw [arrivals_append]; simpa [arrivals, Msg.handle] using this.2⟩
    · cases e
  · have hh : handled v (as ++ [a]) = handled v as := by rw [handled_append, handled_other ha]; rfl
    have hsrc : (u.src v) = { on := (t.src v).on, data := (t.src v).data ++ if (t.src v).on then arrivals [a] else [] } := by
      by_cases hv : v < t.count
      · exact (step_other e hv ha).2
      · have hf := h.inv.fresh v (by omega)
        have : u.src v = t.src v := by
          cases a with
          | connect => obtain rfl := Option.some.inj e; rfl
          | send w m =>
            simp only [step, Option.map_eq_some_iff] at e
            obtain ⟨q, _, rfl⟩ := e; rfl
          | work w =>
            simp only [step] at e
            split at e
            · obtain rfl := Option.some.inj e
              exact set_ne _ _ (fun h => ha (by rw [h]))
            · cases e
          | leave w =>
            simp only [step, Option.map_eq_some_iff] at e
            obtain ⟨q, _, rfl⟩ := e; rfl
          | arrive d => obtain rfl := Option.some.inj e; simp [hv]
        rw [this, hf]; simp
    refine ⟨inv_step h.inv e, ?_, ?_, ?_, ?_, ?_, ?_⟩
    · intro q hq
      rw [hh, sent_append, List.drop_append_of_le_length h.bound]
      cases a with
      | connect =>
        obtain rfl := Option.some.inj e
        simp only [sent, List.append_nil]
        by_cases hv : v = t.count
        · subst hv
          simp only [set_self, Option.some.injEq] at hq
          rw [h.before (Nat.le_refl _), ← hq]; simp
        · simp only [set_ne t.conn _ hv] at hq
          exact h.queue q hq
      | send w m =>
        simp only [step, Option.map_eq_some_iff] at e
        obtain ⟨q0, hq0, rfl⟩ := e
        by_cases hv : v = w
        · subst hv
          simp only [set_self, Option.some.injEq] at hq
          rw [h.queue q0 hq0, ← hq]; simp [sent]
        · simp only [set_ne t.conn _ hv] at hq
          have hv' : w ≠ v := fun e => hv e.symm
          simp only [sent, if_neg hv', List.append_nil]
          exact h.queue q hq
      | work w =>
        have hv : v ≠ w := fun h => ha (by rw [h])
        simp only [step] at e
        split at e
        · obtain rfl := Option.some.inj e
          simp only [set_ne t.conn _ hv] at hq
          simp only [sent, List.append_nil]
          exact h.queue q hq
        · cases e
      | leave w =>
        simp only [step, Option.map_eq_some_iff] at e
        obtain ⟨q0, hq0, rfl⟩ := e
        simp only [sent, List.append_nil]
        by_cases hv : v = w
        · subst hv
          simp only [set_self] at hq
          cases hq
        · simp only [set_ne t.conn _ hv] at hq
          exact h.queue q hq
      | arrive d =>
        obtain rfl := Option.some.inj e
        simp only [sent, List.append_nil]
        exact h.queue q hq
    · intro hc
      rw [sent_append]
      cases a with
      | connect =>
        obtain rfl := Option.some.inj e
        simp only at hc
        rw [h.before (by omega)]; rfl
      | send w m =>
        simp only [step, Option.map_eq_some_iff] at e
        obtain ⟨q0, hq0, rfl⟩ := e
        have := h.inv.conn w (by simp [hq0])
        simp only at hc
        have hv : w ≠ v := by omega
        rw [h.before hc]; simp [sent, hv]
      | work w =>
        simp only [step] at e
        split at e
        · obtain rfl := Option.some.inj e
          rw [h.before hc]; rfl
        · cases e
      | leave w =>
        simp only [step, Option.map_eq_some_iff] at e
        obtain ⟨q0, hq0, rfl⟩ := e
        rw [h.before hc]; rfl
      | arrive d => obtain rfl := Option.some.inj e; rw [h.before hc]; rfl
    · rw [hh, sent_append, List.length_append]
      exact Nat.le_add_right_of_le h.bound
    · rw [hsrc]
      intro ho
      simp only at ho
      simp [ho, h.off ho]
    · rw [hsrc]
      intro ho
      obtain ⟨post, hp⟩ := h.on ho
      exact ⟨_, (last_other h.bound ha _).mpr ⟨post, rfl, hp⟩⟩
    · intro post' hp
      obtain ⟨post, rfl, hp'⟩ := (last_other h.bound ha _).mp hp
      have := h.last post hp'
      rw [hsrc]
      refine ⟨this.1, ?_⟩
      simp only [this.1, this.2, if_true, arrivals_append]

theorem now_run {v : Nat} (as : List Act) : ∀ (h : List Act) (t s : State), Now v h t → run t as = some s → Now v (h ++ as) s := by
  induction as with
  | nil => intro h t s hn e; obtain rfl := Option.some.inj e; simpa using hn
  | cons a as ih =>
    intro h t s hn e
    rw [run_cons] at e
    obtain ⟨u, hu, e⟩ := Option.bind_eq_some_iff.1 e
    have := ih (h ++ [a]) u s (now_step hn hu) e
    rwa [List.append_assoc] at this

theorem now {v : Nat} {as : List Act} {s : State} (e : run {} as = some s) : Now v as s := by
  have h0 : Now v [] {} := by
    refine ⟨inv_init, fun q hq => (by cases hq), fun _ => rfl, Nat.le_refl _, fun _ => rfl, fun h => (by cases h), ?_⟩
    rintro post ⟨pre, h, -⟩
    simp at h
  exact now_run as [] {} s h0 e

/-- **C107, exactly what is kept.** For every history and every viewer, whether it is connected or has left: if the session has handled a start of tracing and after it neither a start nor an end, what is
    kept are all batches that arrived since; otherwise nothing. -/
theorem kept_exactly (as : List Act) (s : State) (e : run {} as = some s) (v : Nat) :
    (∀ post, LastStart v as post → (s.src v).data = arrivals post) ∧ ((¬ ∃ post, LastStart v as post) → (s.src v).data = []) := by
  have h := now (v := v) e
  refine ⟨fun post hp => (h.last post hp).2, fun hn => h.off ?_⟩
  cases ho : (s.src v).on with
  | false => rfl
  | true => exact absurd (h.on ho) hn

/-- **C107, exactly which viewers leave data behind.** The property fails for a viewer that has left exactly if a batch arrived, before or after it left, since a start of tracing was handled that no end
    followed that was handled too. -/
theorem left_behind_iff (as : List Act) (s : State) (e : run {} as = some s) (v : Nat) :
    (s.src v).data ≠ [] ↔ ∃ post, LastStart v as post ∧ arrivals post ≠ [] := by
  have h := kept_exactly as s e v
  constructor
  · intro hd
    obtain ⟨post, hp⟩ := Classical.byContradiction fun hn => hd (h.2 hn)
    exact ⟨post, hp, by rw [← h.1 post hp]; exact hd⟩
  · rintro ⟨post, hp, hd⟩
    rw [h.1 post hp]; exact hd

/-- A viewer that starts, sends another message, sends an end that is not handled, and leaves: batches 7 and 8 are kept for it. -/
example : ∃ s, run {} [.connect, .send 0 .start, .work 0, .send 0 .other, .arrive 7, .work 0, .send 0 .finish, .leave 0, .arrive 8] = some s ∧ s.conn 0 = none ∧
    LastStart 0 [.connect, .send 0 .start, .work 0, .send 0 .other, .arrive 7, .work 0, .send 0 .finish, .leave 0, .arrive 8]
      [.send 0 .other, .arrive 7, .work 0, .send 0 .finish, .leave 0, .arrive 8] ∧ (s.src 0).data = [7, 8] := by
  refine ⟨_, rfl, rfl, ⟨[.connect, .send 0 .start], rfl, rfl, fun k h1 h2 => ?_⟩, rfl⟩
  simp [handled] at h1 h2
  obtain rfl : k = 1 := by omega
  rfl

end Scalopus.C107
