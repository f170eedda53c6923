import Verif.Model.UnixSignal
import Mathlib.Data.List.Induction

/-!
# C112: Signal handlers do not disturb transports
-/

namespace Scalopus.C112

open UnixSignal

/-- The messages that client `c` sends in `as`, in order. -/
def sentBy (c : Nat) : List Act → List Nat
  | [] => []
  | .send d m :: as => if d = c then m :: sentBy c as else sentBy c as
  | _ :: as => sentBy c as

/-- Client `c` closes its connection in `as`. -/
def Left (c : Nat) (as : List Act) : Prop := .leave c ∈ as

/-- No signal handler runs in the worker's thread. -/
def Calm (as : List Act) : Prop := .signal ∉ as

/-- What a server promises after the history `as`: it closes only connections that the client has closed, and those once; every message is handled once and in order, or still to be read; and its
    worker can always go on. -/
def Undisturbed (as : List Act) (s : State) : Prop :=
  (∀ c, s.closes c ≤ 1 ∧ (s.closes c ≠ 0 → Left c as)) ∧ (∀ c, s.answered c ++ s.inbox c = sentBy c as) ∧ (s.worker = .ended ∨ ∃ s', step s .work = some s')

/-- **C112** in full: this holds whatever signals arrive. -/
def AllUndisturbed : Prop := ∀ as s, run {} as = some s → Undisturbed as s

theorem run_append (as bs : List Act) (s : State) : run s (as ++ bs) = (run s as).bind fun t => run t bs := by
  induction as generalizing s with
  | nil => rfl
  | cons a as ih =>
    simp only [List.cons_append, run]
    cases step s a with
    | none => rfl
    | some t => exact ih t

theorem run_snoc {as : List Act} {a : Act} {s s' : State} (h : run s (as ++ [a]) = some s') : ∃ m, run s as = some m ∧ step m a = some s' := by
  rw [run_append] at h
  obtain ⟨m, h1, h2⟩ := Option.bind_eq_some_iff.1 h
  refine ⟨m, h1, ?_⟩
  simp only [run] at h2
  obtain ⟨t, h3, h4⟩ := Option.bind_eq_some_iff.1 h2
  rw [h3, h4]

theorem sentBy_append (c : Nat) (as bs : List Act) : sentBy c (as ++ bs) = sentBy c as ++ sentBy c bs := by
  induction as with
  | nil => rfl
  | cons a as ih =>
    cases a <;> simp only [List.cons_append, sentBy, ih]
    split <;> simp

/-- The connections that the worker is still to look at. -/
def todo : Worker → List Watch
  | .accept w => w
  | .round w => w
  | _ => []

structure Inv (as : List Act) (s : State) : Prop where
  sent : ∀ c, s.answered c ++ s.inbox c = sentBy c as
  closed : ∀ c, s.closes c ≠ 0 → s.left c = true ∧ s.inbox c = [] ∧ c ∉ s.conns ∧ c ∉ s.waiting ∧ c ∈ s.known
  once : ∀ c, s.closes c ≤ 1
  left : ∀ c, s.left c = true → Left c as
  todo_ok : ∀ x ∈ todo s.worker, x.exceptional = false ∧ x.conn ∈ s.conns ∧ (x.readable = true → ready s x.conn = true)
  todo_nodup : ((todo s.worker).map (·.conn)).Nodup
  known : ∀ c, c ∈ s.conns ∨ c ∈ s.waiting → c ∈ s.known
  nodup : (s.conns ++ s.waiting).Nodup
  acc : ∀ w, s.worker = .accept w → s.waiting ≠ []
  all : ∀ c ∈ s.known, c ∈ s.conns ∨ c ∈ s.waiting ∨ s.closes c ≠ 0

theorem inv_init : Inv [] {} := by
  constructor <;> simp [sentBy, todo]

theorem sentBy_other (c : Nat) (as : List Act) (a : Act) (h : ∀ m, a ≠ .send c m) : sentBy c (as ++ [a]) = sentBy c as := by
  rw [sentBy_append]
  cases a with
  | send d m =>
    have : d ≠ c := fun e => h m (by rw [e])
    simp [sentBy, this]
  | _ => simp [sentBy]

theorem left_mono {c : Nat} {as : List Act} {a : Act} (h : Left c as) : Left c (as ++ [a]) := List.mem_append_left _ h

theorem inv_step {as : List Act} {s s' : State} {a : Act} (hi : Inv as s) (ha : a ≠ .signal) (h : step s a = some s') : Inv (as ++ [a]) s' := by
  cases a with
  | signal => exact absurd rfl ha
  | connect c =>
    simp only [step] at h
    split at h
    · cases h
    · rename_i hn
      obtain rfl := Option.some.inj h
      have hnc : c ∉ s.conns := fun e => hn (hi.known c (.inl e))
      have hnw : c ∉ s.waiting := fun e => hn (hi.known c (.inr e))
      refine ⟨fun d => by rw [sentBy_other d as _ (by simp)]; exact hi.sent d, ?_, hi.once, fun d hd => left_mono (hi.left d hd), hi.todo_ok, hi.todo_nodup, ?_, ?_, ?_, ?_⟩
      · intro d hd
        obtain ⟨h1, h2, h3, h4, h5⟩ := hi.closed d hd
        refine ⟨h1, h2, h3, ?_, List.mem_append_left _ h5⟩
        simp only [List.mem_append, List.mem_singleton, not_or]
        exact ⟨h4, fun e => hn (e ▸ h5)⟩
      · intro d hd
        simp only [List.mem_append, List.mem_singleton] at hd ⊢
        rcases hd with hd | hd | hd
        · exact .inl (hi.known d (.inl hd))
        · exact .inl (hi.known d (.inr hd))
        · exact .inr hd
      · show (s.conns ++ (s.waiting ++ [c])).Nodup
        rw [← List.append_assoc, List.nodup_append]
        refine ⟨hi.nodup, by simp, ?_⟩
        intro x hx y hy
        simp only [List.mem_singleton] at hy
        subst hy
        rintro rfl
        rcases List.mem_append.1 hx with e | e
        · exact hnc e
        · exact hnw e
      · intro w hw; simp
      · intro d hd
        simp only [List.mem_append, List.mem_singleton] at hd ⊢
        rcases hd with hd | hd
        · rcases hi.all d hd with e | e | e
          · exact .inl e
          · exact .inr (.inl (.inl e))
          · exact .inr (.inr e)
        · exact .inr (.inl (.inr hd))
  | send c m =>
    simp only [step] at h
    split at h
    · rename_i hk
      split at h
      · rename_i hz
        obtain rfl := Option.some.inj h
        refine ⟨?_, ?_, hi.once, fun d hd => left_mono (hi.left d hd), ?_, hi.todo_nodup, hi.known, hi.nodup, hi.acc, hi.all⟩
        · intro d
          rw [sentBy_append]
          simp only [upd]
          by_cases e : d = c
          · subst e
            simp [sentBy, ← hi.sent d]
          · have e' : ¬ c = d := fun x => e x.symm
            simp [sentBy, e, e', hi.sent d]
        · intro d hd
          have hdc : d ≠ c := fun e => hd (e ▸ hz)
          have := hi.closed d hd
          simpa [upd, hdc] using this
        · intro x hx
          obtain ⟨h1, h2, h3⟩ := hi.todo_ok x hx
          refine ⟨h1, h2, fun hr => ?_⟩
          have := h3 hr
          simp only [ready, upd] at this ⊢
          split
          · simp
          · exact this
      · rename_i hz
        exfalso
        have := (hi.closed c hz).1
        rw [hk.2] at this
        cases this
    · cases h
  | leave c =>
    simp only [step] at h
    split at h
    · rename_i hk
      obtain rfl := Option.some.inj h
      refine ⟨fun d => by rw [sentBy_other d as _ (by simp)]; exact hi.sent d, ?_, hi.once, ?_, ?_, hi.todo_nodup, hi.known, hi.nodup, hi.acc, hi.all⟩
      · intro d hd
        obtain ⟨h1, h2⟩ := hi.closed d hd
        refine ⟨?_, h2⟩
        simp only [upd]
        split
        · rfl
        · exact h1
      · intro d hd
        simp only [upd] at hd
        split at hd
        · rename_i e
          subst e
          simp [Left]
        · exact left_mono (hi.left d hd)
      · intro x hx
        obtain ⟨h1, h2, h3⟩ := hi.todo_ok x hx
        refine ⟨h1, h2, fun hr => ?_⟩
        have := h3 hr
        simp only [ready, upd] at this ⊢
        split
        · simp
        · exact this
    · cases h
  | broadcast b =>
    obtain rfl := Option.some.inj h
    exact ⟨fun d => by rw [sentBy_other d as _ (by simp)]; exact hi.sent d, hi.closed, hi.once, fun d hd => left_mono (hi.left d hd), hi.todo_ok, hi.todo_nodup, hi.known, hi.nodup, hi.acc, hi.all⟩
  | destroy =>
    obtain rfl := Option.some.inj h
    exact ⟨fun d => by rw [sentBy_other d as _ (by simp)]; exact hi.sent d, hi.closed, hi.once, fun d hd => left_mono (hi.left d hd), hi.todo_ok, hi.todo_nodup, hi.known, hi.nodup, hi.acc, hi.all⟩
  | work =>
    have hsent : ∀ d, sentBy d (as ++ [.work]) = sentBy d as := fun d => sentBy_other d as _ (by simp)
    have hleft : ∀ d, s.left d = true → Left d (as ++ [.work]) := fun d hd => left_mono (hi.left d hd)
    simp only [step, work] at h
    split at h
    · -- select
      rename_i hw
      split at h
      · obtain rfl := Option.some.inj h
        exact ⟨fun d => by rw [hsent]; exact hi.sent d, hi.closed, hi.once, hleft, by simp [todo], by simp [todo], hi.known, hi.nodup, by simp, hi.all⟩
      · obtain rfl := Option.some.inj h
        have ht : ∀ b : Bool, todo (if b then .round (s.conns.map fun c => (⟨c, ready s c, false⟩ : Watch)) else .accept (s.conns.map fun c => (⟨c, ready s c, false⟩ : Watch))) =
            s.conns.map fun c => (⟨c, ready s c, false⟩ : Watch) := by intro b; cases b <;> rfl
        refine ⟨fun d => by rw [hsent]; exact hi.sent d, hi.closed, hi.once, hleft, ?_, ?_, hi.known, hi.nodup, ?_, hi.all⟩
        · intro x hx
          change x ∈ todo _ at hx
          rw [ht] at hx
          obtain ⟨c, hc, rfl⟩ := List.mem_map.1 hx
          exact ⟨rfl, hc, fun e => e⟩
        · change ((todo _).map _).Nodup
          rw [ht, List.map_map]
          have : ((fun x : Watch => x.conn) ∘ fun c => (⟨c, ready s c, false⟩ : Watch)) = id := rfl
          rw [this, List.map_id]
          exact (List.nodup_append.1 hi.nodup).1
        · intro w hw'
          simp only at hw'
          split at hw'
          · cases hw'
          · rename_i hne
            simpa using hne
    · -- accept
      rename_i w hw
      split at h
      · cases h
      · rename_i c l hwait
        obtain rfl := Option.some.inj h
        have ht : todo s.worker = w := by rw [hw]; rfl
        have hnd := hi.nodup
        rw [hwait] at hnd
        refine ⟨fun d => by rw [hsent]; exact hi.sent d, ?_, hi.once, hleft, ?_, ?_, ?_, ?_, by simp, ?_⟩
        · intro d hd
          obtain ⟨h1, h2, h3, h4, h5⟩ := hi.closed d hd
          rw [hwait] at h4
          simp only [List.mem_cons, not_or] at h4
          refine ⟨h1, h2, ?_, h4.2, h5⟩
          simp only [List.mem_append, List.mem_singleton, not_or]
          exact ⟨h3, h4.1⟩
        · intro x hx
          obtain ⟨h1, h2, h3⟩ := hi.todo_ok x (by rw [ht]; exact hx)
          exact ⟨h1, List.mem_append_left _ h2, h3⟩
        · have := hi.todo_nodup
          rw [ht] at this
          exact this
        · intro d hd
          have := hi.known d
          rw [hwait] at this
          simp only [List.mem_append, List.mem_cons, List.not_mem_nil, or_false] at hd this
          rcases hd with (hd | hd) | hd
          · exact this (.inl hd)
          · exact this (.inr (.inl hd))
          · exact this (.inr (.inr hd))
        · show ((s.conns ++ [c]) ++ l).Nodup
          simpa using hnd
        · intro d hd
          have := hi.all d hd
          rw [hwait] at this
          simp only [List.mem_append, List.mem_cons, List.not_mem_nil, or_false] at this ⊢
          rcases this with e | (e | e) | e
          · exact .inl (.inl e)
          · exact .inl (.inr e)
          · exact .inr (.inl e)
          · exact .inr (.inr e)
    · -- end of the iteration
      rename_i hw
      obtain rfl := Option.some.inj h
      exact ⟨fun d => by rw [hsent]; exact hi.sent d, hi.closed, hi.once, hleft, by simp [todo, finish], by simp [todo, finish], hi.known, hi.nodup, by simp [finish], hi.all⟩
    · -- one connection
      rename_i x w hw
      have ht : todo s.worker = x :: w := by rw [hw]; rfl
      obtain ⟨hx1, hx2, hx3⟩ := hi.todo_ok x (by rw [ht]; exact List.mem_cons_self)
      have hnd := hi.todo_nodup
      rw [ht, List.map_cons, List.nodup_cons] at hnd
      have htail : ∀ y ∈ w, y.exceptional = false ∧ y.conn ∈ s.conns ∧ (y.readable = true → ready s y.conn = true) :=
        fun y hy => hi.todo_ok y (by rw [ht]; exact List.mem_cons_of_mem _ hy)
      have hne : ∀ y ∈ w, y.conn ≠ x.conn := fun y hy e => hnd.1 (e ▸ List.mem_map_of_mem hy)
      have hcl0 : s.closes x.conn = 0 := by
        by_contra e
        exact (hi.closed _ e).2.2.1 hx2
      simp only [look, hx1, Bool.false_eq_true, if_false] at h
      split at h
      · split at h
        · rename_i hr m l hin
          simp only [Option.map_some] at h
          obtain rfl := Option.some.inj h
          refine ⟨?_, ?_, hi.once, hleft, ?_, hnd.2, hi.known, hi.nodup, by simp, hi.all⟩
          · intro d
            rw [hsent, ← hi.sent d]
            by_cases e : d = x.conn
            · subst e
              simp [upd, hin]
            · simp [upd, e]
          · intro d hd
            have hdx : d ≠ x.conn := fun e => hd (e ▸ hcl0)
            have := hi.closed d hd
            simpa [upd, hdx] using this
          · intro y hy
            obtain ⟨h1, h2, h3⟩ := htail y hy
            refine ⟨h1, h2, fun hr => ?_⟩
            have := h3 hr
            have hy' := hne y hy
            simpa [ready, upd, hy'] using this
        · rename_i hr hin
          split at h
          · rename_i hl
            simp only [Option.map_some] at h
            obtain rfl := Option.some.inj h
            refine ⟨fun d => by rw [hsent]; exact hi.sent d, ?_, ?_, hleft, ?_, hnd.2, ?_, ?_, by simp, ?_⟩
            · intro d hd
              simp only [close, upd] at hd ⊢
              by_cases e : d = x.conn
              · subst e
                refine ⟨hl, hin, by simp, ?_, hi.known _ (.inl hx2)⟩
                intro hwt
                exact (List.nodup_append.1 hi.nodup).2.2 _ hx2 _ hwt rfl
              · simp only [e, if_false] at hd
                obtain ⟨h1, h2, h3, h4, h5⟩ := hi.closed d hd
                exact ⟨h1, h2, fun q => h3 (List.mem_filter.1 q).1, h4, h5⟩
            · intro d
              simp only [close, upd]
              split
              · rw [hcl0]; exact Nat.le_refl 1
              · exact hi.once d
            · intro y hy
              obtain ⟨h1, h2, h3⟩ := htail y hy
              refine ⟨h1, ?_, h3⟩
              simp only [close]
              exact List.mem_filter.2 ⟨h2, by simpa using hne y hy⟩
            · intro d hd
              simp only [close] at hd ⊢
              rcases hd with hd | hd
              · exact hi.known d (.inl (List.mem_filter.1 hd).1)
              · exact hi.known d (.inr hd)
            · simp only [close]
              have := List.nodup_append.1 hi.nodup
              refine List.nodup_append.2 ⟨this.1.filter _, this.2.1, ?_⟩
              intro a ha b hb
              exact this.2.2 a (List.mem_filter.1 ha).1 b hb
            · intro d hd
              simp only [close, upd] at hd ⊢
              by_cases e : d = x.conn
              · exact .inr (.inr (by simp [e]))
              · rcases hi.all d hd with q | q | q
                · exact .inl (List.mem_filter.2 ⟨q, by simpa using e⟩)
                · exact .inr (.inl q)
                · exact .inr (.inr (by simpa [e] using q))
          · cases h
      · simp only [Option.map_some] at h
        obtain rfl := Option.some.inj h
        exact ⟨fun d => by rw [hsent]; exact hi.sent d, hi.closed, hi.once, hleft, htail, hnd.2, hi.known, hi.nodup, by simp, hi.all⟩
    · cases h

theorem inv_run : ∀ (as : List Act) (s : State), Calm as → run {} as = some s → Inv as s := by
  intro as
  induction as using List.reverseRecOn with
  | nil => intro s _ h; obtain rfl := Option.some.inj h; exact inv_init
  | append_singleton as a ih =>
    intro s hc h
    obtain ⟨m, h1, h2⟩ := run_snoc h
    exact inv_step (ih m (fun e => hc (List.mem_append_left _ e)) h1) (fun e => hc (by simp [e])) h2

theorem work_of_inv {as : List Act} {s : State} (hi : Inv as s) (hw : s.worker ≠ .ended) : ∃ s', step s .work = some s' := by
  simp only [step, work]
  cases hs : s.worker with
  | ended => exact absurd hs hw
  | select =>
    by_cases hst : s.stop = true <;> simp [hst]
  | accept w =>
    have := hi.acc w hs
    cases hq : s.waiting with
    | nil => exact absurd hq this
    | cons c l => exact ⟨_, rfl⟩
  | round w =>
    cases w with
    | nil => exact ⟨_, rfl⟩
    | cons x w =>
      obtain ⟨_, _, h3⟩ := hi.todo_ok x (by rw [hs]; exact List.mem_cons_self)
      have : ∃ t, look s x = some t := by
        simp only [look]
        cases hr : x.readable with
        | false => exact ⟨_, rfl⟩
        | true =>
          have hrd := h3 hr
          cases hin : s.inbox x.conn with
          | cons m l => exact ⟨_, rfl⟩
          | nil =>
            simp only [ready, hin, List.isEmpty_nil, Bool.not_true, Bool.false_or] at hrd
            simp [hrd]
      obtain ⟨t, ht⟩ := this
      simp only [ht]
      exact ⟨_, rfl⟩

/-- **C112, partial.** Without signals the server is undisturbed. Missing: signals. -/
theorem undisturbed_partial (as : List Act) (s : State) (hc : Calm as) (h : run {} as = some s) : Undisturbed as s := by
  have hi := inv_run as s hc h
  refine ⟨fun c => ⟨hi.once c, fun e => hi.left c (hi.closed c e).1⟩, hi.sent, ?_⟩
  by_cases hw : s.worker = .ended
  · exact .inl hw
  · exact .inr (work_of_inv hi hw)

/-- Without signals, a client that connected and has not closed its connection is connected, or about to be accepted. -/
theorem stays_connected (as : List Act) (s : State) (hc : Calm as) (h : run {} as = some s) (c : Nat) (hk : .connect c ∈ as) (hl : ¬ Left c as) : c ∈ s.conns ∨ c ∈ s.waiting := by
  have hi := inv_run as s hc h
  have hkn : ∀ (as : List Act) (s : State), run {} as = some s → .connect c ∈ as → c ∈ s.known := by
    intro as
    induction as using List.reverseRecOn with
    | nil => intro s _ h; cases h
    | append_singleton as a ih =>
      intro s h hm
      obtain ⟨m, h1, h2⟩ := run_snoc h
      have hmono : c ∈ m.known → c ∈ s.known := by
        intro hkm
        cases a with
        | connect d =>
          simp only [step] at h2
          split at h2
          · cases h2
          · obtain rfl := Option.some.inj h2; exact List.mem_append_left _ hkm
        | send d x =>
          simp only [step] at h2
          split at h2
          · split at h2 <;> (obtain rfl := Option.some.inj h2; exact hkm)
          · cases h2
        | leave d =>
          simp only [step] at h2
          split at h2
          · obtain rfl := Option.some.inj h2; exact hkm
          · cases h2
        | broadcast b => obtain rfl := Option.some.inj h2; exact hkm
        | destroy => obtain rfl := Option.some.inj h2; exact hkm
        | signal =>
          obtain rfl := Option.some.inj h2
          simp only [signal]
          split
          · split <;> exact hkm
          · split <;> exact hkm
          · split
            · exact hkm
            · split <;> exact hkm
          · exact hkm
          · exact hkm
        | work =>
          simp only [step, work] at h2
          split at h2
          · split at h2 <;> (obtain rfl := Option.some.inj h2; exact hkm)
          · split at h2
            · cases h2
            · obtain rfl := Option.some.inj h2; exact hkm
          · obtain rfl := Option.some.inj h2; exact hkm
          · obtain ⟨t, ht, rfl⟩ := Option.map_eq_some_iff.1 h2
            obtain ⟨u, hu, rfl⟩ := Option.map_eq_some_iff.1 ht
            have hu' : c ∈ u.known := by
              split at hu
              · split at hu
                · obtain rfl := Option.some.inj hu; exact hkm
                · split at hu
                  · obtain rfl := Option.some.inj hu; exact hkm
                  · cases hu
              · obtain rfl := Option.some.inj hu; exact hkm
            show c ∈ (if _ then close u _ else u).known
            split <;> exact hu'
          · cases h2
      rcases List.mem_append.1 hm with e | e
      · exact hmono (ih m h1 e)
      · simp only [List.mem_singleton] at e
        subst e
        simp only [step] at h2
        split at h2
        · cases h2
        · obtain rfl := Option.some.inj h2; simp
  rcases hi.all c (hkn as s h hk) with e | e | e
  · exact .inl e
  · exact .inr e
  · exact absurd (hi.left c (hi.closed c e).1) hl

theorem run_work (s s1 s2 : State) (n : Nat) (h1 : work s = some s1) (h2 : run s1 (List.replicate n .work) = some s2) : run s (List.replicate (n + 1) .work) = some s2 := by
  rw [List.replicate_succ]
  simp only [run, step, h1, Option.bind_some, h2]

theorem round_loop (w : List Watch) : ∀ t : State, t.worker = .round w → (w.map (·.conn)).Nodup → (∀ x ∈ w, x.exceptional = false ∧ x.readable = ready t x.conn) →
    ∃ u, run t (List.replicate w.length .work) = some u ∧ u.worker = .round [] ∧ u.queue = t.queue ∧ u.got = t.got ∧ u.waiting = t.waiting ∧ u.stop = t.stop ∧
      (∀ c, u.answered c = if c ∈ w.map (·.conn) then t.answered c ++ (t.inbox c).take 1 else t.answered c) ∧
      (∀ c, c ∈ u.conns ↔ c ∈ t.conns ∧ ¬ (c ∈ w.map (·.conn) ∧ t.left c = true ∧ t.inbox c = [])) := by
  induction w with
  | nil => intro t hw _ _; exact ⟨t, rfl, hw, rfl, rfl, rfl, rfl, by simp, by simp⟩
  | cons x w ih =>
    intro t hw hnd hx
    obtain ⟨hx1, hx2⟩ := hx x List.mem_cons_self
    rw [List.map_cons, List.nodup_cons] at hnd
    have hne : ∀ y ∈ w, y.conn ≠ x.conn := fun y hy e => hnd.1 (e ▸ List.mem_map_of_mem hy)
    -- the state after looking at `x`
    have key : ∃ t1, look t x = some t1 ∧ t1.queue = t.queue ∧ t1.got = t.got ∧ t1.waiting = t.waiting ∧ t1.stop = t.stop ∧ (∀ c, t1.left c = t.left c) ∧ (∀ c, c ≠ x.conn → t1.inbox c = t.inbox c ∧ t1.answered c = t.answered c) ∧
        t1.answered x.conn = t.answered x.conn ++ (t.inbox x.conn).take 1 ∧ (∀ c, c ∈ t1.conns ↔ c ∈ t.conns ∧ ¬ (c = x.conn ∧ t.left c = true ∧ t.inbox c = [])) := by
      simp only [look, hx1, Bool.false_eq_true, if_false, hx2]
      cases hin : t.inbox x.conn with
      | cons m l =>
        have : ready t x.conn = true := by simp [ready, hin]
        simp only [this, if_true]
        refine ⟨_, rfl, rfl, rfl, rfl, rfl, fun _ => rfl, ?_, by simp [upd], ?_⟩
        · intro c hc; simp [upd, hc]
        · intro c
          constructor
          · intro hc
            refine ⟨hc, ?_⟩
            rintro ⟨rfl, _, q⟩
            rw [hin] at q; cases q
          · exact fun q => q.1
      | nil =>
        cases hl : t.left x.conn with
        | true =>
          have : ready t x.conn = true := by simp [ready, hl]
          simp only [this, if_true]
          refine ⟨_, rfl, rfl, rfl, rfl, rfl, fun _ => rfl, ?_, by simp [close], ?_⟩
          · intro c hc; exact ⟨rfl, rfl⟩
          · intro c
            simp only [close, List.mem_filter, decide_eq_true_eq]
            constructor
            · rintro ⟨q, r⟩; exact ⟨q, fun e => r e.1⟩
            · rintro ⟨q, r⟩
              refine ⟨q, fun e => r ⟨e, ?_, ?_⟩⟩
              · rw [e, hl]
              · rw [e, hin]
        | false =>
          have : ready t x.conn = false := by simp [ready, hl, hin]
          simp only [this, Bool.false_eq_true, if_false]
          refine ⟨_, rfl, rfl, rfl, rfl, rfl, fun _ => rfl, fun _ _ => ⟨rfl, rfl⟩, by simp, ?_⟩
          intro c
          constructor
          · intro hc
            refine ⟨hc, ?_⟩
            rintro ⟨rfl, q, _⟩
            rw [hl] at q; cases q
          · exact fun q => q.1
    obtain ⟨t1, h1, hq, hg, hwt, hst, hlf, hoth, hans, hcon⟩ := key
    have hwork : work t = some { t1 with worker := .round w } := by simp only [work, hw, h1, Option.map_some]
    obtain ⟨u, g1, g2, g3, g4, g5, g6, g7, g8⟩ := ih { t1 with worker := .round w } rfl hnd.2 (by
      intro y hy
      obtain ⟨a1, a2⟩ := hx y (List.mem_cons_of_mem _ hy)
      refine ⟨a1, ?_⟩
      rw [a2]
      simp only [ready, (hoth _ (hne y hy)).1, hlf])
    refine ⟨u, run_work _ _ _ _ hwork g1, g2, g3.trans hq, g4.trans hg, g5.trans hwt, g6.trans hst, ?_, ?_⟩
    · intro c
      rw [g7]
      simp only [List.map_cons, List.mem_cons]
      by_cases e : c = x.conn
      · subst e
        simp [hnd.1, hans]
      · simp [e, (hoth c e).1, (hoth c e).2]
    · intro c
      rw [g8]
      simp only [List.map_cons, List.mem_cons, hcon]
      by_cases e : c = x.conn
      · subst e
        simp only [hnd.1, true_and, true_or, false_and, not_false_eq_true, and_true]
      · simp [e, (hoth c e).1, hlf]

/-- Without signals, an iteration of the worker reads the next message of every connection, accepts the next client, closes exactly the connections that were closed by the client and have no unread
    messages, and gives the broadcasts to all that are left. -/
theorem round_serves (as : List Act) (s : State) (hc : Calm as) (h : run {} as = some s) (hw : s.worker = .select) (hst : s.stop = false) :
    ∃ n s', n ≤ s.conns.length + 3 ∧ run s (List.replicate n .work) = some s' ∧ s'.worker = .select ∧ s'.waiting = s.waiting.drop 1 ∧ s'.queue = [] ∧
      (∀ c, c ∈ s'.conns ↔ c ∈ s.waiting.take 1 ∨ c ∈ s.conns ∧ ¬ (s.left c = true ∧ s.inbox c = [])) ∧
      (∀ c ∈ s.conns, s'.answered c = s.answered c ++ (s.inbox c).take 1) ∧ (∀ c ∈ s'.conns, s'.got c = s.got c ++ s.queue) := by
  have hi := inv_run as s hc h
  have hmap : (s.conns.map fun c => (⟨c, ready s c, false⟩ : Watch)).map (·.conn) = s.conns := by
    rw [List.map_map]
    exact List.map_id _
  have hnd : s.conns.Nodup := (List.nodup_append.1 hi.nodup).1
  cases hq : s.waiting with
  | nil =>
    have hwork : work s = some { s with worker := .round (s.conns.map fun c => (⟨c, ready s c, false⟩ : Watch)) } := by simp [work, hw, hst, hq]
    obtain ⟨u, g1, g2, g3, g4, g5, g6, g7, g8⟩ := round_loop (s.conns.map fun c => (⟨c, ready s c, false⟩ : Watch)) { s with worker := .round (s.conns.map fun c => (⟨c, ready s c, false⟩ : Watch)) } rfl
      (by rw [hmap]; exact hnd) (by
        intro x hx
        obtain ⟨c, _, rfl⟩ := List.mem_map.1 hx
        exact ⟨rfl, rfl⟩)
    rw [hmap] at g7 g8
    refine ⟨s.conns.length + 2, finish u, by omega, ?_, rfl, ?_, rfl, ?_, ?_, ?_⟩
    · rw [List.replicate_succ']
      rw [run_append, run_work s _ u s.conns.length hwork (by simpa using g1)]
      simp [run, step, work, g2]
    · show u.waiting = _
      rw [g5]; simp [hq]
    · intro c
      show c ∈ u.conns ↔ _
      rw [g8]
      simp only [List.take_nil, List.not_mem_nil, false_or]
      constructor
      · rintro ⟨a, b⟩; exact ⟨a, fun e => b ⟨a, e⟩⟩
      · rintro ⟨a, b⟩; exact ⟨a, fun e => b e.2⟩
    · intro c hcc
      show u.answered c = _
      rw [g7]; simp [hcc]
    · intro c hcc
      show (if c ∈ u.conns then u.got c ++ u.queue else u.got c) = _
      rw [if_pos (show c ∈ u.conns from hcc), g3, g4]
  | cons d l =>
    have hwork : work s = some { s with worker := .accept (s.conns.map fun c => (⟨c, ready s c, false⟩ : Watch)) } := by simp [work, hw, hst, hq]
    have hwork2 : work { s with worker := .accept (s.conns.map fun c => (⟨c, ready s c, false⟩ : Watch)) } =
        some { s with worker := .round (s.conns.map fun c => (⟨c, ready s c, false⟩ : Watch)), waiting := l, conns := s.conns ++ [d] } := by simp [work, hq]
    obtain ⟨u, g1, g2, g3, g4, g5, g6, g7, g8⟩ := round_loop (s.conns.map fun c => (⟨c, ready s c, false⟩ : Watch))
      { s with worker := .round (s.conns.map fun c => (⟨c, ready s c, false⟩ : Watch)), waiting := l, conns := s.conns ++ [d] } rfl
      (by rw [hmap]; exact hnd) (by
        intro x hx
        obtain ⟨c, _, rfl⟩ := List.mem_map.1 hx
        exact ⟨rfl, rfl⟩)
    rw [hmap] at g7 g8
    have hd : d ∉ s.conns := by
      intro e
      have := (List.nodup_append.1 hi.nodup).2.2 d e d (by rw [hq]; simp)
      exact this rfl
    refine ⟨s.conns.length + 3, finish u, by omega, ?_, rfl, ?_, rfl, ?_, ?_, ?_⟩
    · rw [List.replicate_succ']
      rw [run_append, run_work s _ u (s.conns.length + 1) hwork (run_work _ _ u s.conns.length hwork2 (by simpa using g1))]
      simp [run, step, work, g2]
    · show u.waiting = _
      rw [g5]; simp
    · intro c
      show c ∈ u.conns ↔ _
      rw [g8]
      simp only [List.take_succ_cons, List.take_zero, List.mem_append, List.mem_singleton]
      constructor
      · rintro ⟨a | a, b⟩
        · exact .inr ⟨a, fun e => b ⟨a, e⟩⟩
        · exact .inl a
      · rintro (rfl | ⟨a, b⟩)
        · exact ⟨.inr rfl, fun e => hd e.1⟩
        · exact ⟨.inl a, fun e => b e.2⟩
    · intro c hcc
      show u.answered c = _
      rw [g7]; simp [hcc]
    · intro c hcc
      show (if c ∈ u.conns then u.got c ++ u.queue else u.got c) = _
      rw [if_pos (show c ∈ u.conns from hcc), g3, g4]

/-- Without signals, a broadcast reaches every client that is connected after the iteration, after what it has got before. -/
theorem broadcast_reaches (as : List Act) (s : State) (hc : Calm as) (h : run {} as = some s) (hw : s.worker = .select) (hst : s.stop = false) (b : Nat) :
    ∃ n s', run s (.broadcast b :: List.replicate n .work) = some s' ∧ s'.worker = .select ∧ ∀ c ∈ s'.conns, s'.got c = s.got c ++ s.queue ++ [b] := by
  have hr : run {} (as ++ [.broadcast b]) = some { s with queue := s.queue ++ [b] } := by rw [run_append, h]; rfl
  obtain ⟨n, s', _, g1, g2, _, _, _, _, g3⟩ := round_serves (as ++ [.broadcast b]) { s with queue := s.queue ++ [b] }
    (by intro e; rcases List.mem_append.1 e with e | e; exact hc e; simp at e) hr hw hst
  exact ⟨n, s', g1, g2, fun c hcc => by rw [g3 c hcc, List.append_assoc]⟩

/-! ### With signals -/

/-- What holds whatever signals arrive. -/
structure Base (s : State) : Prop where
  known : ∀ c, c ∈ s.conns ∨ c ∈ s.waiting → c ∈ s.known
  nodup : (s.conns ++ s.waiting).Nodup

theorem base_close {s : State} (h : Base s) (c : Nat) : Base (close s c) := by
  refine ⟨fun d hd => ?_, ?_⟩
  · rcases hd with e | e
    · exact h.known d (.inl (List.mem_filter.1 e).1)
    · exact h.known d (.inr e)
  · have := List.nodup_append.1 h.nodup
    exact List.nodup_append.2 ⟨this.1.filter _, this.2.1, fun a ha b hb => this.2.2 a (List.mem_filter.1 ha).1 b hb⟩

theorem base_look {s t : State} {x : Watch} (h : Base s) (hl : look s x = some t) : Base t := by
  obtain ⟨u, hu, rfl⟩ := Option.map_eq_some_iff.1 hl
  have hb : Base u := by
    split at hu
    · split at hu
      · obtain rfl := Option.some.inj hu; exact ⟨h.known, h.nodup⟩
      · split at hu
        · obtain rfl := Option.some.inj hu; exact base_close h _
        · cases hu
    · obtain rfl := Option.some.inj hu; exact h
  split
  · exact base_close hb _
  · exact hb

theorem base_step {s s' : State} {a : Act} (hb : Base s) (h : step s a = some s') : Base s' := by
  cases a with
  | connect c =>
    simp only [step] at h
    split at h
    · cases h
    · rename_i hn
      obtain rfl := Option.some.inj h
      refine ⟨fun d hd => ?_, ?_⟩
      · simp only [List.mem_append, List.mem_singleton] at hd ⊢
        rcases hd with hd | hd | hd
        · exact .inl (hb.known d (.inl hd))
        · exact .inl (hb.known d (.inr hd))
        · exact .inr hd
      · show (s.conns ++ (s.waiting ++ [c])).Nodup
        rw [← List.append_assoc, List.nodup_append]
        refine ⟨hb.nodup, by simp, ?_⟩
        intro x hx y hy
        simp only [List.mem_singleton] at hy
        subst hy
        rintro rfl
        exact hn (hb.known _ (List.mem_append.1 hx))
  | send c m =>
    simp only [step] at h
    split at h
    · split at h <;> (obtain rfl := Option.some.inj h; exact ⟨hb.known, hb.nodup⟩)
    · cases h
  | leave c =>
    simp only [step] at h
    split at h
    · obtain rfl := Option.some.inj h; exact ⟨hb.known, hb.nodup⟩
    · cases h
  | broadcast b => obtain rfl := Option.some.inj h; exact ⟨hb.known, hb.nodup⟩
  | destroy => obtain rfl := Option.some.inj h; exact ⟨hb.known, hb.nodup⟩
  | signal =>
    obtain rfl := Option.some.inj h
    simp only [signal]
    split
    · split
      · exact ⟨hb.known, hb.nodup⟩
      · exact hb
    · split
      · exact ⟨hb.known, hb.nodup⟩
      · exact hb
    · rename_i c e w hw
      split
      · exact hb
      · split
        · have := base_close (base_close hb c) c; exact ⟨this.known, this.nodup⟩
        · have := base_close hb c; exact ⟨this.known, this.nodup⟩
    · exact hb
    · exact hb
  | work =>
    simp only [step, work] at h
    split at h
    · split at h <;> (obtain rfl := Option.some.inj h; exact ⟨hb.known, hb.nodup⟩)
    · split at h
      · cases h
      · rename_i w hw c l hq
        obtain rfl := Option.some.inj h
        have hn := hb.nodup
        have hk := hb.known
        rw [hq] at hn hk
        refine ⟨fun d hd => hk d ?_, by simpa using hn⟩
        simp only [List.mem_append, List.mem_cons, List.not_mem_nil, or_false] at hd ⊢
        rcases hd with (e | e) | e
        · exact .inl e
        · exact .inr (.inl e)
        · exact .inr (.inr e)
    · obtain rfl := Option.some.inj h; exact ⟨hb.known, hb.nodup⟩
    · obtain ⟨t, ht, rfl⟩ := Option.map_eq_some_iff.1 h
      have := base_look hb ht
      exact ⟨this.known, this.nodup⟩
    · cases h

theorem base_run (as : List Act) (s : State) (h : run {} as = some s) : Base s := by
  induction as using List.reverseRecOn generalizing s with
  | nil => obtain rfl := Option.some.inj h; exact ⟨by simp, by simp⟩
  | append_singleton as a ih =>
    obtain ⟨m, h1, h2⟩ := run_snoc h
    exact base_step (ih m h1) h2

/-- **C112 fails (1):** if a signal reaches the worker while it waits, it waits for the next client. Until one connects nothing is handled, no broadcast is sent, and the destructor does not return; a
    further signal would end this. -/
theorem signal_blocks (s s1 s2 : State) (hw : s.worker = .select) (hq : quiet s = true) (h1 : step s .signal = some s1) (bs : List Act) (hb : Calm bs) (hn : ∀ c, .connect c ∉ bs)
    (h : run s1 bs = some s2) : s2.answered = s.answered ∧ s2.got = s.got ∧ s2.worker ≠ .ended ∧ step s2 .work = none := by
  have hs1 : s1 = { s with worker := .accept (s.conns.map fun c => ⟨c, true, true⟩) } := by
    simp only [step, signal, hw, hq, if_true] at h1
    exact (Option.some.inj h1).symm
  have gen : ∀ (bs : List Act) (t : State), Calm bs → (∀ c, .connect c ∉ bs) → run t bs = some s2 → (∃ w, t.worker = .accept w) → t.waiting = [] →
      (∃ w, s2.worker = .accept w) ∧ s2.waiting = [] ∧ s2.answered = t.answered ∧ s2.got = t.got := by
    intro bs
    induction bs with
    | nil => intro t _ _ h ha hwt; obtain rfl := Option.some.inj h; exact ⟨ha, hwt, rfl, rfl⟩
    | cons b bs ih =>
      intro t hb hn h ha hwt
      simp only [run] at h
      obtain ⟨u, hu, h2⟩ := Option.bind_eq_some_iff.1 h
      have hb' : Calm bs := fun e => hb (List.mem_cons_of_mem _ e)
      have hn' : ∀ c, .connect c ∉ bs := fun c e => hn c (List.mem_cons_of_mem _ e)
      obtain ⟨w, ha⟩ := ha
      have hu' : u.worker = .accept w ∧ u.waiting = [] ∧ u.answered = t.answered ∧ u.got = t.got := by
        cases b with
        | connect c => exact absurd List.mem_cons_self (hn c)
        | signal => exact absurd List.mem_cons_self hb
        | send c m =>
          simp only [step] at hu
          split at hu
          · split at hu <;> (obtain rfl := Option.some.inj hu; exact ⟨ha, hwt, rfl, rfl⟩)
          · cases hu
        | leave c =>
          simp only [step] at hu
          split at hu
          · obtain rfl := Option.some.inj hu; exact ⟨ha, hwt, rfl, rfl⟩
          · cases hu
        | broadcast x => obtain rfl := Option.some.inj hu; exact ⟨ha, hwt, rfl, rfl⟩
        | destroy => obtain rfl := Option.some.inj hu; exact ⟨ha, hwt, rfl, rfl⟩
        | work => simp [step, work, ha, hwt] at hu
      obtain ⟨a1, a2, a3, a4⟩ := ih u hb' hn' h2 ⟨w, hu'.1⟩ hu'.2.1
      exact ⟨a1, a2, a3.trans hu'.2.2.1, a4.trans hu'.2.2.2⟩
  have hwt : s.waiting = [] := by
    simp only [quiet, Bool.and_eq_true, List.isEmpty_iff] at hq
    exact hq.1
  obtain ⟨⟨w, a1⟩, a2, a3, a4⟩ := gen bs s1 hb hn h (by rw [hs1]; exact ⟨_, rfl⟩) (by rw [hs1]; exact hwt)
  refine ⟨by rw [a3, hs1], by rw [a4, hs1], by rw [a1]; simp, by simp [step, work, a1, a2]⟩

/-- **C112 fails (2):** once a client has connected, it waits for the first of the others to send something or to leave. Until then, too, nothing is handled and the destructor does not return. -/
theorem signal_blocks_first (s s1 s2 : State) (c : Nat) (l : List Nat) (hw : s.worker = .select) (hq : quiet s = true) (hc : s.conns = c :: l) (h1 : step s .signal = some s1) (bs : List Act)
    (hb : Calm bs) (hm : ∀ m, .send c m ∉ bs) (hl : .leave c ∉ bs) (h : run s1 bs = some s2) : s2.answered = s.answered ∧ s2.got = s.got ∧ s2.worker ≠ .ended := by
  have hs1 : s1 = { s with worker := .accept (s.conns.map fun c => ⟨c, true, true⟩) } := by
    simp only [step, signal, hw, hq, if_true] at h1
    exact (Option.some.inj h1).symm
  have hready : ready s c = false := by
    simp only [quiet, hc, List.all_cons, Bool.and_eq_true, Bool.not_eq_true'] at hq
    exact hq.2.1
  simp only [ready, Bool.or_eq_false_iff, Bool.not_eq_false', List.isEmpty_iff] at hready
  have gen : ∀ (bs : List Act) (t : State), Calm bs → (∀ m, .send c m ∉ bs) → .leave c ∉ bs → run t bs = some s2 → t.inbox c = [] → t.left c = false →
      (∃ w, t.worker = .accept (⟨c, true, true⟩ :: w) ∨ t.worker = .round (⟨c, true, true⟩ :: w)) →
      (∃ w, s2.worker = .accept (⟨c, true, true⟩ :: w) ∨ s2.worker = .round (⟨c, true, true⟩ :: w)) ∧ s2.answered = t.answered ∧ s2.got = t.got := by
    intro bs
    induction bs with
    | nil => intro t _ _ _ h _ _ ha; obtain rfl := Option.some.inj h; exact ⟨ha, rfl, rfl⟩
    | cons b bs ih =>
      intro t hb hm hl h hin hlf ha
      simp only [run] at h
      obtain ⟨u, hu, h2⟩ := Option.bind_eq_some_iff.1 h
      have hb' : Calm bs := fun e => hb (List.mem_cons_of_mem _ e)
      have hm' : ∀ m, .send c m ∉ bs := fun m e => hm m (List.mem_cons_of_mem _ e)
      have hl' : .leave c ∉ bs := fun e => hl (List.mem_cons_of_mem _ e)
      have hu' : u.inbox c = [] ∧ u.left c = false ∧ (∃ w, u.worker = .accept (⟨c, true, true⟩ :: w) ∨ u.worker = .round (⟨c, true, true⟩ :: w)) ∧ u.answered = t.answered ∧ u.got = t.got := by
        cases b with
        | connect d =>
          simp only [step] at hu
          split at hu
          · cases hu
          · obtain rfl := Option.some.inj hu; exact ⟨hin, hlf, ha, rfl, rfl⟩
        | signal => exact absurd List.mem_cons_self hb
        | send d m =>
          have hd : c ≠ d := fun e => hm m (by rw [e]; exact List.mem_cons_self)
          simp only [step] at hu
          split at hu
          · split at hu
            · obtain rfl := Option.some.inj hu; exact ⟨by simp [upd, hd, hin], hlf, ha, rfl, rfl⟩
            · obtain rfl := Option.some.inj hu; exact ⟨hin, hlf, ha, rfl, rfl⟩
          · cases hu
        | leave d =>
          have hd : c ≠ d := fun e => hl (by rw [e]; exact List.mem_cons_self)
          simp only [step] at hu
          split at hu
          · obtain rfl := Option.some.inj hu; exact ⟨hin, by simp [upd, hd, hlf], ha, rfl, rfl⟩
          · cases hu
        | broadcast x => obtain rfl := Option.some.inj hu; exact ⟨hin, hlf, ha, rfl, rfl⟩
        | destroy => obtain rfl := Option.some.inj hu; exact ⟨hin, hlf, ha, rfl, rfl⟩
        | work =>
          obtain ⟨w, ha | ha⟩ := ha
          · simp only [step, work, ha] at hu
            split at hu
            · cases hu
            · obtain rfl := Option.some.inj hu; exact ⟨hin, hlf, ⟨w, .inr rfl⟩, rfl, rfl⟩
          · simp [step, work, ha, look, hin, hlf] at hu
      obtain ⟨a1, a2, a3⟩ := ih u hb' hm' hl' h2 hu'.1 hu'.2.1 hu'.2.2.1
      exact ⟨a1, a2.trans hu'.2.2.2.1, a3.trans hu'.2.2.2.2⟩
  obtain ⟨⟨w, a1⟩, a2, a3⟩ := gen bs s1 hb hm hl h (by rw [hs1]; exact hready.1) (by rw [hs1]; exact hready.2) (by rw [hs1, hc]; exact ⟨_, .inl rfl⟩)
  refine ⟨by rw [a2, hs1], by rw [a3, hs1], ?_⟩
  rcases a1 with a1 | a1 <;> rw [a1] <;> simp

/-- Each of the connections `l` is still to be closed, or it is closed. -/
def Doomed (l : List Nat) (s : State) : Prop :=
  ∀ c ∈ l, c ∉ s.waiting ∧ c ∈ s.known ∧ ((∃ x ∈ todo s.worker, x.conn = c ∧ x.exceptional = true) ∨ c ∉ s.conns ∧ s.closes c ≠ 0)

theorem close_conns (s : State) (c d : Nat) : d ∈ (close s c).conns ↔ d ∈ s.conns ∧ d ≠ c := by simp [close, List.mem_filter]

theorem close_closes (s : State) (c d : Nat) : (close s c).closes d = if d = c then s.closes c + 1 else s.closes d := rfl

theorem doomed_step {l : List Nat} {s s' : State} {a : Act} (hd : Doomed l s) (ha : a ≠ .signal) (h : step s a = some s') : Doomed l s' := by
  cases a with
  | signal => exact absurd rfl ha
  | connect c =>
    simp only [step] at h
    split at h
    · cases h
    · rename_i hn
      obtain rfl := Option.some.inj h
      intro d hdl
      obtain ⟨h1, h2, h3⟩ := hd d hdl
      refine ⟨?_, List.mem_append_left _ h2, h3⟩
      simp only [List.mem_append, List.mem_singleton, not_or]
      exact ⟨h1, fun e => hn (e ▸ h2)⟩
  | send c m =>
    simp only [step] at h
    split at h
    · split at h <;> (obtain rfl := Option.some.inj h; exact hd)
    · cases h
  | leave c =>
    simp only [step] at h
    split at h
    · obtain rfl := Option.some.inj h; exact hd
    · cases h
  | broadcast b => obtain rfl := Option.some.inj h; exact hd
  | destroy => obtain rfl := Option.some.inj h; exact hd
  | work =>
    simp only [step, work] at h
    split at h
    · rename_i hw
      have hd' : ∀ c ∈ l, c ∉ s.waiting ∧ c ∈ s.known ∧ c ∉ s.conns ∧ s.closes c ≠ 0 := by
        intro c hc
        obtain ⟨h1, h2, h3⟩ := hd c hc
        rcases h3 with ⟨x, hx, _⟩ | h3
        · rw [hw] at hx; cases hx
        · exact ⟨h1, h2, h3⟩
      split at h <;> (obtain rfl := Option.some.inj h; intro c hc; obtain ⟨h1, h2, h3⟩ := hd' c hc; exact ⟨h1, h2, .inr h3⟩)
    · rename_i w hw
      split at h
      · cases h
      · rename_i c r hq
        obtain rfl := Option.some.inj h
        intro d hdl
        obtain ⟨h1, h2, h3⟩ := hd d hdl
        rw [hq] at h1
        simp only [List.mem_cons, not_or] at h1
        refine ⟨h1.2, h2, ?_⟩
        rcases h3 with ⟨x, hx, h3⟩ | h3
        · rw [hw] at hx
          exact .inl ⟨x, hx, h3⟩
        · refine .inr ⟨?_, h3.2⟩
          simp only [List.mem_append, List.mem_singleton, not_or]
          exact ⟨h3.1, h1.1⟩
    · rename_i hw
      obtain rfl := Option.some.inj h
      intro d hdl
      obtain ⟨h1, h2, h3⟩ := hd d hdl
      refine ⟨h1, h2, ?_⟩
      rcases h3 with ⟨x, hx, h3⟩ | h3
      · rw [hw] at hx; cases hx
      · exact .inr h3
    · rename_i x w hw
      obtain ⟨t, ht, rfl⟩ := Option.map_eq_some_iff.1 h
      obtain ⟨u, hu, rfl⟩ := Option.map_eq_some_iff.1 ht
      have hu' : u.waiting = s.waiting ∧ u.known = s.known ∧ (∀ c, c ∉ s.conns ∧ s.closes c ≠ 0 → c ∉ u.conns ∧ u.closes c ≠ 0) := by
        split at hu
        · split at hu
          · obtain rfl := Option.some.inj hu; exact ⟨rfl, rfl, fun _ e => e⟩
          · split at hu
            · obtain rfl := Option.some.inj hu
              refine ⟨rfl, rfl, fun c e => ⟨?_, ?_⟩⟩
              · rw [close_conns]; exact fun q => e.1 q.1
              · rw [close_closes]
                split
                · omega
                · exact e.2
            · cases hu
        · obtain rfl := Option.some.inj hu; exact ⟨rfl, rfl, fun _ e => e⟩
      intro c hc
      obtain ⟨h1, h2, h3⟩ := hd c hc
      have hwk : (if x.exceptional = true then close u x.conn else u).waiting = s.waiting ∧ (if x.exceptional = true then close u x.conn else u).known = s.known := by
        split
        · exact ⟨hu'.1, hu'.2.1⟩
        · exact ⟨hu'.1, hu'.2.1⟩
      refine ⟨by simpa [hwk.1] using h1, by simpa [hwk.2] using h2, ?_⟩
      have hmono : c ∉ u.conns ∧ u.closes c ≠ 0 → c ∉ (if x.exceptional = true then close u x.conn else u).conns ∧ (if x.exceptional = true then close u x.conn else u).closes c ≠ 0 := by
        intro e
        split
        · refine ⟨?_, ?_⟩
          · rw [close_conns]; exact fun q => e.1 q.1
          · rw [close_closes]
            split
            · omega
            · exact e.2
        · exact e
      rcases h3 with ⟨y, hy, h3, h4⟩ | h3
      · rw [hw] at hy
        rcases List.mem_cons.1 hy with e | e
        · subst e
          subst h3
          right
          rw [h4]
          simp only [if_true]
          refine ⟨?_, ?_⟩
          · rw [close_conns]; simp
          · rw [close_closes]; simp
        · exact .inl ⟨y, e, h3, h4⟩
      · exact .inr (hmono (hu'.2.2 c h3))
    · cases h

/-- **C112 fails (3):** if a signal reaches the worker while it waits, and it ever comes to the end of the iteration without another signal, it has closed the connections of all clients, which did
    nothing wrong. -/
theorem signal_drops_all (as : List Act) (s s1 s2 : State) (hr : run {} as = some s) (hw : s.worker = .select) (hq : quiet s = true) (h1 : step s .signal = some s1) (bs : List Act) (hb : Calm bs)
    (h : run s1 bs = some s2) (he : s2.worker = .select) : ∀ c ∈ s.conns, c ∉ s2.conns ∧ c ∉ s2.waiting ∧ s2.closes c ≠ 0 := by
  have hs1 : s1 = { s with worker := .accept (s.conns.map fun c => ⟨c, true, true⟩) } := by
    simp only [step, signal, hw, hq, if_true] at h1
    exact (Option.some.inj h1).symm
  have hbase := base_run as s hr
  have h0 : Doomed s.conns s1 := by
    subst hs1
    intro c hc
    refine ⟨fun e => (List.nodup_append.1 hbase.nodup).2.2 c hc c e rfl, hbase.known c (.inl hc), .inl ⟨⟨c, true, true⟩, List.mem_map.2 ⟨c, hc, rfl⟩, rfl, rfl⟩⟩
  have gen : ∀ (bs : List Act) (t : State), Calm bs → run t bs = some s2 → Doomed s.conns t → Doomed s.conns s2 := by
    intro bs
    induction bs with
    | nil => intro t _ h hd; obtain rfl := Option.some.inj h; exact hd
    | cons b bs ih =>
      intro t hb h hd
      simp only [run] at h
      obtain ⟨u, hu, h2⟩ := Option.bind_eq_some_iff.1 h
      exact ih u (fun e => hb (List.mem_cons_of_mem _ e)) h2 (doomed_step hd (fun e => hb (by rw [e]; exact List.mem_cons_self)) hu)
  intro c hc
  obtain ⟨a1, _, a3⟩ := gen bs s1 hb h h0 c hc
  rcases a3 with ⟨x, hx, _⟩ | a3
  · rw [he] at hx; cases hx
  · exact ⟨a3.1, a1, a3.2⟩

theorem run_leaves (l : List Nat) : ∀ s : State, (∀ c ∈ l, c ∈ s.known) → ∃ f, run s (l.map .leave) = some { s with left := f } ∧ (∀ c ∈ l, f c = true) ∧ (∀ c, s.left c = true → f c = true) := by
  induction l with
  | nil => intro s _; exact ⟨s.left, rfl, by simp, fun _ e => e⟩
  | cons c l ih =>
    intro s hk
    obtain ⟨f, h1, h2, h3⟩ := ih { s with left := upd s.left c true } (fun d hd => hk d (List.mem_cons_of_mem _ hd))
    refine ⟨f, ?_, ?_, ?_⟩
    · simp only [List.map_cons, run, step, hk c List.mem_cons_self, if_true, Option.bind_some]
      exact h1
    · intro d hd
      rcases List.mem_cons.1 hd with e | e
      · subst e; exact h3 d (by simp [upd])
      · exact h2 d e
    · intro d hd
      refine h3 d ?_
      simp only [upd]
      split
      · rfl
      · exact hd

theorem close_twice_loop (l : List Nat) : ∀ t : State, t.worker = .round (l.map fun c => ⟨c, true, true⟩) → l.Nodup → (∀ c ∈ l, t.left c = true ∧ t.inbox c = []) →
    ∃ u, run t (List.replicate l.length .work) = some u ∧ ∀ c, u.closes c = if c ∈ l then t.closes c + 2 else t.closes c := by
  induction l with
  | nil => intro t _ _ _; exact ⟨t, rfl, by simp⟩
  | cons c l ih =>
    intro t hw hnd hx
    obtain ⟨hl, hin⟩ := hx c List.mem_cons_self
    rw [List.nodup_cons] at hnd
    have hwork : work t = some { close (close t c) c with worker := .round (l.map fun c => ⟨c, true, true⟩) } := by simp [work, hw, look, hin, hl]
    obtain ⟨u, g1, g2⟩ := ih { close (close t c) c with worker := .round (l.map fun c => ⟨c, true, true⟩) } rfl hnd.2 (fun d hd => hx d (List.mem_cons_of_mem _ hd))
    refine ⟨u, run_work _ _ _ _ hwork g1, ?_⟩
    intro d
    rw [g2]
    show (if d ∈ l then (close (close t c) c).closes d + 2 else (close (close t c) c).closes d) = _
    simp only [close_closes, List.mem_cons]
    by_cases e : d = c
    · subst e
      simp [hnd.1]
    · simp [e]

/-- **C112 fails (4):** a signal that reaches the worker while it waits may make it close descriptors twice: if the clients leave before it looks at their connections. The second call closes whatever
    has the number by then. -/
theorem signal_closes_twice (as : List Act) (s : State) (hr : run {} as = some s) (hw : s.worker = .select) (hq : quiet s = true) :
    ∃ bs s2, run s (.signal :: bs) = some s2 ∧ ∀ c ∈ s.conns, s2.closes c = s.closes c + 2 := by
  have hbase := base_run as s hr
  have hs1 : step s .signal = some { s with worker := .accept (s.conns.map fun c => ⟨c, true, true⟩) } := by simp only [step, signal, hw, hq, if_true]
  obtain ⟨f, l1, l2, _⟩ := run_leaves s.conns { s with worker := .accept (s.conns.map fun c => ⟨c, true, true⟩) } (fun c hc => hbase.known c (.inl hc))
  obtain ⟨d, hd⟩ : ∃ d, d ∉ s.known := by
    refine ⟨s.known.foldr max 0 + 1, fun e => ?_⟩
    have : ∀ (l : List Nat) x, x ∈ l → x ≤ l.foldr max 0 := by
      intro l
      induction l with
      | nil => intro x hx; cases hx
      | cons y l ih =>
        intro x hx
        simp only [List.foldr_cons]
        rcases List.mem_cons.1 hx with e | e
        · subst e; exact Nat.le_max_left _ _
        · exact Nat.le_trans (ih x e) (Nat.le_max_right _ _)
    have := this _ _ e
    omega
  have hqw : s.waiting = [] ∧ ∀ c ∈ s.conns, ready s c = false := by
    simp only [quiet, Bool.and_eq_true, List.isEmpty_iff, List.all_eq_true, Bool.not_eq_true'] at hq
    exact hq
  obtain ⟨u, g1, g2⟩ := close_twice_loop s.conns
    { s with worker := .round (s.conns.map fun c => ⟨c, true, true⟩), left := f, waiting := [], known := s.known ++ [d], conns := s.conns ++ [d] } rfl (List.nodup_append.1 hbase.nodup).1 (by
      intro c hc
      refine ⟨l2 c hc, ?_⟩
      have := hqw.2 c hc
      simp only [ready, Bool.or_eq_false_iff, Bool.not_eq_false', List.isEmpty_iff] at this
      exact this.1)
  refine ⟨s.conns.map .leave ++ (.connect d :: .work :: List.replicate s.conns.length .work), u, ?_, ?_⟩
  · simp only [run, hs1, Option.bind_some, run_append, l1]
    simp [step, hd, work, hqw.1, g1]
  · intro c hc
    rw [g2, if_pos hc]

/-- A server with one idle client: a signal, a new client, and the message of the first client is its last. -/
def broken : List Act := [.connect 1, .work, .work, .work, .signal, .connect 2, .work, .send 1 7, .work, .work]

theorem broken_run : ∃ s, run {} broken = some s ∧ s.worker = .select ∧ s.conns = [2] ∧ s.closes 1 = 1 ∧ s.answered 1 = [7] := ⟨_, rfl, rfl, rfl, rfl, rfl⟩

theorem not_AllUndisturbed : ¬ AllUndisturbed := by
  intro h
  obtain ⟨s, h1, _, _, h4, _⟩ := broken_run
  have := ((h _ s h1).1 1).2 (by rw [h4]; decide)
  simp [Left, broken] at this

/-- A further signal while the worker waits in `accept`: it goes back to `select` and has done nothing. If a client waits to be accepted, the signal changes nothing. -/
theorem signal_in_accept (s : State) (w : List Watch) (hw : s.worker = .accept w) : step s .signal = some (if s.waiting = [] then { s with worker := .select } else s) := by
  simp only [step, signal, hw]
  cases s.waiting <;> simp

/-- A signal while the worker waits for a message of a client: the client's connection is closed although the client is there, once or, after a signal in `select`, twice, and the worker goes on with
    the next. If something has arrived, the signal changes nothing. -/
theorem signal_in_read (s s' : State) (x : Watch) (w : List Watch) (hw : s.worker = .round (x :: w)) (hr : x.readable = true) (h : step s .signal = some s') :
    (ready s x.conn = true → s' = s) ∧
    (ready s x.conn = false → s'.worker = .round w ∧ (∀ c, c ∈ s'.conns ↔ c ∈ s.conns ∧ c ≠ x.conn) ∧ s'.closes x.conn = s.closes x.conn + (if x.exceptional then 2 else 1) ∧
      (∀ c, c ≠ x.conn → s'.closes c = s.closes c) ∧ s'.left = s.left ∧ s'.answered = s.answered ∧ s'.inbox = s.inbox) := by
  obtain ⟨c, r, e⟩ := x
  simp only at hr
  subst hr
  simp only [step, signal, hw] at h
  obtain rfl := Option.some.inj h
  refine ⟨fun hr => by simp only at hr; rw [if_pos hr], fun hr => ?_⟩
  simp only at hr
  rw [if_neg (by rw [hr]; simp)]
  cases e with
  | false =>
    refine ⟨rfl, fun d => close_conns s c d, by simp [close, upd], fun d hd => ?_, rfl, rfl, rfl⟩
    simp only at hd
    simp [close, upd, hd]
  | true =>
    refine ⟨rfl, fun d => ?_, by simp [close, upd], fun d hd => ?_, rfl, rfl, rfl⟩
    · simp only [if_true]
      rw [close_conns, close_conns]; exact ⟨fun q => q.1, fun q => ⟨q, q.2⟩⟩
    · simp only at hd
      simp [close, upd, hd]

/-! ### Clients -/

/-- The messages that the server sends in `as`. -/
def served : List CAct → List Nat
  | [] => []
  | .send m :: as => m :: served as
  | _ :: as => served as

theorem served_append (as bs : List CAct) : served (as ++ bs) = served as ++ served bs := by
  induction as with
  | nil => rfl
  | cons a as ih => cases a <;> simp [served, ih]

theorem crun_snoc {as : List CAct} {a : CAct} {s s' : Client} (h : crun s (as ++ [a]) = some s') : ∃ m, crun s as = some m ∧ cstep m a = some s' := by
  induction as generalizing s with
  | nil =>
    simp only [List.nil_append, crun] at h
    obtain ⟨t, h1, h2⟩ := Option.bind_eq_some_iff.1 h
    obtain rfl := Option.some.inj h2
    exact ⟨s, rfl, h1⟩
  | cons b as ih =>
    simp only [List.cons_append, crun] at h ⊢
    obtain ⟨t, h1, h2⟩ := Option.bind_eq_some_iff.1 h
    obtain ⟨m, h3, h4⟩ := ih h2
    exact ⟨m, by rw [h1]; exact h3, h4⟩

/-- A client without signals: it handles every message once and in order, it gives the connection up only if the server has closed it, and its worker can always go on. -/
theorem client_undisturbed_partial (as : List CAct) (s : Client) (hc : .signal ∉ as) (h : crun {} as = some s) :
    s.handled ++ s.inbox = served as ∧ (s.connected = false → .leave ∈ as) ∧ (s.worker = .ended ∨ ∃ s', cstep s .work = some s') := by
  have key : s.handled ++ s.inbox = served as ∧ (s.left = true → .leave ∈ as) ∧ (s.connected = false → .leave ∈ as) ∧ (s.worker = .receive → s.inbox ≠ [] ∨ s.left = true) := by
    induction as using List.reverseRecOn generalizing s with
    | nil => obtain rfl := Option.some.inj h; simp [served]
    | append_singleton as a ih =>
      obtain ⟨m, h1, h2⟩ := crun_snoc h
      obtain ⟨i1, i2, i3, i4⟩ := ih m (fun e => hc (List.mem_append_left _ e)) h1
      rw [served_append, ← i1]
      cases a with
      | signal => exact absurd (by simp) hc
      | send x =>
        simp only [cstep] at h2
        split at h2
        · cases h2
        · obtain rfl := Option.some.inj h2
          exact ⟨by simp [served], fun e => List.mem_append_left _ (i2 e), fun e => List.mem_append_left _ (i3 e), fun _ => .inl (by simp)⟩
      | leave =>
        obtain rfl := Option.some.inj h2
        exact ⟨by simp [served], by simp, fun e => List.mem_append_left _ (i3 e), fun _ => .inr rfl⟩
      | destroy =>
        obtain rfl := Option.some.inj h2
        exact ⟨by simp [served], fun e => List.mem_append_left _ (i2 e), fun e => List.mem_append_left _ (i3 e), i4⟩
      | work =>
        simp only [cstep, cwork] at h2
        split at h2
        · split at h2
          · obtain rfl := Option.some.inj h2
            exact ⟨by simp [served], fun e => List.mem_append_left _ (i2 e), fun e => List.mem_append_left _ (i3 e), by simp⟩
          · obtain rfl := Option.some.inj h2
            refine ⟨by simp [served], fun e => List.mem_append_left _ (i2 e), fun e => List.mem_append_left _ (i3 e), ?_⟩
            intro e
            simp only at e
            split at e
            · cases e
            · rename_i hn
              by_cases hin : m.inbox = []
              · right
                by_contra hl
                exact hn ⟨hin, by simpa using hl⟩
              · exact .inl hin
        · split at h2
          · rename_i x l hin
            obtain rfl := Option.some.inj h2
            exact ⟨by simp [served, hin], fun e => List.mem_append_left _ (i2 e), fun e => List.mem_append_left _ (i3 e), by simp⟩
          · rename_i hin
            split at h2
            · rename_i hl
              obtain rfl := Option.some.inj h2
              exact ⟨by simp [served, hin], fun e => List.mem_append_left _ (i2 e), fun _ => List.mem_append_left _ (i2 hl), by simp⟩
            · cases h2
        · obtain rfl := Option.some.inj h2
          exact ⟨by simp [served], fun e => List.mem_append_left _ (i2 e), fun e => List.mem_append_left _ (i3 e), by simp⟩
        · cases h2
  refine ⟨key.1, key.2.2.1, ?_⟩
  cases hw : s.worker with
  | ended => exact .inl rfl
  | select =>
    right
    by_cases hr : s.running = false <;> simp [cstep, cwork, hw, hr]
  | rest => right; simp [cstep, cwork, hw]
  | receive =>
    right
    rcases key.2.2.2 hw with e | e
    · cases hin : s.inbox with
      | nil => exact absurd hin e
      | cons x l => simp [cstep, cwork, hw, hin]
    · cases hin : s.inbox with
      | nil => simp [cstep, cwork, hw, hin, e]
      | cons x l => simp [cstep, cwork, hw, hin]

/-- The server can send as long as it has not closed its end; without signals, an iteration of the client's worker handles the next message; and when the server has closed its end and nothing is left to read,
    the client gives the connection up and its worker ends. -/
theorem client_round (s : Client) (hw : s.worker = .select) (hr : s.running = true) :
    (s.left = false → ∀ m, cstep s (.send m) = some { s with inbox := s.inbox ++ [m] }) ∧
    (∀ m l, s.inbox = m :: l → ∃ s', crun s [.work, .work, .work] = some s' ∧ s'.worker = .select ∧ s'.handled = s.handled ++ [m] ∧ s'.inbox = l ∧ s'.connected = s.connected) ∧
    (s.inbox = [] → s.left = true → ∃ s', crun s [.work, .work, .work, .work] = some s' ∧ s'.connected = false ∧ s'.worker = .ended ∧ s'.handled = s.handled) := by
  refine ⟨fun hl m => by simp [cstep, hl], fun m l hin => ?_, fun hin hl => ?_⟩
  · exact ⟨{ s with worker := .select, inbox := l, handled := s.handled ++ [m] }, by simp [crun, cstep, cwork, hw, hr, hin], rfl, rfl, rfl, rfl⟩
  · exact ⟨{ s with worker := .ended, running := false, connected := false }, by simp [crun, cstep, cwork, hw, hr, hin, hl], rfl, rfl, rfl⟩

/-- Without a signal, the destructor of a client returns: the worker ends in at most two steps. -/
theorem client_destroyed (s : Client) (hw : s.worker = .select ∨ s.worker = .rest) : ∃ n s', n ≤ 2 ∧ crun s (.destroy :: List.replicate n .work) = some s' ∧ s'.worker = .ended := by
  rcases hw with hw | hw
  · exact ⟨1, { s with running := false, worker := .ended }, by omega, by simp [crun, cstep, cwork, hw], rfl⟩
  · exact ⟨2, { s with running := false, worker := .ended }, by omega, by simp [crun, cstep, cwork, hw, List.replicate], rfl⟩

/-- A signal does nothing to a client whose worker has something to read. -/
theorem client_signal_ready (s : Client) (hr : s.inbox ≠ [] ∨ s.left = true) : cstep s .signal = some s := by
  have : ¬ (s.inbox = [] ∧ s.left = false) := fun h => by
    rcases hr with hr | hr
    · exact hr h.1
    · rw [h.2] at hr; cases hr
  simp only [cstep, csignal]
  cases s.worker <;> simp [this]

/-- A signal that reaches a client's worker while it waits: from then on it waits for the server to send something. Until then the destructor does not return. -/
theorem client_blocks (s s1 s2 : Client) (hw : s.worker = .select) (hin : s.inbox = []) (hl : s.left = false) (h1 : cstep s .signal = some s1) (bs : List CAct) (hb : .signal ∉ bs)
    (hs : ∀ m, .send m ∉ bs) (hlv : .leave ∉ bs) (h : crun s1 bs = some s2) : s2.worker ≠ .ended ∧ cstep s2 .work = none := by
  have hs1 : s1 = { s with worker := .receive } := by
    simp only [cstep, csignal, hw, hin, hl, and_self, if_true] at h1
    rw [← Option.some.inj h1, hin, hl]
  have gen : ∀ (bs : List CAct) (t : Client), .signal ∉ bs → (∀ m, .send m ∉ bs) → .leave ∉ bs → crun t bs = some s2 → t.worker = .receive → t.inbox = [] → t.left = false →
      s2.worker = .receive ∧ s2.inbox = [] ∧ s2.left = false := by
    intro bs
    induction bs with
    | nil => intro t _ _ _ h a b c; obtain rfl := Option.some.inj h; exact ⟨a, b, c⟩
    | cons b bs ih =>
      intro t hb hs hlv h ha hi hlf
      simp only [crun] at h
      obtain ⟨u, hu, h2⟩ := Option.bind_eq_some_iff.1 h
      have hu' : u.worker = .receive ∧ u.inbox = [] ∧ u.left = false := by
        cases b with
        | signal => exact absurd List.mem_cons_self hb
        | send m => exact absurd List.mem_cons_self (hs m)
        | leave => exact absurd List.mem_cons_self hlv
        | destroy => obtain rfl := Option.some.inj hu; exact ⟨ha, hi, hlf⟩
        | work => simp [cstep, cwork, ha, hi, hlf] at hu
      exact ih u (fun e => hb (List.mem_cons_of_mem _ e)) (fun m e => hs m (List.mem_cons_of_mem _ e)) (fun e => hlv (List.mem_cons_of_mem _ e)) h2 hu'.1 hu'.2.1 hu'.2.2
  obtain ⟨a1, a2, a3⟩ := gen bs s1 hb hs hlv h (by rw [hs1]) (by rw [hs1]; exact hin) (by rw [hs1]; exact hl)
  exact ⟨by rw [a1]; simp, by simp [cstep, cwork, a1, a2, a3]⟩

/-- A second signal makes it give up the connection, which is fine. -/
theorem client_two_signals (s : Client) (hw : s.worker = .select) (hin : s.inbox = []) (hl : s.left = false) :
    ∃ s2, crun s [.signal, .signal] = some s2 ∧ s2.connected = false ∧ s2.left = false :=
  ⟨{ s with worker := .rest, running := false, connected := false }, by simp [crun, cstep, csignal, hw, hin, hl], rfl, hl⟩

/-! ### Examples -/

/-- Without signals: two clients, a message, a broadcast, and one client leaves. -/
example : ∃ s, run {} [.connect 1, .work, .work, .work, .connect 2, .send 1 7, .broadcast 9, .work, .work, .work, .work, .leave 1, .work, .work, .work, .work] = some s ∧
    Calm [.connect 1, .work, .work, .work, .connect 2, .send 1 7, .broadcast 9, .work, .work, .work, .work, .leave 1, .work, .work, .work, .work] ∧
    s.worker = .select ∧ s.conns = [2] ∧ s.answered 1 = [7] ∧ s.got 2 = [9] ∧ s.closes 1 = 1 := ⟨_, rfl, by simp [Calm], rfl, rfl, rfl, rfl, rfl⟩

/-- A state in which the worker waits, with two clients. -/
example : ∃ s, run {} [.connect 1, .connect 2, .work, .work, .work, .work, .work, .work, .work] = some s ∧ s.worker = .select ∧ quiet s = true ∧ s.conns = [1, 2] := ⟨_, rfl, rfl, rfl, rfl⟩

/-- A client that handles a message; and one that is destroyed and does not end. -/
example : ∃ s, crun {} [.send 3, .work, .work, .work] = some s ∧ s.handled = [3] ∧ s.worker = .select ∧ s.inbox = [] ∧ s.left = false := ⟨_, rfl, rfl, rfl, rfl, rfl⟩
example : ∃ s, crun {} [.signal, .destroy] = some s ∧ s.worker = .receive := ⟨_, rfl, rfl⟩

end Scalopus.C112
