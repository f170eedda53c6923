import Verif.Model.Inherit

/-!
# C104: a server that has ended is not found any more, and its clients notice

A history is any list of actions of any number of processes. The property is in terms of what discovery reports, whether a client reads the end of its stream, and whether `transportServer` succeeds.
-/

namespace Scalopus.C104

open Inherit

/-- **C104** in full: what discovery reports are processes that have a server; after a server was destroyed, or its process has ended, each of its clients reads the end of the stream; and `transportServer`
    fails in no process that has no server. -/
def Gone : Prop := ∀ as s, run {} as = some s →
  (∀ p, listed s p = true → p ∈ s.procs ∧ .listen p ∈ s.own p) ∧
  (∀ p id a s', .conn id ∈ s.own p → (a = .destroy p ∨ a = .exit p) → step s a = some s' → eof s' id = true) ∧
  s.refused = []

theorem run_cons (a : Act) (as : List Act) (s : State) : run s (a :: as) = (step s a).bind fun t => run t as := rfl

theorem run_append (as bs : List Act) (s : State) : run s (as ++ bs) = (run s as).bind fun t => run t bs := by
  induction as generalizing s with
  | nil => rfl
  | cons a as ih =>
    rw [List.cons_append, run_cons, run_cons]
    cases step s a with
    | none => rfl
    | some t => exact ih t

theorem mem_filt {α : Type} {p : α → Bool} {l : List α} {x : α} (h : x ∈ l.filter p) : x ∈ l := (List.mem_filter.1 h).1

theorem listed_iff {s : State} {p : Nat} : listed s p = true ↔ ∃ r ∈ s.procs, Sock.listen p ∈ s.fds r := by simp [listed]

theorem held_iff {s : State} {id : Nat} : held s id = true ↔ ∃ r ∈ s.procs, Sock.conn id ∈ s.fds r := by simp [held]

theorem listed_settle (s : State) (p : Nat) : listed (settle s) p = listed s p := rfl
theorem held_settle (s : State) (p : Nat) : held (settle s) p = held s p := rfl

/-- Process `q` does not end in this history. -/
def Stays (q : Nat) (as : List Act) : Prop := Act.exit q ∉ as

/-- What a process has inherited stays with it. -/
theorem kept_step {s s' : State} {a : Act} {q : Nat} {k : Sock} (e : step s a = some s') (ha : a ≠ .exit q) (hq : q ∈ s.procs) (hk : k ∈ s.fds q) (ho : k ∉ s.own q)
    (hc : ∀ id, k = .conn id → ∀ x ∈ s.queue, x.2 ≠ id) (hl : ∀ p, k = .listen p → p ≠ q) (hn : ∀ id, k = .conn id → id < s.next) :
    q ∈ s'.procs ∧ k ∈ s'.fds q ∧ k ∉ s'.own q ∧ (∀ id, k = .conn id → ∀ x ∈ s'.queue, x.2 ≠ id) ∧ ∀ id, k = .conn id → id < s'.next := by
  cases a with
  | start p =>
    simp only [step] at e
    split at e
    · rename_i h
      obtain rfl := Option.some.inj e
      have hpq : q ≠ p := fun hh => h (hh ▸ hq)
      exact ⟨List.mem_cons_of_mem _ hq, by simpa [upd, hpq] using hk, by simpa [upd, hpq] using ho, hc, hn⟩
    · cases e
  | serve p =>
    simp only [step] at e
    split at e
    · split at e
      · obtain rfl := Option.some.inj e
        exact ⟨hq, hk, ho, hc, hn⟩
      · obtain rfl := Option.some.inj e
        refine ⟨hq, ?_, ?_, hc, hn⟩
        · simp only [upd]; split
          · rename_i hh; subst hh; exact List.mem_cons_of_mem _ hk
          · exact hk
        · simp only [upd]; split
          · rename_i hh; subst hh
            intro hm
            exact hl q (List.mem_singleton.1 hm) rfl
          · exact ho
    · cases e
  | connect p =>
    simp only [step] at e
    split at e
    · obtain rfl := Option.some.inj e
      refine ⟨hq, hk, ho, ?_, fun id h => Nat.lt_succ_of_lt (hn id h)⟩
      intro id h x hx
      simp only [List.mem_append, List.mem_singleton] at hx
      rcases hx with hx | rfl
      · exact hc id h x hx
      · exact Nat.ne_of_gt (hn id h)
    · cases e
  | accept p id =>
    simp only [step] at e
    split at e
    · rename_i hh
      obtain rfl := Option.some.inj e
      refine ⟨hq, ?_, ?_, ?_, hn⟩
      · simp only [upd]; split
        · rename_i hh; subst hh; exact List.mem_cons_of_mem _ hk
        · exact hk
      · simp only [upd]; split
        · rename_i h2; subst h2
          intro hm
          rcases List.mem_cons.1 hm with h3 | h3
          · exact hc id h3 _ hh.2.2 rfl
          · exact ho h3
        · exact ho
      · intro i h x hx
        exact hc i h x (mem_filt hx)
    · cases e
  | spawn p r =>
    simp only [step] at e
    split at e
    · rename_i h
      obtain rfl := Option.some.inj e
      have hpq : q ≠ r := fun hh => h.2 (hh ▸ hq)
      exact ⟨List.mem_cons_of_mem _ hq, by simpa [upd, hpq] using hk, by simpa [upd, hpq] using ho, hc, hn⟩
    · cases e
  | destroy p =>
    simp only [step] at e
    split at e
    · obtain rfl := Option.some.inj e
      refine ⟨hq, ?_, ?_, ?_, hn⟩
      · simp only [settle, upd]; split
        · rename_i hh; subst hh; simp [hk, ho]
        · exact hk
      · simp only [settle, upd]; split
        · simp
        · exact ho
      · intro i h x hx
        exact hc i h x (mem_filt hx)
    · cases e
  | exit p =>
    simp only [step] at e
    split at e
    · obtain rfl := Option.some.inj e
      have hpq : q ≠ p := fun hh => ha (by rw [hh])
      refine ⟨by simp [settle, hq, hpq], by simp [settle, upd, hpq, hk], by simp [settle, upd, hpq, ho], ?_, hn⟩
      intro i h x hx
      exact hc i h x (mem_filt hx)
    · cases e

theorem kept_run {q : Nat} {k : Sock} (as : List Act) (ha : Stays q as) : ∀ {s s' : State}, run s as = some s' → q ∈ s.procs → k ∈ s.fds q → k ∉ s.own q →
    (∀ id, k = .conn id → ∀ x ∈ s.queue, x.2 ≠ id) → (∀ p, k = .listen p → p ≠ q) → (∀ id, k = .conn id → id < s.next) → q ∈ s'.procs ∧ k ∈ s'.fds q := by
  induction as with
  | nil =>
    intro s s' e hq hk _ _ _ _
    obtain rfl := Option.some.inj e
    exact ⟨hq, hk⟩
  | cons a as ih =>
    intro s s' e hq hk ho hc hl hn
    rw [run_cons] at e
    cases h1 : step s a with
    | none => rw [h1] at e; cases e
    | some t =>
      rw [h1] at e
      have ha' : a ≠ .exit q := fun hh => ha (by simp [hh])
      obtain ⟨a1, a2, a3, a4, a5⟩ := kept_step h1 ha' hq hk ho hc hl hn
      exact ih (fun hm => ha (List.mem_cons_of_mem _ hm)) e a1 a2 a3 a4 hl a5

/-- What is true of every history: a process that is not there holds nothing, sockets of a server are held by its process, and accepted connections are no longer in the queue. -/
structure Inv (s : State) : Prop where
  gone : ∀ r, r ∉ s.procs → s.fds r = [] ∧ s.own r = []
  owned : ∀ r k, k ∈ s.own r → k ∈ s.fds r
  conns : ∀ r id, Sock.conn id ∈ s.fds r → id < s.next ∧ ∀ x ∈ s.queue, x.2 ≠ id
  queued : ∀ x ∈ s.queue, x.2 < s.next ∧ listed s x.1 = true
  unique : ∀ r r' id, Sock.conn id ∈ s.own r → Sock.conn id ∈ s.own r' → r = r'
  name : ∀ r p, Sock.listen p ∈ s.own r → p = r
  single : ∀ x ∈ s.queue, ∀ y ∈ s.queue, x.2 = y.2 → x = y
  listening : ∀ r, s.own r ≠ [] → Sock.listen r ∈ s.own r

theorem upd_nil {f : Nat → List Sock} {i : Nat} (h : f i = []) : upd f i [] = f := by
  funext j; simp only [upd]; split
  · rename_i hh; rw [hh, h]
  · rfl

theorem inv_init : Inv {} := by
  constructor <;> simp

theorem inv_settle {s : State} (h : Inv { s with queue := s.queue.filter fun e => listed s e.1 }) : Inv (settle s) := h

theorem inv_step {s s' : State} (h : Inv s) {a : Act} (e : step s a = some s') : Inv s' := by
  obtain ⟨h1, h2, h3, h4, h5, h6, h8, h7⟩ := h
  cases a with
  | start p =>
    simp only [step] at e
    split at e
    · rename_i hp
      obtain rfl := Option.some.inj e
      obtain ⟨e1, e2⟩ := h1 p hp
      have ef : upd s.fds p [] = s.fds := upd_nil e1
      have eo : upd s.own p [] = s.own := upd_nil e2
      rw [ef, eo]
      refine ⟨fun r hr => h1 r (fun hm => hr (List.mem_cons_of_mem _ hm)), h2, h3, ?_, h5, h6, h8, h7⟩
      intro x hx
      obtain ⟨q1, q2⟩ := h4 x hx
      refine ⟨q1, ?_⟩
      obtain ⟨r, hr, hl⟩ := listed_iff.1 q2
      exact listed_iff.2 ⟨r, List.mem_cons_of_mem _ hr, hl⟩
    · cases e
  | serve p =>
    simp only [step] at e
    split at e
    · rename_i hp
      split at e
      · obtain rfl := Option.some.inj e
        exact ⟨h1, h2, h3, h4, h5, h6, h8, h7⟩
      · obtain rfl := Option.some.inj e
        refine ⟨?_, ?_, ?_, ?_, ?_, ?_, ?_, ?_⟩
        · intro r hr
          have : r ≠ p := fun hh => hr (hh ▸ hp.1)
          simpa [upd, this] using h1 r hr
        · intro r k hk
          simp only [upd] at hk ⊢
          split at hk
          · rename_i hh; rw [if_pos hh, List.mem_singleton.1 hk]; exact List.mem_cons_self
          · rename_i hh; rw [if_neg hh]; exact h2 r k hk
        · intro r id hk
          simp only [upd] at hk
          split at hk
          · rename_i hh
            rcases List.mem_cons.1 hk with h | h
            · cases h
            · exact h3 p id h
          · exact h3 r id hk
        · intro x hx
          obtain ⟨q1, q2⟩ := h4 x hx
          refine ⟨q1, ?_⟩
          obtain ⟨r, hr, hl⟩ := listed_iff.1 q2
          refine listed_iff.2 ⟨r, hr, ?_⟩
          simp only [upd]; split
          · rename_i hh; subst hh; exact List.mem_cons_of_mem _ hl
          · exact hl
        · intro r r' id ha hb
          simp only [upd] at ha hb
          split at ha
          · simp at ha
          · split at hb
            · simp at hb
            · exact h5 r r' id ha hb
        · intro r n ha
          simp only [upd] at ha
          split at ha
          · rename_i hh; cases List.mem_singleton.1 ha; exact hh.symm
          · exact h6 r n ha
        · exact h8
        · intro r ha
          simp only [upd] at ha ⊢
          split
          · rename_i hh; rw [hh]; exact List.mem_cons_self
          · rename_i hh; simp only [hh, if_false] at ha; exact h7 r ha
    · cases e
  | connect p =>
    simp only [step] at e
    split at e
    · rename_i hp
      obtain rfl := Option.some.inj e
      refine ⟨h1, h2, ?_, ?_, h5, h6, ?_, h7⟩
      · intro r id hk
        obtain ⟨q1, q2⟩ := h3 r id hk
        refine ⟨Nat.lt_succ_of_lt q1, ?_⟩
        intro x hx
        rcases List.mem_append.1 hx with hx | hx
        · exact q2 x hx
        · rw [List.mem_singleton.1 hx]; exact Nat.ne_of_gt q1
      · intro x hx
        rcases List.mem_append.1 hx with hx | hx
        · exact ⟨Nat.lt_succ_of_lt (h4 x hx).1, (h4 x hx).2⟩
        · rw [List.mem_singleton.1 hx]; exact ⟨Nat.lt_succ_self _, hp⟩
      · intro x hx y hy hxy
        rcases List.mem_append.1 hx with hx | hx <;> rcases List.mem_append.1 hy with hy | hy
        · exact h8 x hx y hy hxy
        · rw [List.mem_singleton.1 hy] at hxy
          exact absurd hxy (Nat.ne_of_lt (h4 x hx).1)
        · rw [List.mem_singleton.1 hx] at hxy
          exact absurd hxy.symm (Nat.ne_of_lt (h4 y hy).1)
        · rw [List.mem_singleton.1 hx, List.mem_singleton.1 hy]
    · cases e
  | accept p id =>
    simp only [step] at e
    split at e
    · rename_i hp
      obtain ⟨p1, p2, p3⟩ := hp
      obtain rfl := Option.some.inj e
      have fresh : ∀ r, Sock.conn id ∉ s.fds r := fun r hm => (h3 r id hm).2 _ p3 rfl
      refine ⟨?_, ?_, ?_, ?_, ?_, ?_, ?_, ?_⟩
      · intro r hr
        have : r ≠ p := fun hh => hr (hh ▸ p1)
        simpa [upd, this] using h1 r hr
      · intro r k hk
        simp only [upd] at hk ⊢
        split at hk
        · rename_i hh; simp only [hh, if_true]
          rcases List.mem_cons.1 hk with h | h
          · exact h ▸ List.mem_cons_self
          · exact List.mem_cons_of_mem _ (h2 p k h)
        · rename_i hh; simp only [hh, if_false]; exact h2 r k hk
      · intro r i hk
        simp only [upd] at hk
        split at hk
        · rcases List.mem_cons.1 hk with h | h
          · cases h
            exact ⟨(h4 _ p3).1, fun x hx => by simpa using (List.mem_filter.1 hx).2⟩
          · exact ⟨(h3 p i h).1, fun x hx => (h3 p i h).2 x (mem_filt hx)⟩
        · exact ⟨(h3 r i hk).1, fun x hx => (h3 r i hk).2 x (mem_filt hx)⟩
      · intro x hx
        obtain ⟨q1, q2⟩ := h4 x (mem_filt hx)
        refine ⟨q1, ?_⟩
        obtain ⟨r, hr, hl⟩ := listed_iff.1 q2
        refine listed_iff.2 ⟨r, hr, ?_⟩
        simp only [upd]; split
        · rename_i hh; subst hh; exact List.mem_cons_of_mem _ hl
        · exact hl
      · intro r r' i ha hb
        simp only [upd] at ha hb
        split at ha <;> split at hb
        · rename_i hr hr'; rw [hr, hr']
        · rename_i hr hr'
          rcases List.mem_cons.1 ha with h | h
          · cases h; exact absurd (h2 r' _ hb) (fresh r')
          · rw [hr]; exact h5 p r' i h hb
        · rename_i hr hr'
          rcases List.mem_cons.1 hb with h | h
          · cases h; exact absurd (h2 r _ ha) (fresh r)
          · rw [hr']; exact h5 r p i ha h
        · exact h5 r r' i ha hb
      · intro r n ha
        simp only [upd] at ha
        split at ha
        · rename_i hh
          rcases List.mem_cons.1 ha with h | h
          · cases h
          · rw [hh]; exact h6 p n h
        · exact h6 r n ha
      · exact fun x hx y hy => h8 x (mem_filt hx) y (mem_filt hy)
      · intro r ha
        simp only [upd] at ha ⊢
        split
        · rename_i hh; subst hh; exact List.mem_cons_of_mem _ p2
        · rename_i hh; simp only [hh, if_false] at ha; exact h7 r ha
    · cases e
  | spawn p q =>
    simp only [step] at e
    split at e
    · rename_i hp
      obtain ⟨p1, p2⟩ := hp
      obtain rfl := Option.some.inj e
      have hq := h1 q p2
      have eo : upd s.own q [] = s.own := upd_nil hq.2
      rw [eo]
      have grow : ∀ n, listed s n = true → listed { s with procs := q :: s.procs, fds := upd s.fds q (s.fds p) } n = true := by
        intro n hn
        obtain ⟨r, hr, hl⟩ := listed_iff.1 hn
        refine listed_iff.2 ⟨r, List.mem_cons_of_mem _ hr, ?_⟩
        have : r ≠ q := fun hh => p2 (hh ▸ hr)
        simpa [upd, this] using hl
      refine ⟨?_, ?_, ?_, fun x hx => ⟨(h4 x hx).1, grow _ (h4 x hx).2⟩, h5, h6, h8, h7⟩
      · intro r hr
        have : r ≠ q := fun hh => hr (hh ▸ List.mem_cons_self)
        simpa [upd, this] using h1 r (fun hm => hr (List.mem_cons_of_mem _ hm))
      · intro r k hk
        simp only [upd]; split
        · rename_i hh; rw [hh, hq.2] at hk; cases hk
        · exact h2 r k hk
      · intro r i hk
        simp only [upd] at hk
        split at hk
        · exact h3 p i hk
        · exact h3 r i hk
    · cases e
  | destroy p =>
    simp only [step] at e
    split at e
    · rename_i p1
      obtain rfl := Option.some.inj e
      refine ⟨?_, ?_, ?_, ?_, ?_, ?_, ?_, ?_⟩
      · intro r hr
        have : r ≠ p := fun hh => hr (hh ▸ p1)
        simpa [settle, upd, this] using h1 r hr
      · intro r k hk
        simp only [settle, upd] at hk ⊢
        split at hk
        · cases hk
        · rename_i hh; simp only [hh, if_false]; exact h2 r k hk
      · intro r i hk
        simp only [settle, upd] at hk ⊢
        split at hk
        · have := h3 p i (mem_filt hk)
          exact ⟨this.1, fun x hx => this.2 x (mem_filt hx)⟩
        · exact ⟨(h3 r i hk).1, fun x hx => (h3 r i hk).2 x (mem_filt hx)⟩
      · intro x hx
        exact ⟨(h4 x (mem_filt hx)).1, (List.mem_filter.1 hx).2⟩
      · intro r r' i ha hb
        simp only [settle, upd] at ha hb
        split at ha
        · cases ha
        · split at hb
          · cases hb
          · exact h5 r r' i ha hb
      · intro r n ha
        simp only [settle, upd] at ha
        split at ha
        · cases ha
        · exact h6 r n ha
      · exact fun x hx y hy => h8 x (mem_filt hx) y (mem_filt hy)
      · intro r ha
        simp only [settle, upd] at ha ⊢
        split
        · rename_i hh; rw [if_pos hh] at ha; exact absurd rfl ha
        · rename_i hh; simp only [hh, if_false] at ha; exact h7 r ha
    · cases e
  | exit p =>
    simp only [step] at e
    split at e
    · rename_i p1
      obtain rfl := Option.some.inj e
      refine ⟨?_, ?_, ?_, ?_, ?_, ?_, ?_, ?_⟩
      · intro r hr
        by_cases hh : r = p
        · simp [settle, upd, hh]
        · simp only [settle, upd, hh, if_false]
          exact h1 r (fun hm => hr (by simp [settle, hm, hh]))
      · intro r k hk
        simp only [settle, upd] at hk ⊢
        split at hk
        · cases hk
        · rename_i hh; simp only [hh, if_false]; exact h2 r k hk
      · intro r i hk
        simp only [settle, upd] at hk ⊢
        split at hk
        · cases hk
        · exact ⟨(h3 r i hk).1, fun x hx => (h3 r i hk).2 x (mem_filt hx)⟩
      · intro x hx
        exact ⟨(h4 x (mem_filt hx)).1, (List.mem_filter.1 hx).2⟩
      · intro r r' i ha hb
        simp only [settle, upd] at ha hb
        split at ha
        · cases ha
        · split at hb
          · cases hb
          · exact h5 r r' i ha hb
      · intro r n ha
        simp only [settle, upd] at ha
        split at ha
        · cases ha
        · exact h6 r n ha
      · exact fun x hx y hy => h8 x (mem_filt hx) y (mem_filt hy)
      · intro r ha
        simp only [settle, upd] at ha ⊢
        split
        · rename_i hh; rw [if_pos hh] at ha; exact absurd rfl ha
        · rename_i hh; simp only [hh, if_false] at ha; exact h7 r ha
    · cases e

theorem inv_run (as : List Act) : ∀ {s s' : State}, Inv s → run s as = some s' → Inv s' := by
  induction as with
  | nil => intro s s' h e; obtain rfl := Option.some.inj e; exact h
  | cons a as ih =>
    intro s s' h e
    rw [run_cons] at e
    cases h1 : step s a with
    | none => rw [h1] at e; cases e
    | some t => rw [h1] at e; exact ih (inv_step h h1) e

/-- **C104 fails:** if a program with a server starts another program, then, as long as that one runs, the server is reported although it was destroyed or its process has ended, its clients do not read the
    end of their streams, and the program, or any other with its process id, cannot have a server again. In every history, whatever else happens. -/
theorem inherited_keeps_server (as bs : List Act) (s s1 s2 s' : State) (p q : Nat) (e : run {} as = some s) (hs : .listen p ∈ s.own p) (e1 : step s (.spawn p q) = some s1)
    (e2 : step s1 (.destroy p) = some s2 ∨ step s1 (.exit p) = some s2) (hq : Stays q bs) (e3 : run s2 bs = some s') :
    listed s' p = true ∧ (∀ id, .conn id ∈ s.own p → eof s' id = false) ∧
    ∀ t, step s' (.serve p) = some t → p ∈ t.refused ∧ t.own p = [] := by
  have hi := inv_run as inv_init e
  have hi1 := inv_step hi e1
  have hi2 : Inv s2 := by rcases e2 with e2 | e2 <;> exact inv_step hi1 e2
  simp only [step] at e1
  split at e1
  · rename_i hpq
    obtain rfl := Option.some.inj e1
    have hne : q ≠ p := fun hh => hpq.2 (hh ▸ hpq.1)
    have hq2 : q ∈ s2.procs ∧ s2.fds q = s.fds p ∧ s2.own q = [] ∧ s2.next = s.next := by
      rcases e2 with e2 | e2
      · simp only [step] at e2
        split at e2
        · obtain rfl := Option.some.inj e2
          simp [settle, upd, hne]
        · cases e2
      · simp only [step] at e2
        split at e2
        · obtain rfl := Option.some.inj e2
          simp [settle, upd, hne]
        · cases e2
    obtain ⟨b1, b2, b3, b4⟩ := hq2
    have hl : listed s' p = true := by
      obtain ⟨c1, c2⟩ := kept_run (k := .listen p) bs hq e3 b1 (b2 ▸ hi.owned p _ hs) (by rw [b3]; simp) (fun id h => by cases h) (fun n h => by cases h; exact hne.symm) (fun id h => by cases h)
      exact listed_iff.2 ⟨q, c1, c2⟩
    refine ⟨hl, ?_, ?_⟩
    · intro id hid
      have hf : Sock.conn id ∈ s2.fds q := b2 ▸ hi.owned p _ hid
      obtain ⟨c1, c2⟩ := kept_run (k := .conn id) bs hq e3 b1 hf (by rw [b3]; simp) (fun i h => by cases h; exact (hi2.conns q id hf).2) (fun n h => by cases h)
        (fun i h => by cases h; exact (hi2.conns q id hf).1)
      have : held s' id = true := held_iff.2 ⟨q, c1, c2⟩
      simp [eof, this]
    · intro t et
      simp only [step] at et
      split at et
      · rename_i h
        simp only [hl, if_true, Option.some.injEq] at et
        subst et
        exact ⟨List.mem_cons_self, h.2⟩
      · cases et
  · cases e1

/-- A program with a server and a client starts babeltrace and ends; a program that gets its process id wants to have a server. -/
example : ∃ s, run {} [.start 1, .serve 1, .connect 1, .accept 1 0, .spawn 1 2, .exit 1, .connect 1, .start 1, .serve 1] = some s ∧ listed s 1 = true ∧ eof s 0 = false ∧ eof s 1 = false ∧ s.own 1 = [] ∧
    s.refused = [1] := ⟨_, rfl, rfl, rfl, rfl, rfl, rfl⟩

theorem not_Gone : ¬ Gone := fun h => by
  have := (h [.start 1, .serve 1, .spawn 1 2, .exit 1] _ rfl).1 1 rfl
  simp [settle, upd] at this

/-- In this history no process that has a server starts another one. -/
def Quiet (as : List Act) : Prop := ∀ p q, Act.spawn p q ∈ as → Act.serve p ∉ as

/-- The invariant of such histories: processes hold only the sockets of their own server. -/
structure QInv (A : List Act) (s : State) : Prop where
  same : ∀ r, s.fds r = s.own r
  served : ∀ r, s.own r ≠ [] → Act.serve r ∈ A
  fine : s.refused = []

theorem q_init (A : List Act) : QInv A {} := ⟨fun _ => rfl, fun _ h => absurd rfl h, rfl⟩

theorem q_step {A : List Act} (hA : Quiet A) {s s' : State} (h : Inv s) (hq : QInv A s) {a : Act} (ha : a ∈ A) (e : step s a = some s') : QInv A s' := by
  obtain ⟨q1, q2, q3⟩ := hq
  cases a with
  | start p =>
    simp only [step] at e
    split at e
    · obtain rfl := Option.some.inj e
      refine ⟨?_, ?_, q3⟩
      · intro r; simp only [upd]; split
        · rfl
        · exact q1 r
      · intro r hr; simp only [upd] at hr; split at hr
        · exact absurd rfl hr
        · exact q2 r hr
    · cases e
  | serve p =>
    simp only [step] at e
    split at e
    · rename_i hp
      split at e
      · rename_i hl
        obtain ⟨r, hr, hm⟩ := listed_iff.1 hl
        rw [q1 r] at hm
        have := h.name r p hm
        subst this
        rw [hp.2] at hm; cases hm
      · obtain rfl := Option.some.inj e
        refine ⟨?_, ?_, q3⟩
        · intro r; simp only [upd]; split
          · rw [q1 p, hp.2]
          · exact q1 r
        · intro r hr; simp only [upd] at hr; split at hr
          · rename_i hh; rw [hh]; exact ha
          · exact q2 r hr
    · cases e
  | connect p =>
    simp only [step] at e
    split at e
    · obtain rfl := Option.some.inj e
      exact ⟨q1, q2, q3⟩
    · cases e
  | accept p id =>
    simp only [step] at e
    split at e
    · rename_i hp
      obtain rfl := Option.some.inj e
      refine ⟨?_, ?_, q3⟩
      · intro r; simp only [upd]; split
        · rw [q1 p]
        · exact q1 r
      · intro r hr; simp only [upd] at hr; split at hr
        · rename_i hh; rw [hh]; exact q2 p (List.ne_nil_of_mem hp.2.1)
        · exact q2 r hr
    · cases e
  | spawn p q =>
    simp only [step] at e
    split at e
    · obtain rfl := Option.some.inj e
      have : s.own p = [] := Classical.byContradiction fun hh => hA p q ha (q2 p hh)
      refine ⟨?_, ?_, q3⟩
      · intro r; simp only [upd]; split
        · rw [q1 p, this]
        · exact q1 r
      · intro r hr; simp only [upd] at hr; split at hr
        · exact absurd rfl hr
        · exact q2 r hr
    · cases e
  | destroy p =>
    simp only [step] at e
    split at e
    · obtain rfl := Option.some.inj e
      refine ⟨?_, ?_, q3⟩
      · intro r; simp only [settle, upd]; split
        · rw [q1 p, List.filter_eq_nil_iff]; simp
        · exact q1 r
      · intro r hr; simp only [settle, upd] at hr; split at hr
        · exact absurd rfl hr
        · exact q2 r hr
    · cases e
  | exit p =>
    simp only [step] at e
    split at e
    · obtain rfl := Option.some.inj e
      refine ⟨?_, ?_, q3⟩
      · intro r; simp only [settle, upd]; split
        · rfl
        · exact q1 r
      · intro r hr; simp only [settle, upd] at hr; split at hr
        · exact absurd rfl hr
        · exact q2 r hr
    · cases e

theorem q_run {A : List Act} (hA : Quiet A) (as : List Act) : ∀ {s s' : State}, (∀ a ∈ as, a ∈ A) → Inv s → QInv A s → run s as = some s' → QInv A s' := by
  induction as with
  | nil => intro s s' _ _ h e; obtain rfl := Option.some.inj e; exact h
  | cons a as ih =>
    intro s s' hs h hq e
    rw [run_cons] at e
    cases h1 : step s a with
    | none => rw [h1] at e; cases e
    | some t =>
      rw [h1] at e
      exact ih (fun b hb => hs b (List.mem_cons_of_mem _ hb)) (inv_step h h1) (q_step hA h hq (hs a List.mem_cons_self) h1) e

/-- **C104, partial.** It holds in histories in which no process that has, or had, a server starts another one: exactly the processes that have a server are reported, when a server is destroyed or its process
    ends, each of its clients reads the end of the stream, those that were not accepted too, and `transportServer` does not fail. Missing: histories in which such processes start others; see above. -/
theorem gone_partial (as : List Act) (hA : Quiet as) (s : State) (e : run {} as = some s) :
    (∀ p, listed s p = true ↔ p ∈ s.procs ∧ .listen p ∈ s.own p) ∧
    (∀ p id a s', .conn id ∈ s.own p ∨ .listen p ∈ s.own p ∧ (p, id) ∈ s.queue → (a = .destroy p ∨ a = .exit p) → step s a = some s' → eof s' id = true) ∧
    s.refused = [] := by
  have hi := inv_run as inv_init e
  have hq := q_run hA as (fun _ h => h) inv_init (q_init as) e
  have hl : ∀ p, listed s p = true ↔ p ∈ s.procs ∧ .listen p ∈ s.own p := by
    intro p
    rw [listed_iff]
    constructor
    · rintro ⟨r, hr, hm⟩
      rw [hq.same r] at hm
      have := hi.name r p hm
      subst this
      exact ⟨hr, hm⟩
    · rintro ⟨h1, h2⟩
      exact ⟨p, h1, hi.owned p _ h2⟩
  refine ⟨hl, ?_, hq.fine⟩
  intro p id a s' hid ha est
  -- who holds the connection afterwards, and what is in the queue
  have hlt : id < s.next := by
    rcases hid with h | h
    · exact (hi.conns p id (hi.owned p _ h)).1
    · exact (hi.queued _ h.2).1
  have key : s'.next = s.next ∧ (∀ r, Sock.conn id ∈ s'.fds r → r ≠ p ∧ Sock.conn id ∈ s.own r) ∧ (∀ x ∈ s'.queue, x ∈ s.queue ∧ listed s' x.1 = true) ∧
      (∀ r, Sock.listen p ∈ s'.fds r → r ≠ p ∧ Sock.listen p ∈ s.own r) := by
    rcases ha with rfl | rfl
    · simp only [step] at est
      split at est
      · obtain rfl := Option.some.inj est
        refine ⟨rfl, ?_, ?_, ?_⟩
        · intro r hr
          simp only [settle, upd] at hr
          split at hr
          · rw [hq.same p] at hr; simp at hr
          · rename_i hh; exact ⟨hh, hq.same r ▸ hr⟩
        · intro x hx; exact ⟨mem_filt hx, (List.mem_filter.1 hx).2⟩
        · intro r hr
          simp only [settle, upd] at hr
          split at hr
          · rw [hq.same p] at hr; simp at hr
          · rename_i hh; exact ⟨hh, hq.same r ▸ hr⟩
      · cases est
    · simp only [step] at est
      split at est
      · obtain rfl := Option.some.inj est
        refine ⟨rfl, ?_, ?_, ?_⟩
        · intro r hr
          simp only [settle, upd] at hr
          split at hr
          · cases hr
          · rename_i hh; exact ⟨hh, hq.same r ▸ hr⟩
        · intro x hx; exact ⟨mem_filt hx, (List.mem_filter.1 hx).2⟩
        · intro r hr
          simp only [settle, upd] at hr
          split at hr
          · cases hr
          · rename_i hh; exact ⟨hh, hq.same r ▸ hr⟩
      · cases est
  obtain ⟨k1, k2, k3, k4⟩ := key
  have hnl : listed s' p = false := by
    cases hh : listed s' p with
    | false => rfl
    | true =>
      obtain ⟨r, _, hm⟩ := listed_iff.1 hh
      obtain ⟨m1, m2⟩ := k4 r hm
      exact absurd (hi.name r p m2).symm m1
  have hnh : held s' id = false := by
    cases hh : held s' id with
    | false => rfl
    | true =>
      obtain ⟨r, _, hm⟩ := held_iff.1 hh
      obtain ⟨m1, m2⟩ := k2 r hm
      rcases hid with h | h
      · exact absurd (hi.unique r p id m2 h) m1
      · exact absurd rfl ((hi.conns r id (hi.owned r _ m2)).2 _ h.2)
  have hnq : (s'.queue.any fun x => x.2 == id) = false := by
    rw [List.any_eq_false]
    intro x hx
    obtain ⟨m1, m2⟩ := k3 x hx
    simp only [beq_iff_eq]
    intro hxid
    rcases hid with h | h
    · exact (hi.conns p id (hi.owned p _ h)).2 x m1 hxid
    · have := hi.single x m1 _ h.2 hxid
      rw [this, hnl] at m2
      cases m2
  simp [eof, k1, hlt, hnh, hnq]

/-- Two programs with servers; one starts others first, and then one of the servers ends with a client that was accepted and one that was not. -/
example : ∃ s, Quiet [.start 1, .serve 1, .start 2, .start 4, .spawn 4 3, .serve 2, .connect 1, .accept 1 0, .connect 1, .connect 2, .exit 1] ∧
    run {} [.start 1, .serve 1, .start 2, .start 4, .spawn 4 3, .serve 2, .connect 1, .accept 1 0, .connect 1, .connect 2, .exit 1] = some s ∧
    listed s 1 = false ∧ eof s 0 = true ∧ eof s 1 = true ∧ listed s 2 = true ∧ eof s 2 = false :=
  ⟨_, by intro p q; simp; rintro rfl rfl; simp, rfl, rfl, rfl, rfl, rfl, rfl⟩

end Scalopus.C104
