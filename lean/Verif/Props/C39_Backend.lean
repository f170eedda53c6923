import Verif.Model.Backend
import Verif.Proofs.Assoc
import Mathlib.Data.List.Pairwise

/-!
# C39: viewer sessions are isolated
-/

namespace Scalopus.C39

open Backend
open Assoc

variable {δ : Type}

/-- Each open websocket has the session made for it. -/
theorem sessions_eq {s : State δ} (h : Reachable s) : s.sessions = s.opened := by
  induction h with
  | init => rfl
  | @step s s' a _ e ih =>
    cases a with
    | connect p =>
      simp only [Backend.step] at e
      split at e
      · cases e
      · rename_i hn
        cases hl : s.sessions.lookup p with
        | some x => rw [ih] at hl; rw [hl] at hn; simp at hn
        | none =>
          rw [hl] at e
          simp only [Option.some.injEq, Res.ok.injEq] at e
          subst e
          simp [ih]
    | disconnect p =>
      simp only [Backend.step] at e
      split at e
      · simp only [Option.some.injEq, Res.ok.injEq] at e
        subst e
        simp [ih]
      · cases e
    | data p d =>
      simp only [Backend.step] at e
      split at e
      · cases e
      · split at e <;> simp only [Option.some.injEq, Res.ok.injEq] at e <;> subst e <;> exact ih
    | reply n d =>
      simp only [Backend.step] at e
      split at e
      · cases e
      · simp only [Option.some.injEq, Res.ok.injEq] at e
        subst e; exact ih
    | run =>
      simp only [Backend.step] at e
      split at e
      · cases e
      · split at e
        · simp only [Option.some.injEq, Res.ok.injEq] at e
          subst e; exact ih
        · split at e <;> simp only [Option.some.injEq, Res.ok.injEq, reduceCtorEq] at e
          subst e; exact ih

/-- **C39, no use of closed connections.** In no history is anything sent over a websocket that is gone. -/
theorem never_sends_to_closed {s : State δ} (h : Reachable s) (a : Act δ) : step s a ≠ some .ub := by
  have hs := sessions_eq h
  cases a with
  | connect p => simp only [step]; split <;> (try split) <;> simp
  | disconnect p => simp only [step]; split <;> simp
  | data p d => simp only [step]; split <;> (try split) <;> simp
  | reply n d => simp only [step]; split <;> simp
  | run =>
    simp only [step]
    split
    · simp
    · rename_i p n d q hq
      cases hl : s.sessions.lookup p with
      | none => simp
      | some x =>
        rw [hs] at hl
        simp [hl]

/-- **C39, data.** Data received on a connection is only given to the session of this connection. -/
theorem data_to_own_session {s : State δ} (h : Reachable s) : ∀ x ∈ s.received, x.1 = x.2.1 := by
  induction h with
  | init => simp
  | @step s s' a hr e ih =>
    have hs := sessions_eq hr
    cases a with
    | connect p =>
      simp only [Backend.step] at e
      split at e
      · cases e
      · split at e <;> simp only [Option.some.injEq, Res.ok.injEq] at e <;> subst e <;> exact ih
    | disconnect p =>
      simp only [Backend.step] at e
      split at e
      · simp only [Option.some.injEq, Res.ok.injEq] at e
        subst e; exact ih
      · cases e
    | data p d =>
      simp only [Backend.step] at e
      split at e
      · cases e
      · rename_i c hc
        rw [hs, hc] at e
        simp only [Option.some.injEq, Res.ok.injEq] at e
        subst e
        intro x hx
        simp only [List.mem_append, List.mem_singleton] at hx
        rcases hx with hx | rfl
        · exact ih x hx
        · rfl
    | reply n d =>
      simp only [Backend.step] at e
      split at e
      · cases e
      · simp only [Option.some.injEq, Res.ok.injEq] at e
        subst e; exact ih
    | run =>
      simp only [Backend.step] at e
      split at e
      · cases e
      · split at e
        · simp only [Option.some.injEq, Res.ok.injEq] at e
          subst e; exact ih
        · split at e <;> simp only [Option.some.injEq, Res.ok.injEq, reduceCtorEq] at e
          subst e; exact ih

/-- **C39, data is not lost.** Data that arrives on an open connection is given to a session. -/
theorem data_is_given {s : State δ} (h : Reachable s) (p c : Nat) (hc : s.opened.lookup p = some c) (d : δ) :
    step s (.data p d) = some (.ok { s with received := s.received ++ [(c, c, d)] }) := by
  have hs := sessions_eq h
  simp only [step]
  rw [hc, hs, hc]

/-- **C39, order.** Replies are dealt with in the order in which they were made, each once; those that were sent are the ones marked so. -/
theorem replies_in_order {s : State δ} (h : Reachable s) :
    s.replies = s.handled.map (fun x => x.1) ++ s.queue.map (fun x => x.2) ∧ s.sent.map (fun x => x.2) = (s.handled.filter fun x => x.2).map fun x => x.1 := by
  induction h with
  | init => exact ⟨rfl, rfl⟩
  | @step s s' a hr e ih =>
    cases a with
    | connect p =>
      simp only [Backend.step] at e
      split at e
      · cases e
      · split at e <;> simp only [Option.some.injEq, Res.ok.injEq] at e <;> subst e <;> exact ih
    | disconnect p =>
      simp only [Backend.step] at e
      split at e
      · simp only [Option.some.injEq, Res.ok.injEq] at e
        subst e; exact ih
      · cases e
    | data p d =>
      simp only [Backend.step] at e
      split at e
      · cases e
      · split at e <;> simp only [Option.some.injEq, Res.ok.injEq] at e <;> subst e <;> exact ih
    | reply n d =>
      simp only [Backend.step] at e
      split at e
      · cases e
      · simp only [Option.some.injEq, Res.ok.injEq] at e
        subst e
        exact ⟨by simp [ih.1], ih.2⟩
    | run =>
      simp only [Backend.step] at e
      split at e
      · cases e
      · rename_i p n d q hq
        rw [hq] at ih
        split at e
        · simp only [Option.some.injEq, Res.ok.injEq] at e
          subst e
          exact ⟨by simp [ih.1], by simp [ih.2]⟩
        · split at e <;> simp only [Option.some.injEq, Res.ok.injEq, reduceCtorEq] at e
          subst e
          exact ⟨by simp [ih.1], by simp [ih.2]⟩

/-- **C39, replies** in full: what is sent on a connection was made by the session of this connection. -/
def RepliesIsolated : Prop := ∀ s : State Nat, Reachable s → ∀ x ∈ s.sent, x.1 = x.2.1

/-- **C39 fails** for replies: if a viewer disconnects while a reply waits and the address of its websocket is used again, the reply goes to the new connection. -/
theorem reply_to_other_connection : ¬ RepliesIsolated := by
  intro h
  have r : ∃ s : State Nat, Reachable s ∧ (1, 0, 42) ∈ s.sent := by
    refine ⟨_, .step (.step (.step (.step (.step .init (a := .connect 5) rfl) (a := .reply 0 42) rfl) (a := .disconnect 5) rfl) (a := .connect 5) rfl) (a := .run) rfl, ?_⟩
    decide
  obtain ⟨s, h1, h2⟩ := r
  exact absurd (h s h1 _ h2) (by decide)

/-- A run of the backend. -/
inductive Path : State δ → State δ → Prop
  | refl (s : State δ) : Path s s
  | head {s s1 s2 : State δ} {a : Act δ} : step s a = some (.ok s1) → Path s1 s2 → Path s s2

/-- The server thread runs what waits in the executor, and what is for an open websocket is sent over it. -/
theorem drains (p c n : Nat) (d : δ) : ∀ (q : List (Nat × Nat × δ)) (s : State δ), Reachable s → s.queue = q ++ [(p, n, d)] → s.opened.lookup p = some c → ∃ s', Path s s' ∧ (c, n, d) ∈ s'.sent := by
  intro q
  induction q with
  | nil =>
    intro s h hq hc
    have hs : s.sessions.lookup p = some c := by rw [sessions_eq h]; exact hc
    exact ⟨{ s with queue := [], sent := s.sent ++ [(c, n, d)], handled := s.handled ++ [((n, d), true)] }, .head (a := .run) (by simp [Backend.step, hq, hs, hc]) (.refl _), by simp⟩
  | cons x q ih =>
    obtain ⟨p', n', d'⟩ := x
    intro s h hq hc
    cases ho : s.opened.lookup p' with
    | none =>
      have hs : s.sessions.lookup p' = none := by rw [sessions_eq h]; exact ho
      have e : Backend.step s .run = some (.ok { s with queue := q ++ [(p, n, d)], handled := s.handled ++ [((n', d'), false)] }) := by simp [Backend.step, hq, hs]
      obtain ⟨s', h1, h2⟩ := ih _ (h.step e) rfl hc
      exact ⟨s', .head e h1, h2⟩
    | some c' =>
      have hs : s.sessions.lookup p' = some c' := by rw [sessions_eq h]; exact ho
      have e : Backend.step s .run = some (.ok { s with queue := q ++ [(p, n, d)], sent := s.sent ++ [(c', n', d')], handled := s.handled ++ [((n', d'), true)] }) := by simp [Backend.step, hq, hs, ho]
      obtain ⟨s', h1, h2⟩ := ih _ (h.step e) rfl hc
      exact ⟨s', .head e h1, h2⟩

theorem fresh_reachable {s : State δ} (h : ReachableFresh s) : Reachable s := by
  induction h with
  | init => exact .init
  | step _ _ e ih => exact .step ih e

theorem keys_and_values {s : State δ} (h : Reachable s) : (∀ x ∈ s.opened, x.2 < s.next) ∧ s.opened.Pairwise (fun a b => a.1 ≠ b.1 ∧ a.2 ≠ b.2) := by
  induction h with
  | init => simp
  | @step s s' a _ e ih =>
    obtain ⟨h1, h2⟩ := ih
    cases a with
    | connect p =>
      simp only [Backend.step] at e
      split at e
      · cases e
      · rename_i hn
        have key : (∀ x ∈ (p, s.next) :: s.opened, x.2 < s.next + 1) ∧ ((p, s.next) :: s.opened).Pairwise (fun a b => a.1 ≠ b.1 ∧ a.2 ≠ b.2) := by
          constructor
          · intro x hx
            rcases List.mem_cons.mp hx with rfl | hx
            · exact Nat.lt_succ_self _
            · exact Nat.lt_succ_of_lt (h1 x hx)
          · rw [List.pairwise_cons]
            refine ⟨?_, h2⟩
            intro x hx
            refine ⟨?_, fun hc => absurd (h1 x hx) (by rw [← hc]; simp)⟩
            intro hc
            simp only at hc
            cases hl : s.opened.lookup p with
            | none => exact (lookup_none.mp hl) (List.mem_map.mpr ⟨x, hx, hc.symm⟩)
            | some c => rw [hl] at hn; simp at hn
        split at e <;> simp only [Option.some.injEq, Res.ok.injEq] at e <;> subst e <;> exact key
    | disconnect p =>
      simp only [Backend.step] at e
      split at e
      · simp only [Option.some.injEq, Res.ok.injEq] at e
        subst e
        exact ⟨fun x hx => h1 x (List.mem_filter.mp hx).1, h2.filter _⟩
      · cases e
    | data p d =>
      simp only [Backend.step] at e
      split at e
      · cases e
      · split at e <;> simp only [Option.some.injEq, Res.ok.injEq] at e <;> subst e <;> exact ⟨h1, h2⟩
    | reply n d =>
      simp only [Backend.step] at e
      split at e
      · cases e
      · simp only [Option.some.injEq, Res.ok.injEq] at e
        subst e; exact ⟨h1, h2⟩
    | run =>
      simp only [Backend.step] at e
      split at e
      · cases e
      · split at e
        · simp only [Option.some.injEq, Res.ok.injEq] at e
          subst e; exact ⟨h1, h2⟩
        · split at e <;> simp only [Option.some.injEq, Res.ok.injEq, reduceCtorEq] at e
          subst e; exact ⟨h1, h2⟩

/-- **C39 fails for replies, every time.** In every state, and for every open connection: if its session replies, the viewer disconnects before the server thread has come to the reply, and the address of the
    websocket is used for the next connection, then the reply can be sent over that connection. -/
theorem every_reply_can_go_astray (s : State δ) (h : Reachable s) (p n : Nat) (hp : (p, n) ∈ s.opened) (d : δ) :
    ∃ s1 s2 s3 s', step s (.reply n d) = some (.ok s1) ∧ step s1 (.disconnect p) = some (.ok s2) ∧ step s2 (.connect p) = some (.ok s3) ∧ s3.opened.lookup p = some s.next ∧ s.next ≠ n ∧
      Path s3 s' ∧ (s.next, n, d) ∈ s'.sent := by
  obtain ⟨hlt, hpw⟩ := keys_and_values h
  have hf : s.sessions.find? (fun x => x.2 = n) = some (p, n) := by
    rw [sessions_eq h]
    cases hx : s.opened.find? (fun x => x.2 = n) with
    | none =>
      have := List.find?_eq_none.mp hx (p, n) hp
      simp at this
    | some x =>
      have h1 := List.mem_of_find?_eq_some hx
      have h2 : x.2 = n := by simpa using List.find?_some hx
      refine congrArg some (Classical.byContradiction fun hne => ?_)
      have sym : Std.Symm (fun a b : Nat × Nat => a.1 ≠ b.1 ∧ a.2 ≠ b.2) := ⟨fun _ _ hab => ⟨hab.1.symm, hab.2.symm⟩⟩
      exact (hpw.forall h1 hp hne).2 h2
  have hl : (s.opened.lookup p).isSome = true := by
    cases hx : s.opened.lookup p with
    | some _ => rfl
    | none => exact absurd (List.mem_map.mpr ⟨_, hp, rfl⟩) (Assoc.lookup_none.mp hx)
  let s1 : State δ := { s with queue := s.queue ++ [(p, n, d)], replies := s.replies ++ [(n, d)] }
  let s2 : State δ := { s1 with opened := s.opened.filter (fun x => x.1 ≠ p), sessions := s.sessions.filter (fun x => x.1 ≠ p) }
  let s3 : State δ := { s2 with opened := (p, s.next) :: s.opened.filter (fun x => x.1 ≠ p), next := s.next + 1, sessions := (p, s.next) :: s.sessions.filter (fun x => x.1 ≠ p) }
  have e1 : step s (.reply n d) = some (.ok s1) := by simp only [Backend.step, hf, s1]
  have e2 : step s1 (.disconnect p) = some (.ok s2) := by simp only [Backend.step, s1, s2, hl, if_true]
  have ho : (s.opened.filter (fun x => x.1 ≠ p)).lookup p = none := by rw [Assoc.lookup_filter]; simp
  have hs : (s.sessions.filter (fun x => x.1 ≠ p)).lookup p = none := by rw [Assoc.lookup_filter]; simp
  have e3 : step s2 (.connect p) = some (.ok s3) := by
    show (if (List.lookup p (s.opened.filter (fun x => x.1 ≠ p))).isSome then none else _) = _
    rw [ho]
    simp only [Option.isSome_none, Bool.false_eq_true, if_false]
    show (match List.lookup p (s.sessions.filter (fun x => x.1 ≠ p)) with | some _ => _ | none => _) = _
    rw [hs]
  obtain ⟨s', h1, h2⟩ := drains p s.next n d s.queue s3 (((h.step e1).step e2).step e3) rfl (by simp [s3])
  exact ⟨s1, s2, s3, s', e1, e2, e3, by simp [s3], fun he => absurd (hlt _ hp) (by simp [he]), h1, h2⟩

/-- With another connection, and replies that wait already. -/
example : ∃ s : State Nat, Reachable s ∧ (5, 0) ∈ s.opened ∧ s.queue = [(6, 1, 7), (5, 0, 8)] :=
  ⟨_, .step (.step (.step (.step .init (a := .connect 5) rfl) (a := .connect 6) rfl) (a := .reply 1 7) rfl) (a := .reply 0 8) rfl, by decide, rfl⟩

/-- **C39, replies, partial.** If addresses are not used again while replies for them wait, everything sent on a connection was made by the session of this connection.
    Missing: addresses that are used again earlier. -/
theorem replies_to_own_connection_partial {s : State δ} (h : ReachableFresh s) : ∀ x ∈ s.sent, x.1 = x.2.1 := by
  have key : (∀ x ∈ s.queue, ∀ c, s.opened.lookup x.1 = some c → c = x.2.1) ∧ ∀ x ∈ s.sent, x.1 = x.2.1 := by
    induction h with
    | init => simp
    | @step s s' a hr hf e ih =>
      obtain ⟨h1, h2⟩ := ih
      have hs := sessions_eq (fresh_reachable hr)
      have hk := keys_and_values (fresh_reachable hr)
      cases a with
      | connect p =>
        simp only [Backend.step] at e
        split at e
        · cases e
        · have key : ∀ x ∈ s.queue, ∀ c, ((p, s.next) :: s.opened).lookup x.1 = some c → c = x.2.1 := by
            intro x hx c hc
            rw [lookup_cons', if_neg (hf p rfl x hx)] at hc
            exact h1 x hx c hc
          split at e <;> simp only [Option.some.injEq, Res.ok.injEq] at e <;> subst e <;> exact ⟨key, h2⟩
      | disconnect p =>
        simp only [Backend.step] at e
        split at e
        · simp only [Option.some.injEq, Res.ok.injEq] at e
          subst e
          refine ⟨?_, h2⟩
          intro x hx c hc
          apply h1 x hx c
          simp only at hc
          rw [lookup_filter] at hc
          split at hc
          · cases hc
          · exact hc
        · cases e
      | data p d =>
        simp only [Backend.step] at e
        split at e
        · cases e
        · split at e <;> simp only [Option.some.injEq, Res.ok.injEq] at e <;> subst e <;> exact ⟨h1, h2⟩
      | reply n d =>
        simp only [Backend.step] at e
        cases hx : s.sessions.find? (fun x => x.2 = n) with
        | none => rw [hx] at e; cases e
        | some y =>
          rw [hx] at e
          simp only [Option.some.injEq, Res.ok.injEq] at e
          subst e
          refine ⟨?_, h2⟩
          intro x hx' c hc
          simp only [List.mem_append, List.mem_singleton] at hx'
          rcases hx' with hx' | rfl
          · exact h1 x hx' c hc
          · have m1 := List.mem_of_find?_eq_some hx
            have m2 := List.find?_some hx
            simp only [decide_eq_true_eq] at m2
            rw [hs] at m1
            have m3 := lookup_mem hc
            by_contra hne
            have : y ≠ (y.1, c) := by
              intro hc'
              have := congrArg Prod.snd hc'
              simp only at this
              exact hne (this ▸ m2)
            haveI hsym : Std.Symm (fun a b : Nat × Nat => a.1 ≠ b.1 ∧ a.2 ≠ b.2) := ⟨fun _ _ hab => ⟨hab.1.symm, hab.2.symm⟩⟩
            have := hk.2.forall m1 m3 this
            exact this.1 rfl
      | run =>
        simp only [Backend.step] at e
        split at e
        · cases e
        · rename_i p n d q hq
          split at e
          · simp only [Option.some.injEq, Res.ok.injEq] at e
            subst e
            exact ⟨fun x hx => h1 x (by rw [hq]; simp [hx]), h2⟩
          · split at e
            · simp only [Option.some.injEq, reduceCtorEq] at e
            · rename_i c hc
              simp only [Option.some.injEq, Res.ok.injEq] at e
              subst e
              refine ⟨fun x hx => h1 x (by rw [hq]; simp [hx]), ?_⟩
              intro x hx
              simp only [List.mem_append, List.mem_singleton] at hx
              rcases hx with hx | rfl
              · exact h2 x hx
              · exact h1 (p, n, d) (by rw [hq]; simp) c hc
  exact key.2

/-- A history that meets the condition, with two connections, an address that is used again, and replies. -/
example : ∃ s : State Nat, ReachableFresh s ∧ s.sent = [(0, 0, 42), (2, 2, 43)] := by
  refine ⟨_, .step (.step (.step (.step (.step (.step (.step (.step .init (a := .connect 5) (by simp) rfl) (a := .connect 6) (by simp) rfl)
    (a := .reply 0 42) (by simp) rfl) (a := .run) (by simp) rfl) (a := .disconnect 5) (by simp) rfl) (a := .connect 5) (by simp) rfl)
    (a := .reply 2 43) (by simp) rfl) (a := .run) (by simp) rfl, rfl⟩

end Scalopus.C39
