import Verif.Proofs.UnixEach
import Verif.Props.C06_Requests

/-!
# C07: exactly which requests never become ready
-/

namespace Scalopus.C07

open Protocol Unix Spec.Requests

/-- At some point of the schedule, the client's worker looks up a message with the id of call `r`, while this call has sent its message and has not stored its promise yet. -/
def LookedUpEarly (as : List Act) (r : Nat) : Prop :=
  ∃ pre rep post m q, as = pre ++ .dispatch rep :: post ∧ (run init pre).received = some m ∧ (run init pre).reqs[r]? = some q ∧ q.pc = .sent ∧ m.requestId = q.id

theorem early_append {as : List Act} {r : Nat} (h : LookedUpEarly as r) (bs : List Act) : LookedUpEarly (as ++ bs) r := by
  obtain ⟨pre, rep, post, m, q, rfl, h⟩ := h
  exact ⟨pre, rep, post ++ bs, m, q, by simp, h⟩

theorem ansFor_run (as : List Act) (r : Nat) (hn : (run init as).reqs.length < 2 ^ 64) (he : ¬ LookedUpEarly as r) : KnownInv (run init as) ∧ AnsFor (run init as) r := by
  induction as using List.reverseRecOn with
  | nil => exact ⟨knownInv_init, fun q d hq => by simp [run, init] at hq⟩
  | append_singleton as a ih =>
    have e : run init (as ++ [a]) = step (run init as) a := by rw [run_append]; rfl
    rw [e] at hn ⊢
    have hl : (run init as).reqs.length < 2 ^ 64 := Nat.lt_of_le_of_lt (length_run (run init as) [a]) hn
    obtain ⟨h1, h2⟩ := ih hl (fun h => he (early_append h [a]))
    refine ⟨knownInv_step h1 a, ansFor_step (idInv_run idInv_init as) hl (mapInv_run as hl) h1 h2 a fun d m q ha hr hq hp hid => ?_⟩
    subst ha
    exact he ⟨as, d, [], m, q, rfl, hr, hq, hp, hid.symm⟩

/-- **C07, each request on its own.** Whatever happens to other requests: if the response to this one is not looked up before its call has stored the promise, then from the moment the server has answered it,
    every continuation in which the client's worker makes enough steps ends with the future ready, or dropped by the caller. -/
theorem each_completes_partial (as : List Act) (r : Nat) (hreg : ¬ LookedUpEarly as r) (q : Req) (d : Bytes)
    (hq : (run init as).reqs[r]? = some q) (hp : q.pc = .registered) (ha : AnsweredBy (run init as).calls q d)
    (bs : List Act) (hn : (run init (as ++ bs)).reqs.length < 2 ^ 64)
    (hsteps : 2 * ((run init as).toClient.length + 1) ≤ workerSteps (run init as) bs) :
    Resolved (run init (as ++ bs)) r := by
  rw [run_append] at *
  have hn' := Nat.lt_of_le_of_lt (length_run _ bs) hn
  have hi := idInv_run idInv_init as
  have hm := mapInv_run as hn'
  have hans := (ansFor_run as r hn' hreg).2
  by_cases hres : Resolved (run init as) r
  · exact resolved_run bs hi hm hn hres
  · rcases hans q d hq (Or.inr hp) ha with ⟨m, hmem, he, hid⟩ | hv | hh
    · obtain ⟨k, hk⟩ := List.getElem?_of_mem hmem
      have hheld : q.held = true := by
        cases h : q.held
        · exact absurd ⟨q, hq, Or.inr h⟩ hres
        · rfl
      have hw : q.fut = .waiting := by
        cases h : q.fut with
        | waiting => rfl
        | value d => exact absurd ⟨q, hq, Or.inl ⟨d, h⟩⟩ hres
        | error => exact absurd h (hm.noError r q hq hp)
      refine onTheWay_run bs hi hm hn (k := k) ⟨q, m, hq, hheld, hm.kept r q hq hp hw hheld, hk, he, hid⟩ ?_
      have hlt := (List.getElem?_eq_some_iff.1 hk).1
      simp only [incoming, List.length_append] at hlt
      unfold left
      cases hrec : (run init as).received with
      | none => rw [hrec] at hlt; simp at hlt ⊢; omega
      | some m => rw [hrec] at hlt; simp at hlt ⊢; omega
    · exact absurd ⟨q, hq, Or.inl hv⟩ hres
    · exact absurd ⟨q, hq, Or.inr hh⟩ hres

/-- **C07, exactly.** The server has answered a request, the call has returned, its future is held and everything on the wire has been delivered: the future is not ready exactly if a response with the id of
    the request was looked up before the call had stored its promise. (If endpoints of the client answer responses that they get, such a request can also become ready with the answer to something
    else: `C06.every_request_can_be_misanswered`.) -/
theorem hangs_iff (as : List Act) (hn : (run init as).reqs.length < 2 ^ 64) (hrep : ∀ d, .dispatch (some d) ∉ as) (hc : (run init as).toClient = []) (hr : (run init as).received = none)
    (r : Nat) (q : Req) (d : Bytes) (hq : (run init as).reqs[r]? = some q) (hp : q.pc = .registered) (hh : q.held = true) (ha : AnsweredBy (run init as).calls q d) :
    (¬ ∃ d, q.fut = .value d) ↔ LookedUpEarly as r := by
  constructor
  · intro h
    refine Classical.byContradiction fun he => ?_
    rcases (ansFor_run as r hn he).2 q d hq (Or.inr hp) ha with ⟨m, hm, -⟩ | hv | hh'
    · simp [incoming, hc, hr] at hm
    · exact h hv
    · rw [hh] at hh'; cases hh'
  · rintro ⟨pre, rep, post, m, q0, rfl, h1, h2, h3, h4⟩ ⟨d', hd⟩
    cases rep with
    | some x => exact hrep x (by simp)
    | none =>
      obtain ⟨q', g1, g2⟩ := early_lookup_hangs pre r q0 m none post h2 h3 h1 h4 (Or.inl rfl) hn
      rw [hq] at g1
      obtain rfl := Option.some.inj g1
      rw [hd] at g2; cases g2

/-- **C07, exactly, for ever.** And then it never becomes ready, whatever happens later. -/
theorem never_ready_iff (as : List Act) (hn : (run init as).reqs.length < 2 ^ 64) (hrep : ∀ d, .dispatch (some d) ∉ as) (hc : (run init as).toClient = []) (hr : (run init as).received = none)
    (r : Nat) (q : Req) (d : Bytes) (hq : (run init as).reqs[r]? = some q) (hp : q.pc = .registered) (hh : q.held = true) (ha : AnsweredBy (run init as).calls q d) :
    (∀ bs, (run init (as ++ bs)).reqs.length < 2 ^ 64 → ∃ q', (run init (as ++ bs)).reqs[r]? = some q' ∧ q'.fut = .waiting) ↔ LookedUpEarly as r := by
  constructor
  · intro h
    rw [← hangs_iff as hn hrep hc hr r q d hq hp hh ha]
    rintro ⟨d', hd⟩
    obtain ⟨q', g1, g2⟩ := h [] (by simpa using hn)
    rw [List.append_nil, hq] at g1
    obtain rfl := Option.some.inj g1
    rw [hd] at g2; cases g2
  · rintro ⟨pre, rep, post, m, q0, rfl, h1, h2, h3, h4⟩ bs hbs
    cases rep with
    | some x => exact absurd (by simp) (hrep x)
    | none =>
      rw [List.append_assoc, List.cons_append] at hbs ⊢
      exact early_lookup_hangs pre r q0 m none (post ++ bs) h2 h3 h1 h4 (Or.inl rfl) hbs

/-- Two requests: the response to the first is looked up early, the second gets its own in time. -/
def oneEarly : List Act :=
  [.addServerEndpoint [101], .request [101] [1], .request [101] [2], .send 0 true, .serve (some [10]), .receive, .dispatch none, .register 0, .send 1 true, .register 1, .serve (some [20]), .receive, .dispatch none]

example : (run init oneEarly).toClient = [] ∧ (run init oneEarly).received = none ∧
    (run init oneEarly).reqs.map (fun q => (q.pc, q.fut, q.held)) = [(.registered, .waiting, true), (.registered, .value [20], true)] ∧ LookedUpEarly oneEarly 0 :=
  ⟨by decide, by decide, by decide, [.addServerEndpoint [101], .request [101] [1], .request [101] [2], .send 0 true, .serve (some [10]), .receive], none,
    [.register 0, .send 1 true, .register 1, .serve (some [20]), .receive, .dispatch none], { requestId := 1, endpoint := [101], data := [10] }, { endpoint := [101], payload := [1], id := 1, pc := .sent },
    rfl, by decide, by decide, rfl, rfl⟩

/-- The hypotheses of `hangs_iff` are met for both. -/
example : ¬ LookedUpEarly oneEarly 1 := by
  rw [← hangs_iff oneEarly (by decide) (by simp [oneEarly]) (by decide) (by decide) 1 { endpoint := [101], payload := [2], id := 2, pc := .registered, fut := .value [20] } [20] (by decide) rfl rfl
    (by unfold AnsweredBy; decide)]
  exact fun h => h ⟨[20], rfl⟩

end Scalopus.C07
