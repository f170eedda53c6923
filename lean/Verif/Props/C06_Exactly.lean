import Verif.Proofs.UnixOwn
import Verif.Props.C06_Requests

/-!
# C06: each request on its own
-/

namespace Scalopus.C06

open Protocol Unix Spec.Requests

/-- At some point of the schedule, the client's worker looks up a message with the id of call `r`, while this call has sent its message and has not stored its promise yet, and the client's endpoint of that name
    answers the message. -/
def AnsweredEarly (as : List Act) (r : Nat) : Prop :=
  ∃ pre d post m q, as = pre ++ .dispatch (some d) :: post ∧ (run init pre).received = some m ∧ (run init pre).reqs[r]? = some q ∧ q.pc = .sent ∧ m.requestId = q.id ∧
    m.endpoint ∈ (run init pre).clientEndpoints

theorem msgFor_run (as : List Act) (r : Nat) (hn : (run init as).reqs.length < 2 ^ 64) (he : ¬ AnsweredEarly as r) : MsgFor (run init as) r := by
  induction as using List.reverseRecOn with
  | nil => exact msgFor_init r
  | append_singleton as a ih =>
    have e : run init (as ++ [a]) = step (run init as) a := by rw [run_append]; rfl
    rw [e] at hn ⊢
    have hl : (run init as).reqs.length < 2 ^ 64 := Nat.lt_of_le_of_lt (length_run (run init as) [a]) hn
    have he' : ¬ AnsweredEarly as r := by
      rintro ⟨pre, d, post, m, q, rfl, h⟩
      exact he ⟨pre, d, post ++ [a], m, q, by simp, h⟩
    refine msgFor_step (idInv_run idInv_init as) hl (mapInv_run as hl) (knownInv_run as) (ih hl he') a fun d m q ha hr hq hp hc hid => ?_
    subst ha
    exact he ⟨as, d, [], m, q, rfl, hr, hq, hp, hid.symm, hc⟩

/-- **C06, each request on its own.** For any number of clients, any schedule and fewer than `2^64` requests per client, whatever happens to other requests: the value in the future of a request is what
    the server's endpoint of the requested name returned for this very request, unless an endpoint of the client answered the response to this very request before its call had stored the promise. -/
theorem own_answer_partial (as : List (Nat × Act)) (i : Nat) (hn : (sysRun start as i).reqs.length < 2 ^ 64) (r : Nat)
    (he : ¬ AnsweredEarly (as.filterMap fun a => if a.1 = i then some a.2 else none) r)
    (q : Req) (d : Bytes) (hr : (sysRun start as i).reqs[r]? = some q) (hv : q.fut = .value d) : AnsweredBy (sysRun start as i).calls q d := by
  rw [sysRun_apply] at *
  exact (msgFor_run _ r hn he).val q d hr hv

/-- **C06, when a request gets the answer to something else.** Then an endpoint of the client answered the response to it too early. -/
theorem foreign_only_if_early (as : List Act) (hn : (run init as).reqs.length < 2 ^ 64) (r : Nat) (q : Req) (d : Bytes) (hr : (run init as).reqs[r]? = some q) (hv : q.fut = .value d)
    (hf : ¬ AnsweredBy (run init as).calls q d) : AnsweredEarly as r :=
  Classical.byContradiction fun he => hf ((msgFor_run as r hn he).val q d hr hv)

/-- A program whose endpoints leave what they did not ask for unanswered, as the endpoints of the library do, never gets a foreign answer. -/
theorem silent_endpoints (as : List Act) (hn : (run init as).reqs.length < 2 ^ 64) (hs : ∀ d, .dispatch (some d) ∉ as) (r : Nat) (q : Req) (d : Bytes)
    (hr : (run init as).reqs[r]? = some q) (hv : q.fut = .value d) : AnsweredBy (run init as).calls q d :=
  (msgFor_run as r hn fun ⟨_, d, _, _, _, e, _⟩ => hs d (by rw [e]; simp)).val q d hr hv

/-- The first request gets a foreign answer, the second, which is made meanwhile, its own. -/
def mixed : List Act := foreignSchedule ++ [.request [101] [3], .send 1 true, .register 1, .serve (some [30]), .receive, .dispatch none]

example : (run init mixed).reqs.map (·.fut) = [.value [20], .value [30]] ∧ AnsweredEarly mixed 0 :=
  ⟨by decide, [.addServerEndpoint [101], .addClientEndpoint [101], .request [101] [1], .send 0 true, .serve (some [10]), .receive], [2],
    [.register 0, .serve (some [20]), .receive, .dispatch none, .request [101] [3], .send 1 true, .register 1, .serve (some [30]), .receive, .dispatch none],
    { requestId := 1, endpoint := [101], data := [10] }, { endpoint := [101], payload := [1], id := 1, pc := .sent }, rfl, by decide, by decide, rfl, rfl, by decide⟩

/-- The hypothesis of `own_answer_partial` is met for the second one. -/
example : ¬ AnsweredEarly mixed 1 := by
  rintro ⟨pre, d, post, m, q, h, h1, h2, h3, h4, h5⟩
  have hl : pre.length = 6 := by
    have hlen := congrArg List.length h
    have hget := congrArg (fun l => l[pre.length]?) h
    simp only [List.length_append, List.length_cons] at hlen
    rw [List.getElem?_append_right (Nat.le_refl _)] at hget
    have hlt : pre.length < 17 := by
      have : mixed.length = 17 := rfl
      omega
    simp only [Nat.sub_self, List.getElem?_cons_zero] at hget
    generalize pre.length = n at hget hlt
    have key : ∀ n < 17, (match mixed[n]? with | some (.dispatch (some _)) => true | _ => false) = true → n = 6 := by decide
    exact key n hlt (by rw [hget])
  have hp : pre = mixed.take 6 := by rw [h, ← hl]; simp
  subst hp
  have : (run init (mixed.take 6)).reqs[1]? = none := by decide
  rw [this] at h2; cases h2

end Scalopus.C06
