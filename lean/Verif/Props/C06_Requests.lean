import Verif.Proofs.UnixHangs
import Mathlib.Data.List.Perm.Subperm
import Mathlib.Data.List.Nodup

/-!
# C06-C09: requests over the unix transport
-/

namespace Scalopus.C06

open Protocol Unix Spec.Requests

/-- All clients start with a fresh connection to the server. -/
def start : System := fun _ => init

/-- The full property C06 (false, see `foreign_answer_possible`). -/
def AnswersBelongToRequests : Prop :=
  ∀ (as : List (Nat × Act)) (i : Nat), (sysRun start as i).reqs.length < 2 ^ 64 →
    ∀ (r : Nat) (q : Req) (d : Bytes), (sysRun start as i).reqs[r]? = some q → q.fut = .value d →
      AnsweredBy (sysRun start as i).calls q d

/-- **C06, partial.** For any number of clients, any schedule and fewer than `2^64` requests per client: a value in the
    future of a request is what the server's endpoint of the requested name returned for this request on this connection.
    Missing from the full property: schedules in which the response overtakes the bookkeeping of the requesting thread and
    the client's own endpoint of the same name then answers that response. -/
theorem answers_belong_to_requests_partial (as : List (Nat × Act)) (i : Nat)
    (hn : (sysRun start as i).reqs.length < 2 ^ 64)
    (hq : NoReplyWhileUnregistered init (as.filterMap fun a => if a.1 = i then some a.2 else none))
    (r : Nat) (q : Req) (d : Bytes) (hr : (sysRun start as i).reqs[r]? = some q) (hv : q.fut = .value d) :
    AnsweredBy (sysRun start as i).calls q d := by
  rw [sysRun_apply] at *
  exact (msgInv_run _ hn hq).val r q d hr hv

/-- **C06, at most one answer.** Once a future has a value, nothing that happens later changes it, or what the request
    was. No further hypothesis. -/
theorem answer_is_final (as bs : List Act) (hn : (run init (as ++ bs)).reqs.length < 2 ^ 64) (r : Nat) (q : Req)
    (d : Bytes) (hr : (run init as).reqs[r]? = some q) (hv : q.fut = .value d) :
    ∃ q', (run init (as ++ bs)).reqs[r]? = some q' ∧ q'.fut = .value d ∧ q'.endpoint = q.endpoint ∧
      q'.payload = q.payload ∧ q'.id = q.id := by
  rw [run_append] at *
  have hn' := Nat.lt_of_le_of_lt (length_run _ bs) hn
  obtain ⟨q', h1, h2, h3, h4, h5, _⟩ := req_run bs (idInv_run idInv_init as) (mapInv_run as hn') hn hr
  exact ⟨q', h1, h5 d hv, h2, h3, h4⟩

/-- The response to `[1]` arrives before the promise is stored, goes to the client's endpoint as unsolicited data, whose
    reply `[2]` is handled by the server under the same id. -/
def foreignSchedule : List Act :=
  [.addServerEndpoint [101], .addClientEndpoint [101], .request [101] [1], .send 0 true, .serve (some [10]),
   .receive, .dispatch (some [2]), .register 0, .serve (some [20]), .receive, .dispatch none]

/-- **C06 is violated** by this schedule: the request with payload `[1]` gets `[20]`, which the server returned for the
    payload `[2]`. -/
theorem foreign_answer_possible : ¬ AnswersBelongToRequests := by
  intro h
  have hrun : sysRun start (foreignSchedule.map fun a => (0, a)) 0 = run init foreignSchedule := by
    rw [sysRun_apply]
    congr 1
  have := h (foreignSchedule.map fun a => (0, a)) 0 (by rw [hrun]; decide) 0
    { endpoint := [101], payload := [1], id := 1, pc := .registered, fut := .value [20] } [20]
    (by rw [hrun]; decide) rfl
  rw [hrun] at this
  revert this
  unfold AnsweredBy
  decide

/-- **C06 fails for every request** to a name for which the client has an endpoint, too. Whatever happened before, when the request is about to be sent, the threads can go on so that the server returns
    `own` for it, and `other` for data `x` of the client's endpoint, and the future gets `other`. -/
theorem every_request_can_be_misanswered (as : List Act) (r : Nat) (q : Req) (own other x : Bytes) (hn : (run init as).reqs.length < 2 ^ 64) (hq : (run init as).reqs[r]? = some q)
    (hp : q.pc = .sending) (hrun : (run init as).running = true) (hup : (run init as).serverUp = true) (hs : q.endpoint ∈ (run init as).serverEndpoints)
    (hc : q.endpoint ∈ (run init as).clientEndpoints) :
    ∃ bs q', (run init (as ++ bs)).reqs[r]? = some q' ∧ q'.endpoint = q.endpoint ∧ q'.payload = q.payload ∧ AnsweredBy (run init (as ++ bs)).calls q' own ∧
      ({ endpoint := q'.endpoint, id := q'.id, payload := x, result := some other } : Call) ∈ (run init (as ++ bs)).calls ∧ q'.fut = .value other := by
  have hi := idInv_run idInv_init as
  -- the message is sent
  have e1 : run init (as ++ [.send r true]) = { updReq (run init as) r (fun q => { q with pc := .sent }) with
      toServer := (run init as).toServer ++ [{ requestId := q.id, endpoint := q.endpoint, data := q.payload }] } := by
    rw [run_append]
    show step (run init as) (.send r true) = _
    simp only [step, hq, hp, hrun, hup, and_self, if_true]
  have q1 : (run init (as ++ [.send r true])).reqs[r]? = some { q with pc := .sent } := by
    rw [e1]
    show (updReq _ r _).reqs[r]? = _
    rw [getElem?_updReq, if_pos rfl, hq]; rfl
  have l1 : (run init (as ++ [.send r true])).reqs.length = (run init as).reqs.length := by rw [e1]; exact updReq_length _ _ _
  -- the server answers it and the worker receives the answer
  obtain ⟨b1, s1, ⟨pre, c1⟩, a1, n1⟩ := gets_answered own (run init as).toServer (run init (as ++ [.send r true])) { requestId := q.id, endpoint := q.endpoint, data := q.payload } (by rw [e1])
    (by rw [e1]; exact hs) r { q with pc := .sent } ⟨q1, rfl, by rw [e1]; exact hrun, by rw [e1]; exact hup⟩
  rw [← run_append] at s1 c1 a1 n1
  have l2 : (run init (as ++ [.send r true] ++ b1)).reqs.length < 2 ^ 64 := by rw [n1, l1]; exact hn
  obtain ⟨b2, s2, c2, a2, n2⟩ := gets_to pre _ _ [] (idInv_run idInv_init _) (mapInv_run _ l2) l2 c1 r _ s1
  rw [← run_append] at s2 c2 a2 n2
  have l3 : (run init (as ++ [.send r true] ++ b1 ++ b2)).reqs.length < 2 ^ 64 := by rw [n2]; exact l2
  have p2 : (as ++ [.send r true] ++ b1 ++ b2 : List Act) = as ++ ([.send r true] ++ b1 ++ b2) := by simp
  -- the client's endpoint answers the answer
  have hcl : q.endpoint ∈ (run init (as ++ [.send r true] ++ b1 ++ b2)).clientEndpoints := by rw [p2, run_append]; exact (endpoints_run _ _ _).1 hc
  have e3 := dispatch_answered (idInv_run idInv_init _) l3 (mapInv_run _ l3) s2 c2 rfl hcl x
  have e3' : run init (as ++ [.send r true] ++ b1 ++ b2 ++ [.dispatch (some x)]) = step (run init (as ++ [.send r true] ++ b1 ++ b2)) (.dispatch (some x)) := by rw [run_append]; rfl
  have s3 : Sent (run init (as ++ [.send r true] ++ b1 ++ b2 ++ [.dispatch (some x)])) r { q with pc := .sent } := by rw [e3', e3]; exact ⟨s2.hq, s2.hp, s2.run, s2.up⟩
  have p3 : (as ++ [.send r true] ++ b1 ++ b2 ++ [.dispatch (some x)] : List Act) = as ++ ([.send r true] ++ b1 ++ b2 ++ [.dispatch (some x)]) := by simp
  have hsr : q.endpoint ∈ (run init (as ++ [.send r true] ++ b1 ++ b2 ++ [.dispatch (some x)])).serverEndpoints := by rw [p3, run_append]; exact (endpoints_run _ _ _).2 hs
  -- the server answers that, and the worker receives the second answer
  obtain ⟨b3, s4, ⟨pre4, c4⟩, a4, n4⟩ := gets_answered other (run init (as ++ [.send r true] ++ b1 ++ b2)).toServer (run init (as ++ [.send r true] ++ b1 ++ b2 ++ [.dispatch (some x)]))
    { requestId := q.id, endpoint := q.endpoint, data := x } (by rw [e3', e3]) hsr r _ s3
  have l4 : (run (run init (as ++ [.send r true] ++ b1 ++ b2 ++ [.dispatch (some x)])) b3).reqs.length < 2 ^ 64 := by rw [n4, e3', e3]; exact l3
  have a1' : ({ endpoint := q.endpoint, id := q.id, payload := q.payload, result := some own } : Call) ∈ (run (run init (as ++ [.send r true] ++ b1 ++ b2 ++ [.dispatch (some x)])) b3).calls := by
    apply calls_run
    rw [e3', e3]
    show _ ∈ (run init (as ++ [.send r true] ++ b1 ++ b2)).calls
    rw [a2]; exact a1
  rw [← run_append] at s4 c4 a4 l4 a1'
  obtain ⟨b4, s5, c5, a5, n5⟩ := gets_to pre4 _ _ [] (idInv_run idInv_init _) (mapInv_run _ l4) l4 c4 r _ s4
  rw [← a5] at a1' a4
  rw [← run_append] at s5 c5 n5 a1' a4
  -- the call stores its promise, and the worker looks the answer up
  refine ⟨[.send r true] ++ b1 ++ b2 ++ [.dispatch (some x)] ++ b3 ++ b4 ++ [.register r, .dispatch none], { q with pc := .registered, fut := .value other }, ?_⟩
  have e6 : run init (as ++ ([.send r true] ++ b1 ++ b2 ++ [.dispatch (some x)] ++ b3 ++ b4 ++ [.register r, .dispatch none])) =
      step (step (run init (as ++ [.send r true] ++ b1 ++ b2 ++ [.dispatch (some x)] ++ b3 ++ b4)) (.register r)) (.dispatch none) := by
    rw [show as ++ ([.send r true] ++ b1 ++ b2 ++ [.dispatch (some x)] ++ b3 ++ b4 ++ [.register r, .dispatch none]) =
      (as ++ [.send r true] ++ b1 ++ b2 ++ [.dispatch (some x)] ++ b3 ++ b4) ++ [.register r, .dispatch none] from by simp, run_append]
    rfl
  have l5 : (run init (as ++ [.send r true] ++ b1 ++ b2 ++ [.dispatch (some x)] ++ b3 ++ b4)).reqs.length < 2 ^ 64 := by rw [n5]; exact l4
  have mi := mapInv_run _ l5
  have ii := idInv_run idInv_init (as ++ [.send r true] ++ b1 ++ b2 ++ [.dispatch (some x)] ++ b3 ++ b4)
  rw [e6]
  generalize run init (as ++ [.send r true] ++ b1 ++ b2 ++ [.dispatch (some x)] ++ b3 ++ b4) = c at s5 c5 a1' a4 mi ii l5
  have e7 : step c (.register r) = { updReq c r (fun q => { q with pc := .registered }) with ongoing := insert c.ongoing (q.endpoint, q.id) r } := by
    simp only [step, s5.hq, if_true]
  have hfind : find (insert c.ongoing (q.endpoint, q.id) r) (q.endpoint, q.id) = some r := by
    cases hf : find (insert c.ongoing (q.endpoint, q.id) r) (q.endpoint, q.id) with
    | none => exact absurd (mem_insert.mpr (Or.inr rfl)) (find_none hf r)
    | some r' =>
      rcases mem_insert.mp (find_some hf) with ⟨_, h⟩ | h
      · exact absurd rfl h
      · simp at h; rw [h]
  have hheld : q.held = true := (mi.early r _ s5.hq (Or.inr rfl)).2
  have e8 : step (step c (.register r)) (.dispatch none) = { updReq { (step c (.register r)) with received := none } r (fun q => if q.held then { q with fut := .value other } else q) with
      ongoing := erase (insert c.ongoing (q.endpoint, q.id) r) (q.endpoint, q.id) } := by
    rw [e7]
    simp only [step, updReq_received, c5, dispatchMsg, hfind]
    rfl
  refine ⟨?_, rfl, rfl, ?_, ?_, rfl⟩
  · rw [e8]
    show (updReq _ r _).reqs[r]? = _
    rw [getElem?_updReq, if_pos rfl, e7]
    show ((updReq c r _).reqs[r]?).map _ = _
    rw [getElem?_updReq, if_pos rfl, s5.hq]
    simp [hheld]
  · rw [e8, e7]; exact a1'
  · rw [e8, e7]; exact a4

/-- A request that is about to be sent to a name that both sides have, while others are on the wire. -/
example : ∃ as q, (run init as).reqs[1]? = some q ∧ q.pc = .sending ∧ (run init as).running = true ∧ (run init as).serverUp = true ∧ q.endpoint ∈ (run init as).serverEndpoints ∧
    q.endpoint ∈ (run init as).clientEndpoints ∧ (run init as).toServer ≠ [] :=
  ⟨[.addServerEndpoint [101], .addClientEndpoint [101], .request [101] [1], .send 0 true, .broadcast [5] [6], .request [101] [2]], { endpoint := [101], payload := [2], id := 2 }, by decide, rfl, by decide,
    by decide, by decide, by decide, by decide⟩

/-- A schedule that meets the hypotheses of the partial theorem, with two requests answered out of order. -/
example : ∃ as : List Act, NoReplyWhileUnregistered init as ∧
    (run init as).reqs.map (·.fut) = [.value [10], .value [20]] := by
  refine ⟨[.addServerEndpoint [101], .addServerEndpoint [102], .request [101] [1], .request [102] [2], .send 1 true,
    .send 0 true, .register 0, .serve (some [20]), .register 1, .serve (some [10]), .receive, .dispatch none, .receive,
    .dispatch none], ?_, by decide⟩
  simp [NoReplyWhileUnregistered]

end Scalopus.C06

namespace Scalopus.C07

open Protocol Unix Spec.Requests

/-- The full property C07 (false, see `answered_request_can_hang`), as a safety statement: when the server has answered a
    request, the call has returned, the future is still held, the connection is up, and everything that was on the wire has
    been delivered, the future is ready. -/
def AnsweredRequestsComplete : Prop :=
  ∀ (as : List Act), (run init as).reqs.length < 2 ^ 64 →
    let c := run init as
    c.running = true → c.serverUp = true → c.toServer = [] → c.toClient = [] → c.received = none →
    ∀ (r : Nat) (q : Req) (d : Bytes), c.reqs[r]? = some q → q.pc = .registered → q.held = true →
      AnsweredBy c.calls q d → ∃ d, q.fut = .value d

/-- **C07, partial.** If no response is looked up before the requesting thread has stored its promise, then from the moment
    the server has answered a registered request, every continuation in which the client's worker makes enough steps ends with
    the future ready (or dropped by the caller). Missing from the full property: schedules in which the response is looked
    up before the promise is stored. -/
theorem answered_requests_complete_partial (as : List Act) (hreg : RegisteredFirst init as) (r : Nat) (q : Req) (d : Bytes)
    (hq : (run init as).reqs[r]? = some q) (hp : q.pc = .registered) (ha : AnsweredBy (run init as).calls q d)
    (bs : List Act) (hn : (run init (as ++ bs)).reqs.length < 2 ^ 64)
    (hsteps : 2 * ((run init as).toClient.length + 1) ≤ workerSteps (run init as) bs) :
    Resolved (run init (as ++ bs)) r := by
  rw [run_append] at *
  have hn' := Nat.lt_of_le_of_lt (length_run _ bs) hn
  have hi := idInv_run idInv_init as
  have hm := mapInv_run as hn'
  have hans := ansInv_run as hn' hreg
  by_cases hres : Resolved (run init as) r
  · exact resolved_run bs hi hm hn hres
  · rcases hans.ans r q d hq (Or.inr hp) ha with ⟨m, hmem, he, hid⟩ | hv | hh
    · obtain ⟨k, hk⟩ := List.getElem?_of_mem hmem
      have hheld : q.held = true := by
        cases h : q.held
        · exact absurd ⟨q, hq, Or.inr h⟩ hres
        · rfl
      have hw : q.fut = .waiting := by
        cases h : q.fut with
        | waiting => rfl
        | value d => exact absurd ⟨q, hq, Or.inl ⟨d, h⟩⟩ hres
        | error => exact absurd h (hm.noError r q hq hp)
      refine onTheWay_run bs hi hm hn (k := k) ⟨q, m, hq, hheld, hm.kept r q hq hp hw hheld, hk, he, hid⟩ ?_
      have hlt := (List.getElem?_eq_some_iff.1 hk).1
      simp only [incoming, List.length_append] at hlt
      unfold left
      cases hrec : (run init as).received with
      | none => rw [hrec] at hlt; simp at hlt ⊢; omega
      | some m => rw [hrec] at hlt; simp at hlt ⊢; omega
    · exact absurd ⟨q, hq, Or.inl hv⟩ hres
    · exact absurd ⟨q, hq, Or.inr hh⟩ hres

/-- The response is looked up between the send (line 151) and the registration (line 160) of the request. -/
def hangSchedule : List Act :=
  [.addServerEndpoint [101], .request [101] [1], .send 0 true, .serve (some [10]), .receive, .dispatch none, .register 0]

/-- **C07 is violated** by this schedule. -/
theorem answered_request_can_hang : ¬ AnsweredRequestsComplete := by
  intro h
  have := h hangSchedule (by decide) (by decide) (by decide) (by decide) (by decide) (by decide) 0
    { endpoint := [101], payload := [1], id := 1, pc := .registered } [10] (by decide) rfl rfl
    (by unfold AnsweredBy; decide)
  obtain ⟨d, hd⟩ := this
  simp at hd

/-- **C07, consequence.** After that schedule the future never becomes ready, whatever happens afterwards. -/
theorem hanging_forever (bs : List Act) (hn : (run init (hangSchedule ++ bs)).reqs.length < 2 ^ 64) :
    ∃ q, (run init (hangSchedule ++ bs)).reqs[0]? = some q ∧ q.fut = .waiting := by
  rw [run_append] at *
  have hn' := Nat.lt_of_le_of_lt (length_run _ bs) hn
  have hl : Lost (run init hangSchedule) 0 :=
    ⟨{ endpoint := [101], payload := [1], id := 1, pc := .registered }, by decide, rfl, rfl, by decide⟩
  obtain ⟨q, hq, _, hf, _⟩ := lost_run bs (idInv_run idInv_init _) (mapInv_run _ hn') hn hl
  exact ⟨q, hq, hf⟩

/-- **C07, when it fails.** Whatever happened before: if the response to a request is looked up before the call has stored its promise, and no endpoint of the client answers it, the future never
    becomes ready. -/
theorem early_lookup_hangs (as : List Act) (r : Nat) (q : Req) (m : Msg) (rep : Option Bytes) (bs : List Act) (hq : (run init as).reqs[r]? = some q) (hp : q.pc = .sent)
    (hrec : (run init as).received = some m) (hid : m.requestId = q.id) (hrep : rep = none ∨ m.endpoint ∉ (run init as).clientEndpoints)
    (hn : (run init (as ++ .dispatch rep :: bs)).reqs.length < 2 ^ 64) :
    ∃ q', (run init (as ++ .dispatch rep :: bs)).reqs[r]? = some q' ∧ q'.fut = .waiting := by
  rw [run_append] at *
  have hl : (run init as).reqs.length < 2 ^ 64 := Nat.lt_of_le_of_lt (length_run _ (.dispatch rep :: bs)) hn
  have hi := idInv_run idInv_init as
  have hm := mapInv_run as hl
  have h1 := lostEarly_dispatch hi hl hm (onceInv_run as hl) hq hp hrec hid rep hrep
  have hi2 := idInv_step hi (.dispatch rep)
  have hm2 := mapInv_step hi hl hm (.dispatch rep)
  have hi3 := idInv_run hi (.dispatch rep :: bs)
  rcases lostEarly_run bs hi2 hm2 hn h1 with h | h
  · obtain ⟨q', hq', hp', _⟩ := h
    exact ⟨q', hq', ((inv_run bs hi2 hm2 hn).2.early r q' hq' (Or.inr hp')).1⟩
  · obtain ⟨q', hq', _, hf, _⟩ := h
    exact ⟨q', hq', hf⟩

/-- **C07 fails for every request.** Whatever happened before, when a request is about to be sent to an endpoint of the server, the threads can go on so that the server answers it, the connection is
    up, the call has returned, and the future never becomes ready. -/
theorem every_request_can_hang (as : List Act) (r : Nat) (q : Req) (d : Bytes) (hn : (run init as).reqs.length < 2 ^ 64) (hq : (run init as).reqs[r]? = some q) (hp : q.pc = .sending)
    (hrun : (run init as).running = true) (hup : (run init as).serverUp = true) (hs : q.endpoint ∈ (run init as).serverEndpoints) :
    ∃ bs, (run init (as ++ bs)).running = true ∧ (run init (as ++ bs)).serverUp = true ∧
      (∃ q', (run init (as ++ bs)).reqs[r]? = some q' ∧ q'.pc = .registered ∧ q'.endpoint = q.endpoint ∧ q'.payload = q.payload ∧ AnsweredBy (run init (as ++ bs)).calls q' d) ∧
      ∀ more, (run init (as ++ bs ++ more)).reqs.length < 2 ^ 64 → ∃ q', (run init (as ++ bs ++ more)).reqs[r]? = some q' ∧ q'.fut = .waiting := by
  have hi := idInv_run idInv_init as
  have hm := mapInv_run as hn
  -- the message is sent
  have e1 : run init (as ++ [.send r true]) = { updReq (run init as) r (fun q => { q with pc := .sent }) with
      toServer := (run init as).toServer ++ [{ requestId := q.id, endpoint := q.endpoint, data := q.payload }] } := by
    rw [run_append]
    show step (run init as) (.send r true) = _
    simp only [step, hq, hp, hrun, hup, and_self, if_true]
  have q1 : (run init (as ++ [.send r true])).reqs[r]? = some { q with pc := .sent } := by
    rw [e1]
    show (updReq _ r _).reqs[r]? = _
    rw [getElem?_updReq, if_pos rfl, hq]; rfl
  have l1 : (run init (as ++ [.send r true])).reqs.length = (run init as).reqs.length := by rw [e1]; exact updReq_length _ _ _
  -- the server answers it
  obtain ⟨b1, s1, ⟨pre, c1⟩, a1, n1⟩ := gets_answered d (run init as).toServer (run init (as ++ [.send r true])) { requestId := q.id, endpoint := q.endpoint, data := q.payload } (by rw [e1]) (by rw [e1]; exact hs)
    r { q with pc := .sent } ⟨q1, rfl, by rw [e1]; exact hrun, by rw [e1]; exact hup⟩
  rw [← run_append] at s1 c1 a1 n1
  have l2 : (run init (as ++ [.send r true] ++ b1)).reqs.length < 2 ^ 64 := by rw [n1, l1]; exact hn
  -- the worker receives the answer
  obtain ⟨b2, s2, c2, a2, n2⟩ := gets_to pre _ _ [] (idInv_run idInv_init _) (mapInv_run _ l2) l2 c1 r _ s1
  rw [← run_append] at s2 c2 a2 n2
  -- and looks it up; then the call stores its promise
  have l3 : (run init (as ++ [.send r true] ++ b1 ++ b2)).reqs.length < 2 ^ 64 := by rw [n2]; exact l2
  obtain ⟨s3, _, _, _, a3, n3⟩ := dispatch_none (idInv_run idInv_init _) l3 (mapInv_run _ l3) s2
  refine ⟨[.send r true] ++ b1 ++ b2 ++ [.dispatch none, .register r], ?_⟩
  have e4 : run init (as ++ ([.send r true] ++ b1 ++ b2 ++ [.dispatch none, .register r])) = step (step (run init (as ++ [.send r true] ++ b1 ++ b2)) (.dispatch none)) (.register r) := by
    rw [show as ++ ([.send r true] ++ b1 ++ b2 ++ [.dispatch none, .register r]) = (as ++ [.send r true] ++ b1 ++ b2) ++ [.dispatch none, .register r] from by simp, run_append]
    rfl
  have e5 : step (step (run init (as ++ [.send r true] ++ b1 ++ b2)) (.dispatch none)) (.register r) =
      { updReq (step (run init (as ++ [.send r true] ++ b1 ++ b2)) (.dispatch none)) r (fun q => { q with pc := .registered }) with
        ongoing := insert (step (run init (as ++ [.send r true] ++ b1 ++ b2)) (.dispatch none)).ongoing (q.endpoint, q.id) r } := by
    generalize step (run init (as ++ [.send r true] ++ b1 ++ b2)) (.dispatch none) = c at s3
    simp only [step, s3.hq, if_true]
  refine ⟨?_, ?_, ⟨{ q with pc := .registered }, ?_, rfl, rfl, rfl, ?_⟩, ?_⟩
  · rw [e4, e5]; exact s3.run
  · rw [e4, e5]; exact s3.up
  · rw [e4, e5]
    show (updReq _ r _).reqs[r]? = _
    rw [getElem?_updReq, if_pos rfl, s3.hq]; rfl
  · rw [e4, e5]
    show _ ∈ (step (run init (as ++ [.send r true] ++ b1 ++ b2)) (.dispatch none)).calls
    rw [a3, a2]
    exact a1
  · intro more hb
    have e6 : as ++ ([.send r true] ++ b1 ++ b2 ++ [.dispatch none, .register r]) ++ more = (as ++ [.send r true] ++ b1 ++ b2) ++ .dispatch none :: (.register r :: more) := by simp
    rw [e6] at hb ⊢
    exact early_lookup_hangs _ r _ _ none (.register r :: more) s2.hq rfl c2 rfl (Or.inl rfl) hb

/-- A request that is about to be sent while others are on the wire. -/
example : ∃ as q, (run init as).reqs[1]? = some q ∧ q.pc = .sending ∧ (run init as).running = true ∧ (run init as).serverUp = true ∧ q.endpoint ∈ (run init as).serverEndpoints ∧
    (run init as).toServer ≠ [] :=
  ⟨[.addServerEndpoint [101], .request [101] [1], .send 0 true, .broadcast [5] [6], .request [101] [2]], { endpoint := [101], payload := [2], id := 2 }, by decide, rfl, by decide, by decide, by decide,
    by decide⟩

/-- The hypotheses of the partial theorem are met by an ordinary exchange. -/
example : ∃ (as bs : List Act) (q : Req), RegisteredFirst init as ∧ (run init as).reqs[0]? = some q ∧
    q.pc = .registered ∧ AnsweredBy (run init as).calls q [10] ∧
    2 * ((run init as).toClient.length + 1) ≤ workerSteps (run init as) bs := by
  refine ⟨[.addServerEndpoint [101], .request [101] [1], .send 0 true, .register 0, .serve (some [10])],
    [.broadcast [9] [9], .receive, .dispatch none, .receive, .dispatch none],
    { endpoint := [101], payload := [1], id := 1, pc := .registered }, ?_, by decide, rfl, ?_, by decide⟩
  · simp [RegisteredFirst]
  · unfold AnsweredBy; decide

/-- **C07, requests that cannot be sent.** If the message cannot be written, or the connection is gone, the future has failed when the call returns, and nothing is on the wire. -/
theorem unsent_fails (c : Conn) (r : Nat) (q : Req) (ok : Bool) (hq : c.reqs[r]? = some q) (hp : q.pc = .sending)
    (hup : ok = false ∨ c.running = false ∨ c.serverUp = false) :
    (step c (.send r ok)).reqs[r]? = some { q with pc := .failed, fut := .error } ∧ (step c (.send r ok)).toServer = c.toServer ∧
      (step c (.send r ok)).ongoing = c.ongoing := by
  have : ¬ (ok = true ∧ c.running = true ∧ c.serverUp = true) := by
    rcases hup with h | h | h <;> simp [h]
  simp [step, hq, hp, this, updReq, List.getElem?_modify]

/-- A call after the server has gone. -/
example : ((run init [.serverDown, .request [1] []]).reqs[0]?).map (·.pc) = some .sending ∧ (run init [.serverDown, .request [1] []]).serverUp = false := by decide

end Scalopus.C07

namespace Scalopus.C08

open Protocol Unix

/-- **C08.** With fewer than `2^64` requests on a connection, from whatever threads in whatever order, no two requests carry
    the same id and none carries the id 0 of broadcasts. -/
theorem request_ids_unique (as : List Act) (hn : (run init as).reqs.length < 2 ^ 64) :
    ((run init as).reqs.map (·.id)).Nodup ∧ 0 ∉ (run init as).reqs.map (·.id) := by
  have hi := idInv_run idInv_init as
  constructor
  · rw [List.nodup_iff_getElem?_ne_getElem?]
    intro i j hij hj
    simp only [List.getElem?_map]
    simp only [List.length_map] at hj
    intro he
    have h1 : (run init as).reqs[i]? = some (run init as).reqs[i] := List.getElem?_eq_getElem (by omega)
    have h2 : (run init as).reqs[j]? = some (run init as).reqs[j] := List.getElem?_eq_getElem hj
    rw [h1, h2] at he
    simp only [Option.map_some, Option.some.injEq] at he
    exact absurd (hi.inj hn h1 h2 he) (by omega)
  · simp only [List.mem_map, not_exists, not_and]
    intro q hq
    obtain ⟨r, hr⟩ := List.getElem?_of_mem hq
    exact hi.pos hn hr

/-- **C08, on the wire.** Every message that a request puts on the wire carries the id and the contents of that request. -/
theorem request_message_carries_id (c : Conn) (r : Nat) (q : Req) (hq : c.reqs[r]? = some q) (hp : q.pc = .sending)
    (hup : c.running = true ∧ c.serverUp = true) :
    (step c (.send r true)).toServer =
      c.toServer ++ [{ requestId := q.id, endpoint := q.endpoint, data := q.payload }] := by
  simp [step, hq, hp, hup]

example : (run init [.request [1] [], .request [2] [], .request [1] []]).reqs.map (·.id) = [1, 2, 3] := by decide

end Scalopus.C08

namespace Scalopus.C09

open Protocol Unix Spec.Requests

/-- **C09.** At any time `pendingRequests()` is at least the number of requests that were sent and are neither completed nor
    dropped, and at most the number of those sent and not completed. -/
theorem pending_bounds (as : List Act) (hn : (run init as).reqs.length < 2 ^ 64) :
    (outstanding (run init as)).length ≤ pendingRequests (run init as) ∧
    pendingRequests (run init as) ≤
      ((run init as).reqs.filter (fun q => q.pc = .registered && q.fut = .waiting)).length := by
  have hm := mapInv_run as hn
  generalize run init as = c at *
  constructor
  · have h1 : (outstanding c).length =
        ((List.range c.reqs.length).filter (fun r => (c.reqs[r]?).any
          (fun q => q.pc = .registered && q.fut = .waiting && q.held))).length := length_filter_range _ _
    rw [h1]
    unfold pendingRequests
    rw [← List.length_map (f := fun e : Key × Nat => e.2) (as := c.ongoing)]
    apply (List.Nodup.subperm (List.Nodup.sublist List.filter_sublist List.nodup_range) ?_).length_le
    intro r hr
    simp only [List.mem_filter, List.mem_range, Option.any_eq_true] at hr
    obtain ⟨_, q, hq, hp⟩ := hr
    simp only [Bool.and_eq_true, decide_eq_true_eq] at hp
    exact List.mem_map.2 ⟨_, hm.kept r q hq hp.1.1 hp.1.2 hp.2, rfl⟩
  · rw [length_filter_range]
    unfold pendingRequests
    rw [← List.length_map (f := fun e : Key × Nat => e.2) (as := c.ongoing)]
    apply (List.Nodup.subperm hm.nodup ?_).length_le
    intro r hr
    obtain ⟨e, he, rfl⟩ := List.mem_map.1 hr
    obtain ⟨q, hq, hp, _, hf⟩ := hm.ong e he
    simp only [List.mem_filter, List.mem_range, Option.any_eq_true]
    exact ⟨(List.getElem?_eq_some_iff.1 hq).1, q, hq, by simp [hp, hf]⟩

/-- **C09.** After the worker's cleanup `pendingRequests()` is exactly the number of requests that were sent and are neither
    completed nor dropped; no dropped request is retained and every held one is. -/
theorem cleanup_exact (as : List Act) (hn : (run init as).reqs.length < 2 ^ 64)
    (hw : (run init as).running = true) (hr : (run init as).received = none) :
    let c := run init (as ++ [.cleanup])
    pendingRequests c = (outstanding c).length ∧
    (∀ r q, c.reqs[r]? = some q → (r ∈ c.ongoing.map (·.2) ↔ q.pc = .registered ∧ q.fut = .waiting ∧ q.held = true)) := by
  intro c
  have hlen : c.reqs.length < 2 ^ 64 := by
    show (run init (as ++ [.cleanup])).reqs.length < _
    rw [run_append]
    simp only [run, List.foldl_cons, List.foldl_nil, step]
    split <;> exact hn
  have hm : MapInv c := mapInv_run _ hlen
  have hheld : ∀ e ∈ c.ongoing, ∀ q, c.reqs[e.2]? = some q → q.held = true := by
    show ∀ e ∈ (run init (as ++ [.cleanup])).ongoing, ∀ q, (run init (as ++ [.cleanup])).reqs[e.2]? = some q → _
    rw [run_append]
    simp only [run, List.foldl_cons, List.foldl_nil, step]
    simp only [run] at hw hr
    rw [if_pos ⟨hw, hr⟩]
    intro e he q hq
    simp only [List.mem_filter] at he
    simp only at hq
    simpa [hq] using he.2
  have key : ∀ r, r ∈ c.ongoing.map (·.2) ↔ ∃ q, c.reqs[r]? = some q ∧
      (q.pc = .registered && q.fut = .waiting && q.held : Bool) = true := by
    intro r
    constructor
    · intro h
      obtain ⟨e, he, rfl⟩ := List.mem_map.1 h
      obtain ⟨q, hq, hp, _, hf⟩ := hm.ong e he
      exact ⟨q, hq, by simp [hp, hf, hheld e he q hq]⟩
    · rintro ⟨q, hq, hp⟩
      simp only [Bool.and_eq_true, decide_eq_true_eq] at hp
      exact List.mem_map.2 ⟨_, hm.kept r q hq hp.1.1 hp.1.2 hp.2, rfl⟩
  constructor
  · have := count_idx c.reqs (fun q => q.pc = .registered && q.fut = .waiting && q.held) _ hm.nodup key
    rw [List.length_map] at this
    exact this
  · intro r q hq
    rw [key]
    constructor
    · rintro ⟨q', hq', hp⟩
      rw [hq] at hq'
      simp only [Option.some.injEq] at hq'
      subst hq'
      simp only [Bool.and_eq_true, decide_eq_true_eq] at hp
      exact ⟨hp.1.1, hp.1.2, hp.2⟩
    · rintro ⟨h1, h2, h3⟩
      exact ⟨q, hq, by simp [h1, h2, h3]⟩

/-- Three requests, one answered, one dropped: before the cleanup two are pending, afterwards one. -/
example :
    let as : List Act := [.addServerEndpoint [1], .request [1] [], .send 0 true, .register 0, .request [1] [], .send 1 true,
      .register 1, .request [1] [], .send 2 true, .register 2, .serve (some []), .receive, .dispatch none, .drop 1]
    pendingRequests (run init as) = 2 ∧ pendingRequests (run init (as ++ [.cleanup])) = 1 := by decide

end Scalopus.C09
