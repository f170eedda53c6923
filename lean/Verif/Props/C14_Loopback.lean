import Verif.Model.Loopback

/-!
# C14, C15: loopback transport
-/

namespace Scalopus.C14

open Protocol Loopback

/-- The future that belongs to the result of a handler. -/
def futureOf : Handled → Fut
  | .answers d => .value d
  | .declines => .broken
  | .throws => .waiting

/-- Requests are served in order, at most once, with their own data, and their futures hold the results; requests
    whose future is still held have been served up to `done`. -/
structure Served (s : State) : Prop where
  bound : s.done ≤ s.reqs.length
  order : (s.calls.map (·.req)).Pairwise (· < ·)
  below : ∀ x ∈ s.calls, x.req < s.done
  own : ∀ x ∈ s.calls, ∃ q, s.reqs[x.req]? = some q ∧ q.endpoint = x.endpoint ∧ q.payload = x.payload ∧
    q.fut = futureOf x.result
  all : ∀ (i : Nat) (q : Req), i < s.done → s.reqs[i]? = some q → q.held = true → ∃ x ∈ s.calls, x.req = i
  fresh : ∀ (i : Nat) (q : Req), s.reqs[i]? = some q → (∀ x ∈ s.calls, x.req ≠ i) → q.fut = .waiting

theorem served_init : Served {} := by
  constructor <;> simp

theorem getElem?_modify' (l : List Req) (i j : Nat) (f : Req → Req) :
    (l.modify i f)[j]? = if j = i then (l[j]?).map f else l[j]? := by
  simp only [List.getElem?_modify]
  by_cases h : i = j
  · subst h; simp
  · have : j ≠ i := fun e => h e.symm
    simp [h, this]

theorem served_one {H : Oracle} {s s' : State} (h : Served s) (hd : s.done < s.reqs.length)
    (hr : serveOne H s s.done = .ok s') :
    Served { s' with done := s'.done + 1 } ∧ s'.done = s.done ∧ s'.reqs.length = s.reqs.length := by
  unfold serveOne at hr
  obtain ⟨q, hq⟩ : ∃ q, s.reqs[s.done]? = some q := ⟨s.reqs[s.done], by simp [hd]⟩
  simp only [hq] at hr
  obtain ⟨h1, h2, h3, h4, h5, h6⟩ := h
  have snoc : ∀ x : Call, x.req = s.done → ((s.calls ++ [x]).map (·.req)).Pairwise (· < ·) := by
    intro x hx
    rw [List.map_append, List.pairwise_append]
    refine ⟨h2, by simp, ?_⟩
    intro a ha b hb
    simp only [List.mem_map] at ha
    obtain ⟨y, hy, rfl⟩ := ha
    simp at hb
    subst hb
    rw [hx]; exact h3 y hy
  split at hr
  · rename_i hheld
    simp only [Res.ok.injEq] at hr
    subst hr
    refine ⟨?_, rfl, rfl⟩
    constructor
    · exact hd
    · exact h2
    · intro x hx; have := h3 x hx; simp only; omega
    · exact h4
    · intro i q' hi hq' hh
      simp only at hi hq'
      by_cases he : i = s.done
      · subst he; rw [hq] at hq'; simp at hq'; subst hq'; rw [hheld] at hh; simp at hh
      · exact h5 i q' (by omega) hq' hh
    · exact h6
  · split at hr
    · simp at hr
    · split at hr
      · rename_i d hH
        simp only [Res.ok.injEq] at hr
        subst hr
        refine ⟨?_, rfl, by simp⟩
        constructor
        · simp; omega
        · exact snoc _ rfl
        · intro x hx; simp at hx; rcases hx with hx | hx
          · have := h3 x hx; simp only; omega
          · subst hx; simp
        · intro x hx
          simp only [getElem?_modify']
          simp at hx; rcases hx with hx | hx
          · obtain ⟨q', hq', hx'⟩ := h4 x hx
            have := h3 x hx
            rw [if_neg (by omega)]
            exact ⟨q', hq', hx'⟩
          · subst hx
            simp only [if_true, hq, Option.map_some]
            exact ⟨_, rfl, rfl, rfl, by rw [hH]; rfl⟩
        · intro i q' hi hq' hh
          simp only [getElem?_modify'] at hi hq'
          by_cases he : i = s.done
          · exact ⟨_, by simp; right; rfl, he.symm⟩
          · rw [if_neg he] at hq'
            obtain ⟨x, hx, hx'⟩ := h5 i q' (by omega) hq' hh
            exact ⟨x, by simp [hx], hx'⟩
        · intro i q' hq' hx
          simp only [getElem?_modify'] at hq'
          have hne : i ≠ s.done := by
            intro e; exact hx _ (by simp; right; rfl) e.symm
          rw [if_neg hne] at hq'
          exact h6 i q' hq' (fun x hx' => hx x (by simp [hx']))
      · rename_i hH
        simp only [Res.ok.injEq] at hr
        subst hr
        refine ⟨?_, rfl, by simp⟩
        constructor
        · simp; omega
        · exact snoc _ rfl
        · intro x hx; simp at hx; rcases hx with hx | hx
          · have := h3 x hx; simp only; omega
          · subst hx; simp
        · intro x hx
          simp only [getElem?_modify']
          simp at hx; rcases hx with hx | hx
          · obtain ⟨q', hq', hx'⟩ := h4 x hx
            have := h3 x hx
            rw [if_neg (by omega)]
            exact ⟨q', hq', hx'⟩
          · subst hx
            simp only [if_true, hq, Option.map_some]
            exact ⟨_, rfl, rfl, rfl, by rw [hH]; rfl⟩
        · intro i q' hi hq' hh
          simp only [getElem?_modify'] at hi hq'
          by_cases he : i = s.done
          · exact ⟨_, by simp; right; rfl, he.symm⟩
          · rw [if_neg he] at hq'
            obtain ⟨x, hx, hx'⟩ := h5 i q' (by omega) hq' hh
            exact ⟨x, by simp [hx], hx'⟩
        · intro i q' hq' hx
          simp only [getElem?_modify'] at hq'
          have hne : i ≠ s.done := by
            intro e; exact hx _ (by simp; right; rfl) e.symm
          rw [if_neg hne] at hq'
          exact h6 i q' hq' (fun x hx' => hx x (by simp [hx']))
      · simp at hr

theorem served_many (H : Oracle) (n : Nat) : ∀ {s s' : State}, Served s → s.done + n ≤ s.reqs.length →
    serveMany H s n = .ok s' → Served s' ∧ s'.done = s.done + n ∧ s'.reqs.length = s.reqs.length := by
  induction n with
  | zero => intro s s' h _ hr; simp [serveMany] at hr; subst hr; exact ⟨h, rfl, rfl⟩
  | succ n ih =>
    intro s s' h hd hr
    simp only [serveMany] at hr
    cases hone : serveOne H s s.done with
    | ok s1 =>
      rw [hone] at hr
      simp only [Res.bind] at hr
      obtain ⟨g1, g2, g3⟩ := served_one h (by omega) hone
      obtain ⟨k1, k2, k3⟩ := ih g1 (by simp only; omega) hr
      simp only at k2 k3
      exact ⟨k1, by omega, by omega⟩
    | throws w => rw [hone] at hr; simp [Res.bind] at hr
    | ub => rw [hone] at hr; simp [Res.bind] at hr
    | terminate => rw [hone] at hr; simp [Res.bind] at hr

theorem served_step {H : Oracle} {s s' : State} (h : Served s) (a : Act) (hr : step H s a = .ok s') : Served s' := by
  cases a with
  | request ep p =>
    simp only [step, Res.ok.injEq] at hr
    subst hr
    obtain ⟨h1, h2, h3, h4, h5, h6⟩ := h
    have hold : ∀ (i : Nat) (q : Req), s.reqs[i]? = some q → (s.reqs ++ [{ endpoint := ep, payload := p }])[i]? = some q := by
      intro i q hq
      rw [List.getElem?_append_left (List.getElem?_eq_some_iff.1 hq).1]; exact hq
    have hnew : ∀ (i : Nat) (q : Req), (s.reqs ++ [{ endpoint := ep, payload := p }])[i]? = some q →
        s.reqs[i]? = some q ∨ q.fut = .waiting ∧ s.reqs.length ≤ i := by
      intro i q hq
      rw [List.getElem?_append] at hq
      split at hq
      · exact Or.inl hq
      · have := List.mem_of_getElem? hq
        simp at this
        subst this; exact Or.inr ⟨rfl, by omega⟩
    constructor
    · simp; omega
    · exact h2
    · exact h3
    · intro x hx
      obtain ⟨q, hq, hx'⟩ := h4 x hx
      exact ⟨q, hold _ _ hq, hx'⟩
    · intro i q hi hq hh
      rcases hnew i q hq with hq' | hq'
      · exact h5 i q hi hq' hh
      · simp only at hi; omega
    · intro i q hq hx
      rcases hnew i q hq with hq' | hq'
      · exact h6 i q hq' hx
      · exact hq'.1
  | drop i =>
    simp only [step, Res.ok.injEq] at hr
    subst hr
    obtain ⟨h1, h2, h3, h4, h5, h6⟩ := h
    constructor
    · simpa using h1
    · exact h2
    · exact h3
    · simp only [getElem?_modify']; grind
    · simp only [getElem?_modify']; grind
    · simp only [getElem?_modify']; grind
  | work =>
    have hb := h.bound
    exact (served_many H _ h (by omega) hr).1
  | addServerEndpoint n =>
    simp only [step, Res.ok.injEq] at hr
    subst hr
    exact ⟨h.1, h.2, h.3, h.4, h.5, h.6⟩

theorem served_run (H : Oracle) (as : List Act) : ∀ {s s' : State}, Served s → run H s as = .ok s' → Served s' := by
  induction as with
  | nil => intro s s' h hr; simp [run] at hr; subst hr; exact h
  | cons a as ih =>
    intro s s' h hr
    simp only [run] at hr
    cases hs : step H s a with
    | ok s1 => rw [hs] at hr; exact ih (served_step h a hs) hr
    | throws w => rw [hs] at hr; simp [Res.bind] at hr
    | ub => rw [hs] at hr; simp [Res.bind] at hr
    | terminate => rw [hs] at hr; simp [Res.bind] at hr

theorem run_append (H : Oracle) (as bs : List Act) : ∀ s, run H s (as ++ bs) = (run H s as).bind fun s => run H s bs := by
  induction as with
  | nil => intro s; rfl
  | cons a as ih =>
    intro s
    simp only [List.cons_append, run]
    cases step H s a <;> simp [Res.bind, ih]

/-- What the worker leaves alone: who asked for what, and which futures are held. -/
def face (s : State) : List (Bytes × Bytes × Bool) := s.reqs.map fun q => (q.endpoint, q.payload, q.held)

theorem map_modify_same {β : Type} (g : Req → β) (f : Req → Req) (h : ∀ q, g (f q) = g q) (l : List Req) (i : Nat) :
    (l.modify i f).map g = l.map g := by
  apply List.ext_getElem?
  intro j
  simp only [List.getElem?_map, getElem?_modify']
  split
  · cases l[j]? <;> simp [h]
  · rfl

theorem face_one {H : Oracle} {s s' : State} {i : Nat} (hr : serveOne H s i = .ok s') :
    face s' = face s ∧ (s'.calls = s.calls ∨
      ∃ x, s'.calls = s.calls ++ [x] ∧ x.result = H s.calls.length x.endpoint x.payload) := by
  unfold serveOne at hr
  cases hq : s.reqs[i]? with
  | none => simp only [hq, Res.ok.injEq] at hr; subst hr; exact ⟨rfl, Or.inl rfl⟩
  | some q =>
    simp only [hq] at hr
    split at hr
    · simp only [Res.ok.injEq] at hr; subst hr; exact ⟨rfl, Or.inl rfl⟩
    · split at hr
      · simp at hr
      · cases hres : H s.calls.length q.endpoint q.payload with
        | answers d =>
          simp only [hres, Res.ok.injEq] at hr
          subst hr
          exact ⟨by unfold face; exact map_modify_same _ _ (by simp) _ _, Or.inr ⟨_, rfl, hres.symm⟩⟩
        | declines =>
          simp only [hres, Res.ok.injEq] at hr
          subst hr
          exact ⟨by unfold face; exact map_modify_same _ _ (by simp) _ _, Or.inr ⟨_, rfl, hres.symm⟩⟩
        | throws => simp [hres] at hr

/-- The results are what the handler returned. -/
def ResultsOf (H : Oracle) (s : State) : Prop :=
  ∀ (k : Nat) (x : Call), s.calls[k]? = some x → x.result = H k x.endpoint x.payload

theorem results_snoc {H : Oracle} {s s' : State} (h : ResultsOf H s) (hc : s'.calls = s.calls ∨
      ∃ x, s'.calls = s.calls ++ [x] ∧ x.result = H s.calls.length x.endpoint x.payload) : ResultsOf H s' := by
  intro k x hk
  rcases hc with hc | ⟨y, hc, hy⟩
  · rw [hc] at hk; exact h k x hk
  · rw [hc, List.getElem?_append] at hk
    split at hk
    · exact h k x hk
    · have hx := List.mem_of_getElem? hk
      simp at hx
      subst hx
      have := (List.getElem?_eq_some_iff.1 hk).1
      simp at this
      rw [show k = s.calls.length by omega]; exact hy

theorem face_many (H : Oracle) (n : Nat) : ∀ {s s' : State}, serveMany H s n = .ok s' →
    face s' = face s ∧ (ResultsOf H s → ResultsOf H s') := by
  induction n with
  | zero => intro s s' hr; simp [serveMany] at hr; subst hr; exact ⟨rfl, id⟩
  | succ n ih =>
    intro s s' hr
    simp only [serveMany] at hr
    cases hone : serveOne H s s.done with
    | ok s1 =>
      rw [hone] at hr
      obtain ⟨g1, g2⟩ := face_one hone
      obtain ⟨k1, k2⟩ := ih hr
      refine ⟨k1.trans g1, fun h => k2 ?_⟩
      exact results_snoc h g2
    | throws w => rw [hone] at hr; simp [Res.bind] at hr
    | ub => rw [hone] at hr; simp [Res.bind] at hr
    | terminate => rw [hone] at hr; simp [Res.bind] at hr

/-- Specification: the requests made in a history, in order. -/
def requestsOf (as : List Act) : List (Bytes × Bytes) :=
  as.filterMap fun a => match a with
    | .request ep p => some (ep, p)
    | _ => none

theorem face_run (H : Oracle) (as : List Act) : ∀ {s s' : State}, ResultsOf H s → run H s as = .ok s' →
    ResultsOf H s' ∧
    s'.reqs.map (fun q => (q.endpoint, q.payload)) = s.reqs.map (fun q => (q.endpoint, q.payload)) ++ requestsOf as ∧
    (∀ (i : Nat) (q : Req), s'.reqs[i]? = some q → Act.drop i ∉ as → (∀ q, s.reqs[i]? = some q → q.held = true) →
      q.held = true) := by
  induction as with
  | nil =>
    intro s s' h hr
    simp only [run, Res.ok.injEq] at hr
    subst hr
    exact ⟨h, by simp [requestsOf], fun i q hq _ hh => hh q hq⟩
  | cons a as ih =>
    intro s s' h hr
    simp only [run] at hr
    cases hs : step H s a with
    | throws w => rw [hs] at hr; simp [Res.bind] at hr
    | ub => rw [hs] at hr; simp [Res.bind] at hr
    | terminate => rw [hs] at hr; simp [Res.bind] at hr
    | ok s1 =>
      rw [hs] at hr
      simp only [Res.bind] at hr
      cases a with
      | request ep p =>
        simp only [step, Res.ok.injEq] at hs
        subst hs
        obtain ⟨g1, g2, g3⟩ := ih (s := { s with reqs := s.reqs ++ [{ endpoint := ep, payload := p }] }) h hr
        refine ⟨g1, by rw [g2]; simp [requestsOf], ?_⟩
        intro i q hq hd hh
        refine g3 i q hq (by simp at hd; exact hd) ?_
        intro q' hq'
        simp only at hq'
        rw [List.getElem?_append] at hq'
        split at hq'
        · exact hh q' hq'
        · have := List.mem_of_getElem? hq'
          simp at this
          subst this; rfl
      | drop i0 =>
        simp only [step, Res.ok.injEq] at hs
        subst hs
        obtain ⟨g1, g2, g3⟩ := ih (s := { s with reqs := s.reqs.modify i0 (fun q => { q with held := false }) }) h hr
        refine ⟨g1, by
          rw [g2]; simp only; rw [map_modify_same (fun q : Req => (q.endpoint, q.payload)) _ (by simp)]; simp [requestsOf], ?_⟩
        intro i q hq hd hh
        simp only [List.mem_cons, not_or, Act.drop.injEq] at hd
        refine g3 i q hq hd.2 ?_
        intro q' hq'
        simp only [getElem?_modify', if_neg hd.1] at hq'
        exact hh q' hq'
      | addServerEndpoint n =>
        simp only [step, Res.ok.injEq] at hs
        subst hs
        obtain ⟨g1, g2, g3⟩ := ih (s := { s with serverEndpoints := n :: s.serverEndpoints }) h hr
        refine ⟨g1, by rw [g2]; simp [requestsOf], ?_⟩
        intro i q hq hd hh
        exact g3 i q hq (by simp at hd; exact hd) hh
      | work =>
        obtain ⟨f1, f2⟩ := face_many H _ (show serveMany H s (s.reqs.length - s.done) = .ok s1 from hs)
        obtain ⟨g1, g2, g3⟩ := ih (f2 h) hr
        have key : s1.reqs.map (fun q => (q.endpoint, q.payload)) = s.reqs.map (fun q => (q.endpoint, q.payload)) := by
          have := congrArg (List.map (fun x : Bytes × Bytes × Bool => (x.1, x.2.1))) f1
          simpa [face, List.map_map, Function.comp_def] using this
        refine ⟨g1, by rw [g2, key]; simp [requestsOf], ?_⟩
        intro i q hq hd hh
        refine g3 i q hq (by simp at hd; exact hd) ?_
        intro q' hq'
        have := congrArg (fun l => l[i]?) f1
        simp only [face, List.getElem?_map, hq', Option.map_some] at this
        cases hq0 : s.reqs[i]? with
        | none => rw [hq0] at this; simp at this
        | some q0 =>
          rw [hq0] at this
          simp at this
          rw [this.2.2]; exact hh q0 hq0

/-- The full property C14 (false, see `missing_endpoint_crashes`): handlers that do not throw never lead to a crash. -/
def NeverCrashes : Prop :=
  ∀ (H : Oracle), (∀ n ep p, H n ep p ≠ .throws) → ∀ as, (run H {} as).isOk = true

/-- **C14, partial.** Take any history of requests, dropped futures, added endpoints and visits of the worker, with any
    handler results, that does not crash, followed by a visit of the worker. Then
    - the handler invocations are made in the order of the requests, at most one per request;
    - every request whose future was not dropped has been served: a handler was invoked for the requested endpoint with the
      payload of the request, and its future holds what the handler returned, or fails if the handler declined;
    - an invocation is always made for the endpoint and with the payload of the request it serves;
    - no request is pending.
    Missing from the full property: requests for endpoints the server does not have. -/
theorem loopback_requests_partial (H : Oracle) (as : List Act) (s : State) (hrun : run H {} (as ++ [.work]) = .ok s) :
    (s.calls.map (·.req)).Pairwise (· < ·) ∧
    (∀ (i : Nat) (ep p : Bytes), (requestsOf as)[i]? = some (ep, p) → Act.drop i ∉ as →
      ∃ (k : Nat) (q : Req), s.calls[k]? = some { req := i, endpoint := ep, payload := p, result := H k ep p } ∧
        s.reqs[i]? = some q ∧ q.fut = futureOf (H k ep p)) ∧
    (∀ x ∈ s.calls, (requestsOf as)[x.req]? = some (x.endpoint, x.payload)) ∧
    pendingRequests s = 0 := by
  have hrun' := hrun
  rw [run_append] at hrun
  cases h1 : run H {} as with
  | ok s1 =>
    rw [h1] at hrun
    simp only [Res.bind, run, step] at hrun
    cases h2 : serveRequests H s1 with
    | ok s2 =>
      rw [h2] at hrun
      simp only [Res.ok.injEq] at hrun
      subst hrun
      have hs1 := served_run H as served_init h1
      have hb := hs1.bound
      obtain ⟨g, gd, gl⟩ := served_many H _ hs1 (by omega) h2
      have hall : s2.done = s2.reqs.length := by omega
      obtain ⟨f1, f2, f3⟩ := face_run H (as ++ [.work]) (s := {}) (by intro k x hk; simp at hk) hrun'
      have hreq : requestsOf (as ++ [.work]) = requestsOf as := by simp [requestsOf]
      rw [hreq] at f2
      simp only [List.map_nil, List.nil_append] at f2
      refine ⟨g.order, ?_, ?_, by unfold pendingRequests; omega⟩
      · intro i ep p hi hd
        rw [← f2, List.getElem?_map] at hi
        cases hq : s2.reqs[i]? with
        | none => rw [hq] at hi; simp at hi
        | some q =>
          rw [hq] at hi
          simp at hi
          have hheld := f3 i q hq (by simpa using hd) (by simp)
          obtain ⟨x, hx, hxi⟩ := g.all i q (by rw [hall]; exact (List.getElem?_eq_some_iff.1 hq).1) hq hheld
          obtain ⟨k, hk⟩ := List.getElem?_of_mem hx
          obtain ⟨q', hq', e1, e2, e3⟩ := g.own x hx
          rw [hxi, hq] at hq'
          simp at hq'
          subst hq'
          have hres := f1 k x hk
          refine ⟨k, q, ?_, rfl, ?_⟩
          · rw [hk]
            cases x
            simp at hxi e1 e2 hres ⊢
            grind
          · rw [e3, hres, ← e1, ← e2, hi.1, hi.2]
      · intro x hx
        obtain ⟨q, hq, e1, e2, _⟩ := g.own x hx
        rw [← f2, List.getElem?_map, hq]
        simp [e1, e2]
    | throws w => rw [h2] at hrun; simp at hrun
    | ub => rw [h2] at hrun; simp at hrun
    | terminate => rw [h2] at hrun; simp at hrun
  | throws w => rw [h1] at hrun; simp [Res.bind] at hrun
  | ub => rw [h1] at hrun; simp [Res.bind] at hrun
  | terminate => rw [h1] at hrun; simp [Res.bind] at hrun

/-- Every request names an endpoint that was added to the server before. -/
def RequestsKnownEndpoints : List Bytes → List Act → Prop
  | _, [] => True
  | eps, .request ep _ :: as => ep ∈ eps ∧ RequestsKnownEndpoints eps as
  | eps, .addServerEndpoint n :: as => RequestsKnownEndpoints (n :: eps) as
  | eps, _ :: as => RequestsKnownEndpoints eps as

theorem one_ok {H : Oracle} (hH : ∀ n ep p, H n ep p ≠ .throws) {s : State}
    (hk : ∀ q ∈ s.reqs, q.endpoint ∈ s.serverEndpoints) (i : Nat) :
    ∃ s', serveOne H s i = .ok s' ∧ s'.serverEndpoints = s.serverEndpoints ∧
      (∀ q ∈ s'.reqs, q.endpoint ∈ s.serverEndpoints) := by
  unfold serveOne
  cases hq : s.reqs[i]? with
  | none => exact ⟨s, rfl, rfl, hk⟩
  | some q =>
    simp only
    have hin := hk q (List.mem_of_getElem? hq)
    have hmod : ∀ f : Req → Req, (∀ q, (f q).endpoint = q.endpoint) →
        ∀ q ∈ s.reqs.modify i f, q.endpoint ∈ s.serverEndpoints := by
      intro f hf q' hq'
      obtain ⟨j, hj⟩ := List.getElem?_of_mem hq'
      rw [getElem?_modify'] at hj
      split at hj
      · simp only [Option.map_eq_some_iff] at hj
        obtain ⟨q0, h0, rfl⟩ := hj
        rw [hf]; exact hk q0 (List.mem_of_getElem? h0)
      · exact hk q' (List.mem_of_getElem? hj)
    split
    · exact ⟨s, rfl, rfl, hk⟩
    · cases hres : H s.calls.length q.endpoint q.payload with
      | answers d => exact ⟨_, rfl, rfl, hmod _ (fun _ => rfl)⟩
      | declines => exact ⟨_, rfl, rfl, hmod _ (fun _ => rfl)⟩
      | throws => exact absurd hres (hH _ _ _)

theorem many_ok {H : Oracle} (hH : ∀ n ep p, H n ep p ≠ .throws) (n : Nat) : ∀ {s : State},
    (∀ q ∈ s.reqs, q.endpoint ∈ s.serverEndpoints) →
    ∃ s', serveMany H s n = .ok s' ∧ s'.serverEndpoints = s.serverEndpoints ∧
      (∀ q ∈ s'.reqs, q.endpoint ∈ s.serverEndpoints) := by
  induction n with
  | zero => intro s hk; exact ⟨s, rfl, rfl, hk⟩
  | succ n ih =>
    intro s hk
    obtain ⟨s1, h1, h2, h3⟩ := one_ok hH hk s.done
    obtain ⟨s', g1, g2, g3⟩ := ih (s := { s1 with done := s1.done + 1 }) (by simp only; rw [h2]; exact h3)
    refine ⟨s', ?_, ?_, ?_⟩
    · simp only [serveMany, h1, Res.bind]; exact g1
    · rw [g2]; exact h2
    · simp only at g3; rw [← h2]; exact g3

/-- **C14, no crash.** A history in which requests are only made to endpoints that the server has, with handlers that do not
    throw, does not crash; so `loopback_requests_partial` applies to it. -/
theorem loopback_no_crash_partial (H : Oracle) (hH : ∀ n ep p, H n ep p ≠ .throws) (as : List Act) :
    ∀ s : State, (∀ q ∈ s.reqs, q.endpoint ∈ s.serverEndpoints) → RequestsKnownEndpoints s.serverEndpoints as →
      (run H s as).isOk = true := by
  induction as with
  | nil => intro s _ _; rfl
  | cons a as ih =>
    intro s hk hr
    cases a with
    | request ep p =>
      apply ih
      · intro q hq
        simp at hq
        rcases hq with hq | hq
        · exact hk q hq
        · subst hq; exact hr.1
      · exact hr.2
    | drop i =>
      apply ih
      · intro q hq
        obtain ⟨j, hj⟩ := List.getElem?_of_mem hq
        simp only [getElem?_modify'] at hj
        split at hj
        · simp only [Option.map_eq_some_iff] at hj
          obtain ⟨q0, h0, rfl⟩ := hj
          exact hk q0 (List.mem_of_getElem? h0)
        · exact hk q (List.mem_of_getElem? hj)
      · exact hr
    | work =>
      obtain ⟨s', g1, g2, g3⟩ := many_ok hH (s.reqs.length - s.done) hk
      simp only [run, step, serveRequests, g1, Res.bind]
      apply ih
      · rw [g2]; exact g3
      · rw [g2]; exact hr
    | addServerEndpoint n =>
      apply ih
      · intro q hq; simp; right; exact hk q hq
      · exact hr

/-- **C14, what goes wrong in general.** A request for an endpoint that the server does not have, whose future is held when
    the worker comes by, makes the worker dereference a null pointer, whatever is queued before it (as long as the
    earlier requests are served normally). -/
theorem missing_endpoint_ub (H : Oracle) (s s' : State) (n : Nat) (hpre : serveMany H s n = .ok s')
    (q : Req) (hq : s'.reqs[s'.done]? = some q) (hh : q.held = true) (hmiss : q.endpoint ∉ s'.serverEndpoints) (k : Nat) :
    serveMany H s (n + 1 + k) = .ub := by
  induction n generalizing s with
  | zero =>
    simp [serveMany] at hpre
    subst hpre
    rw [Nat.zero_add, Nat.add_comm 1 k]
    simp only [serveMany, serveOne, hq, hh]
    simp [hmiss, Res.bind]
  | succ n ih =>
    rw [show n + 1 + 1 + k = (n + 1 + k) + 1 by omega]
    simp only [serveMany] at hpre ⊢
    cases hone : serveOne H s s.done with
    | ok s1 =>
      rw [hone] at hpre
      simp only [Res.bind] at hpre ⊢
      exact ih _ hpre
    | throws w => rw [hone] at hpre; simp [Res.bind] at hpre
    | ub => rfl
    | terminate => rw [hone] at hpre; simp [Res.bind] at hpre

/-- **C14 is violated.** -/
theorem missing_endpoint_crashes : ¬ NeverCrashes := by
  intro h
  have := h (fun _ _ _ => .declines) (by simp) [.request [1] [], .work]
  revert this
  decide

/-- Three requests, the second dropped, the third declined. -/
example :
    run (fun _ _ p => if p = [3] then .declines else .answers (p ++ [9])) {}
      [.addServerEndpoint [1], .request [1] [1], .request [1] [2], .drop 1, .request [1] [3], .work] =
    .ok { reqs := [⟨[1], [1], true, .value [1, 9]⟩, ⟨[1], [2], false, .waiting⟩, ⟨[1], [3], true, .broken⟩], done := 3,
          serverEndpoints := [[1]],
          calls := [⟨0, [1], [1], .answers [1, 9]⟩, ⟨2, [1], [3], .declines⟩] } := by decide

end Scalopus.C14

namespace Scalopus.C15

open Protocol Loopback

/-- Specification: the numbers of the clients that are alive and have an endpoint of this name, counting from `i`. -/
def listeners (name : Bytes) : Nat → List Client → List Nat
  | _, [] => []
  | i, c :: cs => (if c.alive && c.endpoints.contains name then [i] else []) ++ listeners name (i + 1) cs

/-- Specification: the replies of those clients whose endpoint replies. -/
def repliesOf (name : Bytes) : Nat → List Client → List (Nat × Bytes)
  | _, [] => []
  | i, c :: cs =>
    (match c.unsolicited with
      | .answers d => if c.alive && c.endpoints.contains name then [(i, d)] else []
      | _ => []) ++ repliesOf name (i + 1) cs

/-- The full property C15 (false, see `reply_crashes`). -/
def RepliesReachServer : Prop :=
  ∀ (name : Bytes) (serverHas : Bool) (H : Nat → Bytes → Handled) (cs : List Client), (∀ c ∈ cs, c.unsolicited ≠ .throws) →
    (deliver name serverHas H {} 0 cs).isOk = true

theorem deliver_spec (name : Bytes) (serverHas : Bool) (H : Nat → Bytes → Handled) (cs : List Client) :
    ∀ (log : Log) (i : Nat), (∀ c ∈ cs, c.unsolicited ≠ .throws) →
      (∀ r ∈ repliesOf name i cs, serverHas = true ∧ H r.1 r.2 = .declines) →
      deliver name serverHas H log i cs =
        .ok { delivered := log.delivered ++ listeners name i cs, replies := log.replies ++ repliesOf name i cs } := by
  induction cs with
  | nil => intro log i _ _; simp [deliver, listeners, repliesOf]
  | cons c cs ih =>
    intro log i hth hok
    have hth' : ∀ c ∈ cs, c.unsolicited ≠ .throws := fun c hc => hth c (by simp [hc])
    have hok' : ∀ r ∈ repliesOf name (i + 1) cs, serverHas = true ∧ H r.1 r.2 = .declines :=
      fun r hr => hok r (by simp [repliesOf, hr])
    have hc := hth c (by simp)
    cases hal : c.alive with
    | false =>
      simp only [deliver, hal, true_or, if_true, ih _ _ hth' hok', listeners, repliesOf]
      cases c.unsolicited <;> simp
    | true =>
      by_cases hn : name ∈ c.endpoints
      · have hcond : ¬ ((true : Bool) = false ∨ name ∉ c.endpoints) := by simp [hn]
        cases hu : c.unsolicited with
        | throws => exact absurd hu hc
        | declines =>
          simp only [deliver, hal, hu, hcond, if_false, ih _ _ hth' hok', listeners, repliesOf]
          simp [hn]
        | answers d =>
          have := hok (i, d) (by simp [repliesOf, hu, hal, hn])
          simp only at this
          simp only [deliver, hal, hu, hcond, if_false, this.2, listeners, repliesOf]
          rw [if_neg (by simp [this.1]), ih _ _ hth' hok']
          simp [hn]
      · have hcond : ((true : Bool) = false ∨ name ∉ c.endpoints) := Or.inr hn
        simp only [deliver, hal, hcond, if_true, ih _ _ hth' hok', listeners, repliesOf]
        cases c.unsolicited <;> simp [hn]

/-- **C15, partial.** A broadcast is handed to exactly the live clients that have an endpoint of this name, to each once, in
    order, and every reply goes to the server's endpoint, provided that the server has an endpoint of this name that does not
    answer in turn if there is a reply. Missing from the full property: replies when the server has no such endpoint or its
    endpoint answers. -/
theorem loopback_broadcast_partial (name : Bytes) (serverHas : Bool) (H : Nat → Bytes → Handled) (cs : List Client)
    (hth : ∀ c ∈ cs, c.unsolicited ≠ .throws)
    (hok : ∀ r ∈ repliesOf name 0 cs, serverHas = true ∧ H r.1 r.2 = .declines) :
    deliver name serverHas H {} 0 cs = .ok { delivered := listeners name 0 cs, replies := repliesOf name 0 cs } := by
  rw [deliver_spec name serverHas H cs {} 0 hth hok]
  simp

/-- **C15 is violated**: a reply for which the server has no endpoint dereferences a null pointer. -/
theorem reply_crashes : ¬ RepliesReachServer := by
  intro h
  have := h [1] false (fun _ _ => .declines) [⟨true, [[1]], .answers [7]⟩] (by simp)
  revert this
  decide

/-- A reply that the server's endpoint answers terminates the process. -/
theorem answered_reply_terminates :
    deliver [1] true (fun _ _ => .answers []) {} 0 [⟨true, [[1]], .answers [7]⟩] = .terminate := by decide

example :
    let cs : List Client := [⟨true, [[1]], .declines⟩, ⟨false, [[1]], .answers []⟩, ⟨true, [[2]], .answers []⟩,
      ⟨true, [[2], [1]], .answers [7]⟩]
    deliver [1] true (fun _ _ => .declines) {} 0 cs = .ok { delivered := [0, 3], replies := [(3, [7])] } := by decide

end Scalopus.C15
