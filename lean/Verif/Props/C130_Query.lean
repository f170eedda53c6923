import Verif.Model.Query
import Verif.Proofs.UnixProgress
import Verif.Props.C128_BsonEndpoints

/-!
# C130: a query tells what the process had at a moment during the query

For every schedule of the threads of the process, of its server and of its clients: an answer that a client gets to one of the four built-in queries is exactly what the process had at one moment between the sending of
the query and the arrival of the answer. A command that sets switches has its effect at such a moment, once.
-/

namespace Scalopus.C130

open BsonEndpoints Bson Configurator
open Unix (Conn Req Call dispatchMsg IdInv MapInv MsgInv idInv_run idInv_init mapInv_run msgInv_run length_run req_run)
open Query hiding Bytes

/-! ## Specification -/

/-- Call number `r` on this connection has been made, and has no answer and no error yet. -/
def Waiting (c : Conn) (r : Nat) : Prop := ∃ q : Req, c.reqs[r]? = some q ∧ q.fut = .waiting

/-- The state `s` of the system in which the answer to call `r` of client `i` is made, in a schedule `as`: the process runs, and the client waits. -/
def During (stack : Nat) (f : Facts) (as : List Act) (i r : Nat) (s : State) : Prop :=
  s.ended = false ∧ Waiting (s.conns i) r ∧ ∃ before after, as = before ++ after ∧ s = run stack (init f) before

/-! ## The connections run as in C06 -/

theorem run_snoc (stack : Nat) (s : State) (as : List Act) (a : Act) : run stack s (as ++ [a]) = step stack (run stack s as) a := by simp [run]

theorem run_append (stack : Nat) (s : State) (as bs : List Act) : run stack s (as ++ bs) = run stack (run stack s as) bs := by simp [run]

/-- Steps in which no client endpoint answers on its own. -/
def Quiet (l : List Unix.Act) : Prop := ∀ x ∈ l, ∀ d, x ≠ .dispatch (some d)

theorem upd_conn (s : State) (i j : Nat) (a : Unix.Act) (ha : ∀ d, a ≠ .dispatch (some d)) : ∃ l, Quiet l ∧ (upd s i a).conns j = Unix.run (s.conns j) l := by
  by_cases h : j = i
  · exact ⟨[a], by intro x hx d; simp at hx; rw [hx]; exact ha d, by simp [upd, h, Unix.run]⟩
  · exact ⟨[], by intro x hx; simp at hx, by simp [upd, h, Unix.run]⟩

theorem stop_conn (s : State) (j : Nat) : ∃ l, Quiet l ∧ (stop s).conns j = Unix.run (s.conns j) l :=
  ⟨[.serverDown], by intro x hx d; simp at hx; rw [hx]; simp, rfl⟩

theorem stay (c : Conn) : ∃ l, Quiet l ∧ c = Unix.run c l := ⟨[], by intro x hx; simp at hx, rfl⟩

theorem step_conn (stack : Nat) (s : State) (a : Act) (j : Nat) : ∃ l, Quiet l ∧ (step stack s a).conns j = Unix.run (s.conns j) l := by
  cases a with
  | change f => simp only [step]; split <;> exact stay _
  | addEndpoint n =>
    simp only [step]
    split
    · exact ⟨[.addServerEndpoint n], by intro x hx d; simp at hx; rw [hx]; simp, rfl⟩
    · exact stay _
  | serve i other =>
    simp only [step]
    split
    · exact stay _
    · split
      · exact stay _
      · split
        · split
          · exact upd_conn _ _ _ _ (by simp)
          · exact stop_conn _ _
        · exact upd_conn _ _ _ _ (by simp)
  | conn i a =>
    simp only [step]
    split
    · rename_i h
      exact upd_conn _ _ _ _ (by intro d e; rw [e] at h; simp [clientStep] at h)
    · exact stay _
  | stop => exact stop_conn _ _

theorem run_conn (stack : Nat) (s : State) (as : List Act) (j : Nat) : ∃ l, Quiet l ∧ (run stack s as).conns j = Unix.run (s.conns j) l := by
  induction as generalizing s with
  | nil => exact stay _
  | cons a as ih =>
    obtain ⟨l1, h1, e1⟩ := step_conn stack s a j
    obtain ⟨l2, h2, e2⟩ := ih (step stack s a)
    refine ⟨l1 ++ l2, ?_, ?_⟩
    · intro x hx
      rcases List.mem_append.1 hx with h | h
      · exact h1 x h
      · exact h2 x h
    · show (run stack (step stack s a) as).conns j = _
      rw [e2, e1, Unix.run_append]

theorem quiet_noReply (l : List Unix.Act) (h : Quiet l) (c : Conn) : Spec.Requests.NoReplyWhileUnregistered c l := by
  induction l generalizing c with
  | nil => trivial
  | cons a l ih => exact ⟨fun d m e => absurd e (h a (by simp) d), ih (fun x hx => h x (by simp [hx])) _⟩

/-- The invariants of C06 hold for every connection. -/
theorem conn_inv (stack : Nat) (f : Facts) (as : List Act) (i : Nat) (hn : ((run stack (init f) as).conns i).reqs.length < 2 ^ 64) :
    IdInv ((run stack (init f) as).conns i) ∧ MapInv ((run stack (init f) as).conns i) ∧ MsgInv ((run stack (init f) as).conns i) := by
  obtain ⟨l, hl, e⟩ := run_conn stack (init f) as i
  have e' : (run stack (init f) as).conns i = Unix.run Unix.init l := e
  rw [e'] at hn ⊢
  exact ⟨idInv_run idInv_init l, mapInv_run l hn, msgInv_run l hn (quiet_noReply l hl _)⟩

/-- Calls stay what they are, from one moment to a later one. -/
theorem req_later (stack : Nat) (f : Facts) (as bs : List Act) (i : Nat) (hn : ((run stack (init f) (as ++ bs)).conns i).reqs.length < 2 ^ 64)
    (r : Nat) (q : Req) (hq : ((run stack (init f) as).conns i).reqs[r]? = some q) :
    ∃ q', ((run stack (init f) (as ++ bs)).conns i).reqs[r]? = some q' ∧ q'.endpoint = q.endpoint ∧ q'.payload = q.payload ∧ q'.id = q.id ∧ (∀ d, q.fut = .value d → q'.fut = .value d) := by
  obtain ⟨l, hl, e⟩ := run_conn stack (run stack (init f) as) bs i
  rw [← run_append] at e
  rw [e] at hn ⊢
  have hle : ((run stack (init f) as).conns i).reqs.length < 2 ^ 64 := Nat.lt_of_le_of_lt (length_run _ l) hn
  obtain ⟨h1, h2, _⟩ := conn_inv stack f as i hle
  obtain ⟨q', g1, g2, g3, g4, g5, _⟩ := req_run l h1 h2 hn hq
  exact ⟨q', g1, g2, g3, g4, g5⟩

/-! ## Where a call of a handler comes from -/

theorem dispatch_calls (c : Conn) (m : Protocol.Msg) (rep : Option Bytes) : (dispatchMsg c m rep).calls = c.calls := by
  unfold dispatchMsg
  repeat' split
  all_goals rfl

theorem step_calls (c : Conn) (a : Unix.Act) (h : ∀ r, a ≠ .serve r) : (Unix.step c a).calls = c.calls := by
  cases a with
  | serve r => exact absurd rfl (h r)
  | dispatch rep =>
    simp only [Unix.step]
    split
    · rfl
    · rw [dispatch_calls]
  | _ =>
    simp only [Unix.step]
    try (repeat' split)
    all_goals (first | rfl | (simp [Unix.updReq]; done) | (simp [Unix.updReq]; split <;> rfl))

/-- The names that the connections know are those of the process, as long as it runs. -/
def Names (s : State) : Prop := s.ended = false → ∀ i n, n ∈ (s.conns i).serverEndpoints ↔ n ∈ s.facts.endpoints

theorem step_serverEndpoints (c : Conn) (a : Unix.Act) (h : ∀ n, a ≠ .addServerEndpoint n) : (Unix.step c a).serverEndpoints = c.serverEndpoints := by
  cases a with
  | addServerEndpoint n => exact absurd rfl (h n)
  | dispatch rep =>
    simp only [Unix.step]
    split
    · rfl
    · unfold dispatchMsg
      repeat' split
      all_goals rfl
  | _ =>
    simp only [Unix.step]
    try (repeat' split)
    all_goals (first | rfl | (simp [Unix.updReq]; done) | (simp [Unix.updReq]; split <;> rfl))

theorem lt_trichotomy (a b : Bytes) : a < b ∨ a = b ∨ b < a := by
  rcases Decidable.em (a < b) with h | h
  · exact .inl h
  · rcases Decidable.em (b < a) with h' | h'
    · exact .inr (.inr h')
    · exact .inr (.inl (List.le_antisymm h' h))

theorem mem_insertName (l : List Bytes) (n x : Bytes) : x ∈ insertName l n ↔ x = n ∨ x ∈ l := by
  simp only [insertName, List.mem_append, List.mem_filter, List.mem_cons, decide_eq_true_eq]
  constructor
  · rintro (⟨h, _⟩ | rfl | ⟨h, _⟩)
    · exact .inr h
    · exact .inl rfl
    · exact .inr h
  · rintro (rfl | h)
    · exact .inr (.inl rfl)
    · rcases lt_trichotomy x n with h' | h' | h'
      · exact .inl ⟨h, h'⟩
      · exact .inr (.inl h')
      · exact .inr (.inr ⟨h, h'⟩)

theorem handle_endpoints {stack : Nat} {f f' : Facts} {e p : Bytes} {o r : Option Bytes} (h : handle stack f e p o = .ok (f', r)) : f'.endpoints = f.endpoints := by
  unfold Query.handle at h
  split at h
  · cases hx : infoHandle stack f.pid f.name f.threads p <;> rw [hx] at h <;> simp [Res.bind] at h
    rw [← h.1]
  · split at h
    · cases hx : introspectHandle f.endpoints <;> rw [hx] at h <;> simp [Res.bind] at h
      rw [← h.1]
    · split at h
      · split at h
        · cases h
        · split at h
          · cases hx : mappingResponse f.pid f.names <;> rw [hx] at h <;> simp [Res.bind] at h
            rw [← h.1]
          · simp at h
            rw [← h.1]
      · split at h
        · cases hx : configHandle stack f.switches p <;> rw [hx] at h <;> simp [Res.bind] at h
          rw [← h.1]
        · simp at h
          rw [← h.1]

theorem upd_names (s : State) (i : Nat) (a : Unix.Act) (ha : ∀ n, a ≠ .addServerEndpoint n) (h : Names s) : Names (upd s i a) := by
  intro he j n
  have := h he j n
  simp only [upd]
  split
  · rw [step_serverEndpoints _ _ ha]; exact this
  · exact this

theorem names_step (stack : Nat) (s : State) (a : Act) (h : Names s) : Names (step stack s a) := by
  cases a with
  | change f =>
    simp only [step]
    split
    · rename_i hc
      intro he i n
      show _ ↔ n ∈ f.endpoints
      rw [hc.2.2]
      exact h he i n
    · exact h
  | addEndpoint n =>
    simp only [step]
    split
    · rename_i hc
      intro he i x
      have := h he i x
      simp only [Unix.step, mem_insertName, List.mem_cons, this]
    · exact h
  | serve i other =>
    simp only [step]
    split
    · exact h
    · split
      · exact h
      · split
        · split
          · rename_i hh
            refine upd_names _ _ _ (by simp) ?_
            intro he j n
            show _ ↔ n ∈ _
            simp only [handle_endpoints hh]
            exact h he j n
          · intro he; simp [stop] at he
        · exact upd_names _ _ _ (by simp) h
  | conn i a =>
    simp only [step]
    split
    · rename_i hc
      exact upd_names _ _ _ (by intro n e; rw [e] at hc; simp [clientStep] at hc) h
    · exact h
  | stop => intro he; simp [step, stop] at he

theorem names_run (stack : Nat) (f : Facts) (as : List Act) : Names (run stack (init f) as) := by
  have key : ∀ as s, Names s → Names (run stack s as) := by
    intro as
    induction as with
    | nil => intro s h; exact h
    | cons a as ih => intro s h; exact ih _ (names_step stack s a h)
  exact key as _ (by intro _ i n; simp [init])

/-- Every invocation of a handler happened in one step of the server's worker, with what the process had then. -/
theorem call_made (stack : Nat) (f : Facts) (as : List Act) (i : Nat) (x : Call) (hx : x ∈ ((run stack (init f) as).conns i).calls) :
    ∃ before other after f' tl, as = before ++ .serve i other :: after ∧ (run stack (init f) before).ended = false ∧
      ((run stack (init f) before).conns i).toServer = { requestId := x.id, endpoint := x.endpoint, data := x.payload } :: tl ∧
      Query.handle stack (run stack (init f) before).facts x.endpoint x.payload other = .ok (f', x.result) ∧
      (run stack (init f) (before ++ [.serve i other])).facts = f' := by
  have key : ∀ n, ∀ as : List Act, as.length = n → x ∈ ((run stack (init f) as).conns i).calls → ∃ before other after f' tl, as = before ++ .serve i other :: after ∧
      (run stack (init f) before).ended = false ∧
      ((run stack (init f) before).conns i).toServer = { requestId := x.id, endpoint := x.endpoint, data := x.payload } :: tl ∧
      Query.handle stack (run stack (init f) before).facts x.endpoint x.payload other = .ok (f', x.result) ∧
      (run stack (init f) (before ++ [.serve i other])).facts = f' := by
    intro n
    induction n with
    | zero =>
      intro as hl hx
      rw [List.length_eq_zero_iff.1 hl] at hx
      simp [run, init] at hx
    | succ n ih =>
      intro as hl hx
      have hne : as ≠ [] := fun e => by rw [e] at hl; simp at hl
      obtain ⟨l, a, rfl⟩ : ∃ l' a, as = l' ++ [a] := ⟨as.dropLast, as.getLast hne, (List.dropLast_concat_getLast hne).symm⟩
      have old : x ∈ ((run stack (init f) l).conns i).calls → ∃ before other after f' tl, l ++ [a] = before ++ .serve i other :: after ∧
          (run stack (init f) before).ended = false ∧
          ((run stack (init f) before).conns i).toServer = { requestId := x.id, endpoint := x.endpoint, data := x.payload } :: tl ∧
          Query.handle stack (run stack (init f) before).facts x.endpoint x.payload other = .ok (f', x.result) ∧
          (run stack (init f) (before ++ [.serve i other])).facts = f' := by
        intro h
        obtain ⟨before, other, after, f', tl, h1, h2⟩ := ih l (by simpa using hl) h
        exact ⟨before, other, after ++ [a], f', tl, by rw [h1]; simp, h2⟩
      have same : ((step stack (run stack (init f) l) a).conns i).calls = ((run stack (init f) l).conns i).calls →
          x ∈ ((run stack (init f) l).conns i).calls := by
        intro e
        rw [run_snoc, e] at hx
        exact hx
      have updCalls : ∀ (s : State) (j : Nat) (b : Unix.Act), (j ≠ i ∨ ∀ r, b ≠ .serve r) → ((upd s j b).conns i).calls = (s.conns i).calls := by
        intro s j b hb
        simp only [upd]
        split
        · rename_i e
          rcases hb with hb | hb
          · exact absurd e.symm hb
          · exact step_calls _ _ hb
        · rfl
      cases a with
      | change g => exact old (same (by simp only [step]; split <;> rfl))
      | addEndpoint g => exact old (same (by simp only [step]; split <;> rfl))
      | stop => exact old (same rfl)
      | conn j b =>
        refine old (same ?_)
        simp only [step]
        split
        · rename_i hb
          exact updCalls _ _ _ (.inr (by intro r e; rw [e] at hb; simp [clientStep] at hb))
        · rfl
      | serve j other =>
        have hN := names_run stack f l
        by_cases hj : j = i
        · subst hj
          cases hend : (run stack (init f) l).ended with
          | true => exact old (same (by simp [step, hend]))
          | false =>
            cases hts : ((run stack (init f) l).conns j).toServer with
            | nil => exact old (same (by simp [step, hend, hts]))
            | cons m tl =>
              by_cases hm : m.endpoint ∈ (run stack (init f) l).facts.endpoints
              · cases hh : Query.handle stack (run stack (init f) l).facts m.endpoint m.data other with
                | ok p =>
                  obtain ⟨f', r⟩ := p
                  have hm' := (hN hend j m.endpoint).2 hm
                  have e : step stack (run stack (init f) l) (.serve j other) = upd { run stack (init f) l with facts := f' } j (.serve r) := by
                    simp [step, hend, hts, hm, hh]
                  have hcalls : ((step stack (run stack (init f) l) (.serve j other)).conns j).calls =
                      ((run stack (init f) l).conns j).calls ++ [{ endpoint := m.endpoint, id := m.requestId, payload := m.data, result := r }] := by
                    rw [e]
                    simp [upd, Unix.step, hts, hm']
                  rw [run_snoc, hcalls] at hx
                  rcases List.mem_append.1 hx with hx | hx
                  · exact old hx
                  · simp only [List.mem_cons, List.not_mem_nil, or_false] at hx
                    subst hx
                    refine ⟨l, other, [], f', tl, rfl, hend, hts, hh, ?_⟩
                    rw [run_snoc, e]
                    rfl
                | throws w => exact old (same (by simp [step, hend, hts, hm, hh, stop, Unix.step]))
                | ub => exact old (same (by simp [step, hend, hts, hm, hh, stop, Unix.step]))
                | terminate => exact old (same (by simp [step, hend, hts, hm, hh, stop, Unix.step]))
              · have hm' : m.endpoint ∉ ((run stack (init f) l).conns j).serverEndpoints := fun h => hm ((hN hend j m.endpoint).1 h)
                exact old (same (by simp [step, hend, hts, hm, upd, Unix.step, hm']))
        · refine old (same ?_)
          simp only [step]
          repeat' split
          all_goals first | rfl | exact updCalls _ _ _ (.inl hj)
  exact key _ as rfl hx

/-- An answer that has arrived was made during the call. -/
theorem answered_during (stack : Nat) (f : Facts) (as : List Act) (i r : Nat) (hn : ((run stack (init f) as).conns i).reqs.length < 2 ^ 64) (q : Req) (d : Bytes)
    (hq : ((run stack (init f) as).conns i).reqs[r]? = some q) (hv : q.fut = .value d) :
    ∃ before other after f', as = before ++ .serve i other :: after ∧ During stack f as i r (run stack (init f) before) ∧
      Query.handle stack (run stack (init f) before).facts q.endpoint q.payload other = .ok (f', some d) ∧
      (run stack (init f) (before ++ [.serve i other])).facts = f' := by
  have key : ∀ n, ∀ as : List Act, as.length = n → ((run stack (init f) as).conns i).reqs.length < 2 ^ 64 → ∀ q : Req,
      ((run stack (init f) as).conns i).reqs[r]? = some q → q.fut = .value d →
      ∃ before other after f', as = before ++ .serve i other :: after ∧ During stack f as i r (run stack (init f) before) ∧
      Query.handle stack (run stack (init f) before).facts q.endpoint q.payload other = .ok (f', some d) ∧
      (run stack (init f) (before ++ [.serve i other])).facts = f' := by
    intro n
    induction n with
    | zero =>
      intro as hl _ q hq
      rw [List.length_eq_zero_iff.1 hl] at hq
      simp [run, init] at hq
    | succ n ih =>
      intro as hl hn q hq hv
      have hne : as ≠ [] := fun e => by rw [e] at hl; simp at hl
      obtain ⟨l, a, rfl⟩ : ∃ l' a, as = l' ++ [a] := ⟨as.dropLast, as.getLast hne, (List.dropLast_concat_getLast hne).symm⟩
      have hnl : ((run stack (init f) l).conns i).reqs.length < 2 ^ 64 := by
        obtain ⟨k, _, e⟩ := run_conn stack (run stack (init f) l) [a] i
        rw [← run_append] at e
        rw [e] at hn
        exact Nat.lt_of_le_of_lt (length_run _ k) hn
      by_cases hold : ∃ q1 d1, ((run stack (init f) l).conns i).reqs[r]? = some q1 ∧ q1.fut = .value d1
      · obtain ⟨q1, d1, h1, h2⟩ := hold
        obtain ⟨q2, g1, g2, g3, g4, g5⟩ := req_later stack f l [a] i hn r q1 h1
        rw [hq] at g1
        injection g1 with g1
        subst g1
        have := g5 d1 h2
        rw [hv] at this
        injection this with this
        subst this
        obtain ⟨before, other, after, f', k1, k2, k3, k4⟩ := ih l (by simpa using hl) hnl q1 h1 h2
        obtain ⟨w1, w2, b, c, w3, w4⟩ := k2
        refine ⟨before, other, after ++ [a], f', by rw [k1]; simp, ⟨w1, w2, b, c ++ [a], by rw [w3]; simp, w4⟩, ?_, k4⟩
        rw [g2, g3]
        exact k3
      · obtain ⟨hid, _, hmsg⟩ := conn_inv stack f (l ++ [a]) i hn
        have hans := hmsg.val r q d hq hv
        obtain ⟨before, other, after, f', tl, k1, k2, k3, k4, k5⟩ := call_made stack f (l ++ [a]) i _ hans
        refine ⟨before, other, after, f', k1, ⟨k2, ?_, before, _, k1, rfl⟩, k4, k5⟩
        -- the beginning is shorter
        have hpre : ∃ t, l = before ++ t := by
          have hne' : (Act.serve i other :: after) ≠ [] := by simp
          have : before ++ (Act.serve i other :: after) = before ++ (Act.serve i other :: after).dropLast ++ [(Act.serve i other :: after).getLast hne'] := by
            rw [List.append_assoc, List.dropLast_concat_getLast]
          rw [this] at k1
          exact ⟨_, (List.append_inj' k1 rfl).1⟩
        obtain ⟨t, ht⟩ := hpre
        have hnb : ((run stack (init f) before).conns i).reqs.length < 2 ^ 64 := by
          obtain ⟨k, _, e⟩ := run_conn stack (run stack (init f) before) t i
          rw [← run_append, ← ht] at e
          rw [e] at hnl
          exact Nat.lt_of_le_of_lt (length_run _ k) hnl
        obtain ⟨bid, bmap, bmsg⟩ := conn_inv stack f before i hnb
        have hpos := hid.pos hn hq
        obtain ⟨r0, q0, e0, e1, e2⟩ := bmsg.known { requestId := q.id, endpoint := q.endpoint, data := q.payload } (by rw [k3]; simp) hpos
        have hr : r0 = r := by
          rw [k1] at hn hq hid
          obtain ⟨q2, g1, _, _, g4, _⟩ := req_later stack f before _ i hn r0 q0 e0
          exact hid.inj hn g1 hq (by rw [g4, e1])
        rw [hr] at e0
        refine ⟨q0, e0, ?_⟩
        cases hf : q0.fut with
        | waiting => rfl
        | value d0 =>
          exfalso
          rw [ht] at hnl hold
          obtain ⟨q2, g1, _, _, _, g5⟩ := req_later stack f before t i hnl r q0 e0
          exact hold ⟨q2, d0, g1, g5 d0 hf⟩
        | error =>
          exfalso
          rcases e2 with e2 | e2
          · have := (bmap.early r q0 e0 (.inr e2)).1
            rw [hf] at this
            cases this
          · exact bmap.noError r q0 e0 e2 hf
  exact key _ as rfl hn q hq hv

/-! ## The switches of a process -/

/-- The switch of the thread with this id, if it has one. -/
def switchOf (s : TraceState.State) (tid : Nat) : Option Bool := (s.map.lookup tid).bind fun c => (s.cells[c]?).map (·.val)

/-- The process switch after a command: unchanged by `get`, and by a `set` that does not say that it sets it. -/
def processAfter (c : Option Config) (now : Bool) : Bool :=
  match c with
  | some x => if x.setProcess then x.process else now
  | none => now

theorem lookup_mem {l : List (Nat × Nat)} {k c : Nat} (h : l.lookup k = some c) : (k, c) ∈ l := by
  induction l with
  | nil => simp at h
  | cons x l ih =>
    obtain ⟨a, b⟩ := x
    simp only [List.lookup] at h
    split at h
    · rename_i e
      simp at e h
      simp [e, h]
    · exact List.mem_cons_of_mem _ (ih h)

theorem nodup_snd {l : List (Nat × Nat)} (h : (l.map (·.2)).Nodup) {k k' c : Nat} (h1 : (k, c) ∈ l) (h2 : (k', c) ∈ l) : k = k' := by
  induction l with
  | nil => simp at h1
  | cons x l ih =>
    simp only [List.map_cons, List.nodup_cons, List.mem_map, not_exists, not_and] at h
    rcases List.mem_cons.1 h1 with e1 | e1 <;> rcases List.mem_cons.1 h2 with e2 | e2
    · rw [← e1] at e2; exact (congrArg Prod.fst e2).symm
    · exact absurd (by rw [← e1]) (h.1 _ e2)
    · exact absurd (by rw [← e2]) (h.1 _ e1)
    · exact ih h.2 e1 e2

/-- In every history the threads have different switches. -/
theorem own_switches (acts : List TraceState.Act) (s : TraceState.State) (h : TraceState.run {} acts = .ok s) :
    (s.map.map (·.1)).Nodup ∧ (s.map.map (·.2)).Nodup ∧ ∀ x ∈ s.map, x.2 < s.cells.length := by
  have ptr : ∀ (s : TraceState.State) (t : Nat) (th : TraceState.Thread), ((s.map.map (·.1)).Nodup ∧ (s.map.map (·.2)).Nodup ∧ ∀ x ∈ s.map, x.2 < s.cells.length) →
      (((TraceState.threadStatePtr s t th).1.map.map (·.1)).Nodup ∧ ((TraceState.threadStatePtr s t th).1.map.map (·.2)).Nodup ∧
        ∀ x ∈ (TraceState.threadStatePtr s t th).1.map, x.2 < (TraceState.threadStatePtr s t th).1.cells.length) := by
    intro s t th hs
    simp only [TraceState.threadStatePtr]
    split
    · exact hs
    · rename_i hl
      refine ⟨?_, ?_, ?_⟩
      · simp only [List.map_append, List.map_cons, List.map_nil]
        rw [List.nodup_append]
        refine ⟨hs.1, by simp, ?_⟩
        intro a ha b hb
        simp only [List.mem_cons, List.not_mem_nil, or_false] at hb
        rw [hb]
        obtain ⟨x, hx, rfl⟩ := List.mem_map.1 ha
        have := List.lookup_eq_none_iff.1 hl x hx
        simp only [bne_iff_ne, ne_eq] at this
        exact fun e => this e.symm
      · simp only [List.map_append, List.map_cons, List.map_nil]
        rw [List.nodup_append]
        refine ⟨hs.2.1, by simp, ?_⟩
        intro a ha b hb
        simp only [List.mem_cons, List.not_mem_nil, or_false] at hb
        rw [hb]
        obtain ⟨x, hx, rfl⟩ := List.mem_map.1 ha
        have := hs.2.2 x hx
        omega
      · intro x hx
        simp only [List.length_append, List.length_cons, List.length_nil]
        rcases List.mem_append.1 hx with hx | hx
        · have := hs.2.2 x hx
          omega
        · simp only [List.mem_cons, List.not_mem_nil, or_false] at hx
          rw [hx]
          simp
  have one : ∀ (s s' : TraceState.State) (a : TraceState.Act), ((s.map.map (·.1)).Nodup ∧ (s.map.map (·.2)).Nodup ∧ ∀ x ∈ s.map, x.2 < s.cells.length) →
      TraceState.step s a = .ok s' → ((s'.map.map (·.1)).Nodup ∧ (s'.map.map (·.2)).Nodup ∧ ∀ x ∈ s'.map, x.2 < s'.cells.length) := by
    intro s s' a hs h
    cases a with
    | exit t =>
      simp only [TraceState.step] at h
      split at h
      · injection h with h; rw [← h]; exact hs
      · split at h
        · split at h
          · injection h with h
            rw [← h]
            have hsub : ∀ k : Nat, List.Sublist (s.map.filter fun x => x.1 ≠ k) s.map := fun _ => List.filter_sublist
            have hsub := hsub (TraceState.Thread.tid ‹_›)
            exact ⟨(hsub.map _).nodup hs.1, (hsub.map _).nodup hs.2.1, fun x hx => hs.2.2 x (hsub.subset hx)⟩
          · injection h with h; rw [← h]; exact hs
        · injection h with h; rw [← h]; exact hs
    | getThread t =>
      simp only [TraceState.step] at h
      split at h
      · injection h with h; rw [← h]; exact hs
      · split at h
        · cases h
        · split at h
          · split at h
            · cases h
            · injection h with h; rw [← h]; exact ptr s t _ hs
          · injection h with h; rw [← h]; exact hs
    | setThread t b =>
      simp only [TraceState.step] at h
      split at h
      · injection h with h; rw [← h]; exact hs
      · split at h
        · cases h
        · split at h
          · split at h
            · cases h
            · injection h with h; rw [← h]
              have := ptr s t ‹_› hs
              simpa only [TraceState.store, List.length_modify] using this
          · injection h with h; rw [← h]; exact hs
    | reach t be p =>
      simp only [TraceState.step] at h
      split at h
      · injection h with h; rw [← h]; exact hs
      · split at h
        · split at h
          · injection h with h; rw [← h]; exact hs
          · split at h
            · cases h
            · split at h
              · injection h with h; rw [← h]; exact hs
              · injection h with h; rw [← h]; exact ptr s t _ hs
        · injection h with h; rw [← h]; exact hs
    | remoteStore k tid b =>
      simp only [TraceState.step] at h
      split at h
      · injection h with h; rw [← h]; exact hs
      · split at h
        · injection h with h; rw [← h]; exact hs
        · injection h with h; rw [← h]
          simpa only [TraceState.store, List.length_modify] using hs
    | _ =>
      simp only [TraceState.step] at h
      try (repeat' split at h)
      all_goals (first | (cases h; done) | (injection h with h; rw [← h]; exact hs))
  have all : ∀ (acts : List TraceState.Act) (s s' : TraceState.State), ((s.map.map (·.1)).Nodup ∧ (s.map.map (·.2)).Nodup ∧ ∀ x ∈ s.map, x.2 < s.cells.length) →
      TraceState.run s acts = .ok s' → ((s'.map.map (·.1)).Nodup ∧ (s'.map.map (·.2)).Nodup ∧ ∀ x ∈ s'.map, x.2 < s'.cells.length) := by
    intro acts
    induction acts with
    | nil => intro s s' hs h; simp only [TraceState.run] at h; injection h with h; rw [← h]; exact hs
    | cons a acts ih =>
      intro s s' hs h
      simp only [TraceState.run] at h
      cases ha : TraceState.step s a with
      | ok s1 => rw [ha] at h; exact ih s1 s' (one s s1 a hs ha) h
      | throws e => rw [ha] at h; cases h
      | ub => rw [ha] at h; cases h
      | terminate => rw [ha] at h; cases h
  exact all acts {} s (by simp) h

/-- The stores of a command set the switches that it names, and no other. -/
theorem stores (m : List (Nat × Nat)) (hm : (m.map (·.2)).Nodup) (h : Nat) (xs : List (Nat × Bool)) (hx : (xs.map (·.1)).Nodup) (s : TraceState.State) (h1 : s.map = m) (h2 : s.snaps[h]? = some m) :
    ∃ s', TraceState.run s (xs.map fun x => .remoteStore h x.1 x.2) = .ok s' ∧ s'.map = m ∧ s'.process = s.process ∧
      ∀ tid, switchOf s' tid = (switchOf s tid).map fun v => (xs.lookup tid).getD v := by
  induction xs generalizing s with
  | nil => exact ⟨s, rfl, h1, rfl, fun tid => by simp⟩
  | cons x xs ih =>
    obtain ⟨k, b⟩ := x
    simp only [List.map_cons, List.nodup_cons, List.mem_map, not_exists, not_and] at hx
    have hno : xs.lookup k = none := by
      refine List.lookup_eq_none_iff.2 fun p hp => ?_
      have := hx.1 p hp
      simp only [bne_iff_ne, ne_eq]
      exact fun e => this e.symm
    cases hl : m.lookup k with
    | none =>
      obtain ⟨s', g1, g2, g3, g4⟩ := ih hx.2 s h1 h2
      refine ⟨s', ?_, g2, g3, fun tid => ?_⟩
      · simp only [List.map_cons, TraceState.run, TraceState.step, h2, hl]
        exact g1
      · rw [g4]
        by_cases e : tid = k
        · subst e
          simp [switchOf, h1, hl]
        · have : (tid == k) = false := by simp [e]
          simp [List.lookup, this]
    | some c =>
      obtain ⟨s', g1, g2, g3, g4⟩ := ih hx.2 (TraceState.store s c b) h1 h2
      refine ⟨s', ?_, g2, g3, fun tid => ?_⟩
      · simp only [List.map_cons, TraceState.run, TraceState.step, h2, hl]
        exact g1
      · rw [g4]
        by_cases e : tid = k
        · subst e
          simp only [switchOf, TraceState.store, h1, hl, hno, List.getElem?_modify, Option.bind_some, List.lookup, beq_self_eq_true, Option.getD_some, Option.getD_none]
          cases s.cells[c]? <;> simp
        · have : (tid == k) = false := by simp [e]
          simp only [List.lookup, this, switchOf, TraceState.store, h1]
          cases hl' : m.lookup tid with
          | none => simp
          | some c' =>
            have hne : c ≠ c' := by
              intro e'
              subst e'
              exact e (nodup_snd hm (lookup_mem hl') (lookup_mem hl))
            simp only [List.getElem?_modify, hne, Option.bind_some]
            cases s.cells[c']? <;> simp

theorem loads_lookup (s : TraceState.State) (m : List (Nat × Nat)) (ts : List (Nat × Bool)) (h : loads s m = .ok ts) (tid : Nat) :
    ts.lookup tid = (m.lookup tid).bind fun c => (s.cells[c]?).map (·.val) := by
  induction m generalizing ts with
  | nil =>
    simp only [loads, Res.mapM, Res.ok.injEq] at h
    rw [← h]
    rfl
  | cons x m ih =>
    obtain ⟨k, c⟩ := x
    simp only [loads, Res.mapM] at h
    cases hc : s.cells[c]? with
    | none => simp [hc, Res.bind] at h
    | some y =>
      simp only [hc, Res.bind] at h
      cases hr : loads s m with
      | ok r =>
        have := ih r hr
        rw [loads] at hr
        rw [hr] at h
        simp only [Res.ok.injEq] at h
        rw [← h]
        simp only [List.lookup]
        split
        · simp [hc]
        · exact this
      | throws e => rw [loads] at hr; rw [hr] at h; cases h
      | ub => rw [loads] at hr; rw [hr] at h; cases h
      | terminate => rw [loads] at hr; rw [hr] at h; cases h

/-- A command to the switches, with its bytes. -/
theorem config_exchange (server client : Nat) (s : TraceState.State) (h1 : (s.map.map (·.1)).Nodup) (h2 : (s.map.map (·.2)).Nodup) (c : Option Config)
    (hc : ∀ x, c = some x → (x.threads.map (·.1)).Nodup) (request answer : Bytes) (hr : configRequest c = .ok request) (s' : TraceState.State)
    (ha : configHandle (server + 3) s request = .ok (s', answer)) :
    s'.map = s.map ∧ (∃ r, configResult (client + 3) answer = .ok r ∧ r.success = true ∧ r.process = s'.process ∧ ∀ tid, r.threads.lookup tid = switchOf s' tid) ∧
    s'.process = processAfter c s.process ∧
    ∀ tid, switchOf s' tid = (switchOf s tid).map fun v => ((c.bind fun x => x.threads.lookup tid).getD v) := by
  -- the answer
  have tail : ∀ (s2 : TraceState.State), s2.map = s.map → (do
        let ts ← loads s2 s.map
        let b ← encode (.obj [(stateKey, toVal { process := s2.process, threads := ts })])
        return (s2, b) : Res (TraceState.State × Bytes)) = .ok (s', answer) →
      s2 = s' ∧ ∃ r, configResult (client + 3) answer = .ok r ∧ r.success = true ∧ r.process = s'.process ∧ ∀ tid, r.threads.lookup tid = switchOf s' tid := by
    intro s2 e h
    cases hl : loads s2 s.map with
    | ok ts =>
      simp only [hl, Res.bind_ok] at h
      cases hb : encode (.obj [(stateKey, toVal { process := s2.process, threads := ts })]) with
      | ok b =>
        simp only [hb, Res.bind_ok, Res.pure_eq, Res.ok.injEq, Prod.mk.injEq] at h
        obtain ⟨rfl, rfl⟩ := h
        have hk := C128.loads_keys s2 s.map ts hl
        have hsw : C128.Switches ts := by
          refine ⟨by rw [hk]; exact h1, fun x hx => ?_⟩
          rcases Nat.lt_or_ge x.1 (2 ^ 63) with h | h
          · exact h
          · exfalso
            have hf : encode (.obj [(stateKey, toVal { process := s2.process, threads := ts })]) = .throws "out_of_range" := by
              simp [encode, faultyFields, toVal, faulty, C128.faulty_map .bool ts x hx h]
            rw [hf] at hb
            cases hb
        have hP := C128.plain_reply client { process := s2.process, threads := ts } hsw
        have eg : BsonEndpoints.get (.obj [(stateKey, toVal { process := s2.process, threads := ts })]) stateKey = .ok (toVal { process := s2.process, threads := ts }) := rfl
        refine ⟨rfl, { process := s2.process, threads := ts, success := true }, ?_, rfl, rfl, fun tid => ?_⟩
        · simp [configResult, C128.read_ok hP hb, eg, C128.fromVal_toVal { process := s2.process, threads := ts } hsw]
        · rw [loads_lookup s2 s.map ts hl tid, switchOf, e]
      | throws e => simp [hb] at h
      | ub => simp [hb] at h
      | terminate => simp [hb] at h
    | throws e => simp [hl] at h
    | ub => simp [hl] at h
    | terminate => simp [hl] at h
  have hg : TraceState.step s .getMap = .ok { s with snaps := s.snaps ++ [s.map] } := rfl
  cases c with
  | none =>
    have hP : C126.Plain (server + 3 + 1) (.obj [(cmd, .str getWord)]) := by
      refine C128.plain_obj _ _ [cmd] rfl (by decide) (by decide) ?_
      intro p hp
      simp only [List.mem_cons, List.not_mem_nil, or_false] at hp
      rw [hp]
      exact .str _ _ (by decide)
    have e1 : BsonEndpoints.get (.obj [(cmd, .str getWord)]) cmd = .ok (.str getWord) := rfl
    have e3 : ¬ getWord = setWord := by decide
    simp only [configHandle, C128.read_ok hP hr, Res.bind_ok, hg, e1, BsonEndpoints.asStr, e3, if_false] at ha
    obtain ⟨rfl, hres⟩ := tail { s with snaps := s.snaps ++ [s.map] } rfl ha
    refine ⟨rfl, hres, rfl, fun tid => ?_⟩
    simp [switchOf]
  | some c =>
    have hnd := hc c rfl
    have hsw : C128.Switches c.threads := by
      refine ⟨hnd, fun x hx => ?_⟩
      rcases Nat.lt_or_ge x.1 (2 ^ 63) with h | h
      · exact h
      · rw [C128.large_id_not_sent c x hx h] at hr
        cases hr
    have hP := C128.plain_request server c hsw
    have e1 : BsonEndpoints.get (.obj [(cmd, .str setWord), (stateKey, toVal c)]) cmd = .ok (.str setWord) := rfl
    have e1' : BsonEndpoints.get (.obj [(cmd, .str setWord), (stateKey, toVal c)]) stateKey = .ok (toVal c) := rfl
    have hst : ∀ s1 : TraceState.State, s1.map = s.map → s1.snaps = s.snaps ++ [s.map] → ∃ s2, TraceState.run s1 (c.threads.map fun x => .remoteStore s.snaps.length x.1 x.2) = .ok s2 ∧ s2.map = s.map ∧
        s2.process = s1.process ∧ ∀ tid, switchOf s2 tid = (switchOf s1 tid).map fun v => (c.threads.lookup tid).getD v := by
      intro s1 e e'
      exact stores s.map h2 s.snaps.length c.threads hnd s1 e (by rw [e']; simp)
    simp only [configHandle, C128.read_ok hP hr, Res.bind_ok, hg, e1, e1', BsonEndpoints.asStr, if_true, C128.fromVal_toVal c hsw, setActs] at ha
    cases hp : c.setProcess with
    | true =>
      obtain ⟨s2, g1, g2, g3, g4⟩ := hst { s with process := c.process, snaps := s.snaps ++ [s.map] } rfl rfl
      have hrun : TraceState.run { s with snaps := s.snaps ++ [s.map] } ([.storeProcess c.process] ++ c.threads.map fun x => .remoteStore s.snaps.length x.1 x.2) = .ok s2 := by
        simp only [List.cons_append, List.nil_append, TraceState.run, TraceState.step, Res.bind]
        exact g1
      simp only [hp, if_true, hrun, Res.bind_ok] at ha
      obtain ⟨rfl, hres⟩ := tail s2 g2 ha
      exact ⟨g2, hres, by simpa [processAfter, hp] using g3, fun tid => by rw [g4]; simp [switchOf]⟩
    | false =>
      obtain ⟨s2, g1, g2, g3, g4⟩ := hst { s with snaps := s.snaps ++ [s.map] } rfl rfl
      simp only [hp, Bool.false_eq_true, if_false, List.nil_append, g1, Res.bind_ok] at ha
      obtain ⟨rfl, hres⟩ := tail s2 g2 ha
      exact ⟨g2, hres, by simpa [processAfter, hp] using g3, fun tid => by rw [g4]; simp [switchOf]⟩

/-! ## What the process has stays well-formed -/

theorem setActs_map (s s' : TraceState.State) (h : Nat) (c : Config) (hr : TraceState.run s (setActs h c) = .ok s') : s'.map = s.map := by
  have one : ∀ (xs : List (Nat × Bool)) (s s' : TraceState.State), TraceState.run s (xs.map fun x => .remoteStore h x.1 x.2) = .ok s' → s'.map = s.map := by
    intro xs
    induction xs with
    | nil => intro s s' hr; simp only [List.map_nil, TraceState.run, Res.ok.injEq] at hr; rw [hr]
    | cons x xs ih =>
      intro s s' hr
      simp only [List.map_cons, TraceState.run, TraceState.step] at hr
      split at hr
      · exact ih s s' hr
      · split at hr
        · exact ih s s' hr
        · rw [ih _ s' hr]; rfl
  unfold setActs at hr
  split at hr
  · simp only [List.cons_append, List.nil_append, TraceState.run, TraceState.step, Res.bind] at hr
    rw [one _ _ _ hr]
  · exact one _ _ _ hr

theorem configHandle_map (stack : Nat) (s s' : TraceState.State) (payload answer : Bytes) (h : configHandle stack s payload = .ok (s', answer)) : s'.map = s.map := by
  unfold configHandle at h
  cases hj : readBson stack payload with
  | ok j =>
    simp only [hj, Res.bind_ok, TraceState.step] at h
    cases hc : BsonEndpoints.get j cmd with
    | ok c =>
      simp only [hc, Res.bind_ok] at h
      cases hw : BsonEndpoints.asStr c with
      | ok w =>
        simp only [hw, Res.bind_ok] at h
        have fin : ∀ s2 : TraceState.State, (do
            let ts ← loads s2 s.map
            let b ← encode (.obj [(stateKey, toVal { process := s2.process, threads := ts })])
            return (s2, b) : Res (TraceState.State × Bytes)) = .ok (s', answer) → s2 = s' := by
          intro s2 h
          cases hl : loads s2 s.map with
          | ok ts =>
            simp only [hl, Res.bind_ok] at h
            cases hb : encode (.obj [(stateKey, toVal { process := s2.process, threads := ts })]) with
            | ok b => simp only [hb, Res.bind_ok, Res.pure_eq, Res.ok.injEq, Prod.mk.injEq] at h; exact h.1
            | throws e => simp [hb] at h
            | ub => simp [hb] at h
            | terminate => simp [hb] at h
          | throws e => simp [hl] at h
          | ub => simp [hl] at h
          | terminate => simp [hl] at h
        by_cases e : w = setWord
        · simp only [e, if_true] at h
          cases hst : BsonEndpoints.get j stateKey with
          | ok st =>
            simp only [hst, Res.bind_ok] at h
            cases hf : fromVal st with
            | ok c =>
              simp only [hf, Res.bind_ok] at h
              cases hr : TraceState.run { s with snaps := s.snaps ++ [s.map] } (setActs s.snaps.length c) with
              | ok s2 =>
                simp only [hr, Res.bind_ok] at h
                rw [← fin s2 h, setActs_map _ _ _ _ hr]
              | throws e => simp [hr] at h
              | ub => simp [hr] at h
              | terminate => simp [hr] at h
            | throws e => simp [hf] at h
            | ub => simp [hf] at h
            | terminate => simp [hf] at h
          | throws e => simp [hst] at h
          | ub => simp [hst] at h
          | terminate => simp [hst] at h
        · simp only [e, if_false, Res.bind_ok] at h
          rw [← fin _ h]
      | throws e => simp [hw] at h
      | ub => simp [hw] at h
      | terminate => simp [hw] at h
    | throws e => simp [hc] at h
    | ub => simp [hc] at h
    | terminate => simp [hc] at h
  | throws e => simp [hj] at h
  | ub => simp [hj] at h
  | terminate => simp [hj] at h

theorem handle_typed {stack : Nat} {f f' : Facts} {e p : Bytes} {o r : Option Bytes} (ht : typed f = true) (h : Query.handle stack f e p o = .ok (f', r)) : typed f' = true := by
  unfold Query.handle at h
  split at h
  · cases hx : infoHandle stack f.pid f.name f.threads p <;> rw [hx] at h <;> simp [Res.bind] at h
    rw [← h.1]; exact ht
  · split at h
    · cases hx : introspectHandle f.endpoints <;> rw [hx] at h <;> simp [Res.bind] at h
      rw [← h.1]; exact ht
    · split at h
      · split at h
        · cases h
        · split at h
          · cases hx : mappingResponse f.pid f.names <;> rw [hx] at h <;> simp [Res.bind] at h
            rw [← h.1]; exact ht
          · simp at h
            rw [← h.1]; exact ht
      · split at h
        · cases hx : configHandle stack f.switches p with
          | ok y =>
            obtain ⟨s', b⟩ := y
            rw [hx] at h
            simp only [Res.bind, Res.ok.injEq, Prod.mk.injEq] at h
            rw [← h.1]
            have := configHandle_map stack _ _ _ _ hx
            simp only [typed, this]
            exact ht
          | throws e => rw [hx] at h; simp [Res.bind] at h
          | ub => rw [hx] at h; simp [Res.bind] at h
          | terminate => rw [hx] at h; simp [Res.bind] at h
        · simp at h
          rw [← h.1]; exact ht

theorem typed_step (stack : Nat) (s : State) (a : Act) (h : typed s.facts = true) : typed (step stack s a).facts = true := by
  cases a with
  | change f =>
    simp only [step]
    split
    · rename_i hc; exact hc.2.1
    · exact h
  | addEndpoint n =>
    simp only [step]
    split
    · rename_i hc
      simp only [typed, Bool.and_eq_true, List.all_eq_true, decide_eq_true_eq] at h ⊢
      refine ⟨h.1, fun x hx => ?_⟩
      rcases (mem_insertName _ _ _).1 hx with rfl | hx
      · exact hc.2
      · exact h.2 x hx
    · exact h
  | serve i other =>
    simp only [step]
    split
    · exact h
    · split
      · exact h
      · split
        · split
          · rename_i hh
            exact handle_typed h hh
          · exact h
        · exact h
  | conn i a => simp only [step]; split <;> exact h
  | stop => exact h

theorem typed_run (stack : Nat) (f : Facts) (hf : typed f = true) (as : List Act) : typed (run stack (init f) as).facts = true := by
  have key : ∀ as s, typed (State.facts s) = true → typed (run stack s as).facts = true := by
    intro as
    induction as with
    | nil => intro s h; exact h
    | cons a as ih => intro s h; exact ih _ (typed_step stack s a h)
  refine key as _ ?_
  simp only [typed, Bool.and_eq_true, init, List.all_nil] at hf ⊢
  exact ⟨hf.1, trivial⟩

/-! ## The claims -/

/-- The process information that a client gets is the pid, the name and the names of the threads that the process had at a moment during the call. -/
theorem info_during (stack client : Nat) (f : Facts) (hf : typed f = true) (as : List Act) (i r : Nat) (hn : ((run stack (init f) as).conns i).reqs.length < 2 ^ 64) (q : Req) (d : Bytes)
    (hq : ((run stack (init f) as).conns i).reqs[r]? = some q) (hv : q.fut = .value d) (he : q.endpoint = infoName) (hp : infoRequest = .ok q.payload) :
    ∃ s, During stack f as i r s ∧ infoResult (client + 2) d = .ok { name := s.facts.name, threads := s.facts.threads, pid := s.facts.pid } := by
  obtain ⟨before, other, after, f', h1, h2, h3, h4⟩ := answered_during stack f as i r hn q d hq hv
  refine ⟨_, h2, ?_⟩
  have ht := typed_run stack f hf before
  simp only [typed, Bool.and_eq_true, List.all_eq_true, decide_eq_true_eq] at ht
  obtain ⟨⟨⟨⟨⟨⟨⟨⟨t1, t2⟩, t3⟩, t4⟩, t5⟩, t6⟩, t7⟩, t8⟩, t9⟩ := ht
  rw [he] at h3
  simp only [Query.handle, if_true] at h3
  have htab : C128.Table (run stack (init f) before).facts.threads := by
    refine ⟨t3, fun x hx => ⟨?_, t4 x hx⟩⟩
    rcases Nat.lt_or_ge x.1 (2 ^ 63) with h | h
    · exact h
    · obtain ⟨req, e1, e2⟩ := C128.info_large_id stack (run stack (init f) before).facts.pid (run stack (init f) before).facts.name _ x hx h
      rw [hp] at e1
      injection e1 with e1
      rw [← e1] at e2
      rw [e2] at h3
      simp [Res.bind] at h3
  obtain ⟨req, ans, e1, e2, e3⟩ := C128.info_arrives stack client _ t1 _ t2 _ htab
  rw [hp] at e1
  injection e1 with e1
  rw [← e1] at e2
  rw [e2] at h3
  simp only [Res.bind, Res.ok.injEq, Prod.mk.injEq, Option.some.injEq] at h3
  rw [← h3.2]
  exact e3

/-- The names of endpoints that a client gets are those that the server had at a moment during the call. -/
theorem endpoints_during (stack client : Nat) (f : Facts) (hf : typed f = true) (as : List Act) (i r : Nat) (hn : ((run stack (init f) as).conns i).reqs.length < 2 ^ 64) (q : Req) (d : Bytes)
    (hq : ((run stack (init f) as).conns i).reqs[r]? = some q) (hv : q.fut = .value d) (he : q.endpoint = introspectName) :
    ∃ s, During stack f as i r s ∧ supportedResult (client + 1) d = .ok s.facts.endpoints := by
  obtain ⟨before, other, after, f', h1, h2, h3, h4⟩ := answered_during stack f as i r hn q d hq hv
  refine ⟨_, h2, ?_⟩
  have ht := typed_run stack f hf before
  simp only [typed, Bool.and_eq_true, List.all_eq_true, decide_eq_true_eq] at ht
  rw [he] at h3
  have n1 : ¬ introspectName = infoName := by decide
  simp only [Query.handle, n1, if_false, if_true] at h3
  obtain ⟨ans, e1, e2⟩ := C128.endpoints_arrive client _ ht.2
  rw [e1] at h3
  simp only [Res.bind, Res.ok.injEq, Prod.mk.injEq, Option.some.injEq] at h3
  rw [← h3.2]
  exact e2

/-- The names of tracepoints that a client gets are those that the process had at a moment during the call. -/
theorem names_during (stack client : Nat) (f : Facts) (hf : typed f = true) (as : List Act) (i r : Nat) (hn : ((run stack (init f) as).conns i).reqs.length < 2 ^ 64) (q : Req) (d : Bytes)
    (hq : ((run stack (init f) as).conns i).reqs[r]? = some q) (hv : q.fut = .value d) (he : q.endpoint = mappingName) :
    ∃ s, During stack f as i r s ∧ mappingResult (client + 4) d = .ok [(s.facts.pid, s.facts.names)] := by
  obtain ⟨before, other, after, f', h1, h2, h3, h4⟩ := answered_during stack f as i r hn q d hq hv
  refine ⟨_, h2, ?_⟩
  have ht := typed_run stack f hf before
  simp only [typed, Bool.and_eq_true, List.all_eq_true, decide_eq_true_eq] at ht
  obtain ⟨⟨⟨⟨⟨⟨⟨⟨t1, t2⟩, t3⟩, t4⟩, t5⟩, t6⟩, t7⟩, t8⟩, t9⟩ := ht
  rw [he] at h3
  have n1 : ¬ mappingName = infoName := by decide
  have n2 : ¬ mappingName = introspectName := by decide
  simp only [Query.handle, n1, n2, if_false, if_true] at h3
  obtain ⟨ans, e1, e2⟩ := C128.mapping_arrives client _ t1 (run stack (init f) before).facts.names ⟨t5, fun x hx => ⟨by have := (t6 x hx).1; omega, (t6 x hx).2⟩⟩ fun x hx => (t6 x hx).1
  split at h3
  · cases h3
  · split at h3
    · rw [e1] at h3
      simp only [Res.bind, Res.ok.injEq, Prod.mk.injEq, Option.some.injEq] at h3
      rw [← h3.2]
      exact e2
    · simp at h3

/-- A command to the switches of a process that is answered had its effect at a moment during the call: the process switch is set if the command says so, the switches of the threads that the command names and that the process
    has then are set, no other switch changes, and the answer shows all switches as they are after that. -/
theorem switches_during (stack client : Nat) (f : Facts) (hf : typed f = true) (as : List Act) (i r : Nat) (hn : ((run (stack + 3) (init f) as).conns i).reqs.length < 2 ^ 64) (q : Req) (d : Bytes)
    (hq : ((run (stack + 3) (init f) as).conns i).reqs[r]? = some q) (hv : q.fut = .value d) (he : q.endpoint = configName) (c : Option Config)
    (hc : ∀ x, c = some x → (x.threads.map (·.1)).Nodup) (hp : configRequest c = .ok q.payload) :
    ∃ before other after, as = before ++ .serve i other :: after ∧
      let s := run (stack + 3) (init f) before
      let s' := run (stack + 3) (init f) (before ++ [.serve i other])
      During (stack + 3) f as i r s ∧
      s'.facts = { s.facts with switches := s'.facts.switches } ∧
      s'.facts.switches.process = processAfter c s.facts.switches.process ∧
      (∀ tid, switchOf s'.facts.switches tid = (switchOf s.facts.switches tid).map fun v => ((c.bind fun x => x.threads.lookup tid).getD v)) ∧
      ∃ result, configResult (client + 3) d = .ok result ∧ result.success = true ∧ result.process = s'.facts.switches.process ∧
        ∀ tid, result.threads.lookup tid = switchOf s'.facts.switches tid := by
  obtain ⟨before, other, after, f', h1, h2, h3, h4⟩ := answered_during (stack + 3) f as i r hn q d hq hv
  refine ⟨before, other, after, h1, ?_⟩
  have ht := typed_run (stack + 3) f hf before
  simp only [typed, Bool.and_eq_true, List.all_eq_true, decide_eq_true_eq] at ht
  obtain ⟨⟨⟨⟨⟨⟨⟨⟨t1, t2⟩, t3⟩, t4⟩, t5⟩, t6⟩, t7⟩, t8⟩, t9⟩ := ht
  rw [he] at h3
  have n1 : ¬ configName = infoName := by decide
  have n2 : ¬ configName = introspectName := by decide
  have n3 : ¬ configName = mappingName := by decide
  simp only [Query.handle, n1, n2, n3, if_false, if_true] at h3
  cases hx : configHandle (stack + 3) (run (stack + 3) (init f) before).facts.switches q.payload with
  | ok y =>
    obtain ⟨s', b⟩ := y
    rw [hx] at h3
    simp only [Res.bind, Res.ok.injEq, Prod.mk.injEq, Option.some.injEq] at h3
    obtain ⟨e, rfl⟩ := h3
    obtain ⟨_, g2, g3, g4⟩ := config_exchange stack client _ t7 t8 c hc q.payload b hp s' hx
    intro s0 s1
    have es : s1.facts.switches = s' := by
      show (run _ _ _).facts.switches = _
      rw [h4, ← e]
    refine ⟨h2, ?_, by rw [es]; exact g3, by rw [es]; exact g4, by rw [es]; exact g2⟩
    show (run _ _ _).facts = _
    rw [es, h4, ← e]
  | throws e => rw [hx] at h3; simp [Res.bind] at h3
  | ub => rw [hx] at h3; simp [Res.bind] at h3
  | terminate => rw [hx] at h3; simp [Res.bind] at h3

/-! ## Every call is handled at most once -/

/-- This id is that of a call with this endpoint and payload whose message has been sent. -/
def Sent (c : Conn) (id : Nat) (endpoint payload : Bytes) : Prop := ∃ (r : Nat) (q : Req), c.reqs[r]? = some q ∧ q.id = id ∧ q.endpoint = endpoint ∧ q.payload = payload ∧ q.pc ≠ .sending

structure OnceInv (c : Conn) : Prop where
  nodup : (c.calls.map (·.id) ++ c.toServer.map (·.requestId)).Nodup
  calls : ∀ x ∈ c.calls, Sent c x.id x.endpoint x.payload
  msgs : ∀ m ∈ c.toServer, Sent c m.requestId m.endpoint m.data

theorem sent_step {c : Conn} (a : Unix.Act) {id : Nat} {e p : Bytes} (h : Sent c id e p) : Sent (Unix.step c a) id e p := by
  obtain ⟨r, q, h1, h2⟩ := h
  have triv : Sent c id e p := ⟨r, q, h1, h2⟩
  have upd : ∀ (r' : Nat) (g : Req → Req), (∀ q : Req, (g q).id = q.id ∧ (g q).endpoint = q.endpoint ∧ (g q).payload = q.payload ∧ (q.pc ≠ .sending → (g q).pc ≠ .sending)) →
      Sent (Unix.updReq c r' g) id e p := by
    intro r' g hg
    by_cases hr : r = r'
    · refine ⟨r, g q, by rw [Unix.getElem?_updReq, if_pos hr, h1]; rfl, ?_⟩
      obtain ⟨g1, g2, g3, g4⟩ := hg q
      rw [g1, g2, g3]
      exact ⟨h2.1, h2.2.1, h2.2.2.1, g4 h2.2.2.2⟩
    · exact ⟨r, q, by rw [Unix.getElem?_updReq, if_neg hr, h1], h2⟩
  cases a with
  | request ep pl => exact ⟨r, q, by simp only [Unix.step]; rw [List.getElem?_append_left (List.getElem?_eq_some_iff.1 h1).1, h1], h2⟩
  | send r' ok =>
    simp only [Unix.step]
    repeat' split
    · exact upd r' _ (fun q => ⟨rfl, rfl, rfl, fun _ => by simp⟩)
    · exact upd r' _ (fun q => ⟨rfl, rfl, rfl, fun _ => by simp⟩)
    · exact triv
    · exact triv
  | register r' =>
    simp only [Unix.step]
    repeat' split
    · exact upd r' _ (fun q => ⟨rfl, rfl, rfl, fun _ => by simp⟩)
    · exact triv
    · exact triv
  | drop r' =>
    simp only [Unix.step]
    repeat' split
    · exact upd r' _ (fun q => ⟨rfl, rfl, rfl, fun h => h⟩)
    · exact triv
    · exact triv
  | dispatch rep =>
    simp only [Unix.step]
    split
    · exact triv
    · unfold dispatchMsg
      split
      · exact upd _ _ (fun q => by cases hh : q.held <;> simp [hh])
      · repeat' split
        all_goals exact triv
  | _ =>
    simp only [Unix.step]
    try (repeat' split)
    all_goals exact triv

theorem once_step {c : Conn} (hi : IdInv c) (hn : c.reqs.length < 2 ^ 64) (h : OnceInv c) (a : Unix.Act) (ha : ∀ d, a ≠ .dispatch (some d)) : OnceInv (Unix.step c a) := by
  have same : (Unix.step c a).calls = c.calls → (Unix.step c a).toServer = c.toServer → OnceInv (Unix.step c a) := by
    intro e1 e2
    refine ⟨by rw [e1, e2]; exact h.nodup, ?_, ?_⟩
    · intro x hx
      rw [e1] at hx
      exact sent_step a (h.calls x hx)
    · intro x hx
      rw [e2] at hx
      exact sent_step a (h.msgs x hx)
  cases a with
  | send r ok =>
    cases hq : c.reqs[r]? with
    | none => exact same (by simp [Unix.step, hq]) (by simp [Unix.step, hq])
    | some q =>
      by_cases hpc : q.pc = .sending
      · by_cases hok : ok = true ∧ c.running = true ∧ c.serverUp = true
        · have fresh : ∀ e p, ¬ Sent c q.id e p := by
            rintro e p ⟨r', q', g1, g2, _, _, g5⟩
            have := hi.inj hn g1 hq g2
            subst this
            rw [hq] at g1
            injection g1 with g1
            rw [← g1] at g5
            exact g5 hpc
          have ets : (Unix.step c (.send r ok)).toServer = c.toServer ++ [{ requestId := q.id, endpoint := q.endpoint, data := q.payload }] := by
            simp [Unix.step, hq, hpc, hok]
          have ecs : (Unix.step c (.send r ok)).calls = c.calls := by simp [Unix.step, hq, hpc, hok]
          refine ⟨?_, ?_, ?_⟩
          · rw [ets, ecs, List.map_append, ← List.append_assoc, List.nodup_append]
            refine ⟨h.nodup, by simp, ?_⟩
            intro x hx y hy
            simp only [List.map_cons, List.map_nil, List.mem_cons, List.not_mem_nil, or_false] at hy
            rw [hy]
            intro e
            rw [e] at hx
            rcases List.mem_append.1 hx with hx | hx
            · obtain ⟨z, hz, hze⟩ := List.mem_map.1 hx
              have := h.calls z hz
              rw [hze] at this
              exact fresh _ _ this
            · obtain ⟨z, hz, hze⟩ := List.mem_map.1 hx
              have := h.msgs z hz
              rw [hze] at this
              exact fresh _ _ this
          · intro x hx
            rw [ecs] at hx
            exact sent_step _ (h.calls x hx)
          · intro m hm
            rw [ets] at hm
            rcases List.mem_append.1 hm with hm | hm
            · exact sent_step _ (h.msgs m hm)
            · simp only [List.mem_cons, List.not_mem_nil, or_false] at hm
              rw [hm]
              refine ⟨r, { q with pc := .sent }, ?_, rfl, rfl, rfl, by simp⟩
              have e : (Unix.step c (.send r ok)).reqs = (Unix.updReq c r (fun q => { q with pc := .sent })).reqs := by
                simp [Unix.step, hq, hpc, hok]
              rw [e, Unix.getElem?_updReq, if_pos rfl, hq]
              rfl
        · exact same (by simp [Unix.step, hq, hpc, hok]) (by simp [Unix.step, hq, hpc, hok])
      · exact same (by simp [Unix.step, hq, hpc]) (by simp [Unix.step, hq, hpc])
  | serve result =>
    cases hts : c.toServer with
    | nil => exact same (by simp [Unix.step, hts]) (by simp [Unix.step, hts])
    | cons m tl =>
      have hnd := h.nodup
      rw [hts] at hnd
      have ets : (Unix.step c (.serve result)).toServer = tl := by
        simp only [Unix.step, hts]
        split <;> rfl
      have msgs' : ∀ x ∈ (Unix.step c (.serve result)).toServer, Sent (Unix.step c (.serve result)) x.requestId x.endpoint x.data := by
        intro x hx
        rw [ets] at hx
        exact sent_step _ (h.msgs x (by rw [hts]; exact List.mem_cons_of_mem _ hx))
      by_cases hm : m.endpoint ∈ c.serverEndpoints
      · have ecs : (Unix.step c (.serve result)).calls = c.calls ++ [{ endpoint := m.endpoint, id := m.requestId, payload := m.data, result := result }] := by
          simp [Unix.step, hts, hm]
        refine ⟨?_, ?_, msgs'⟩
        · rw [ets, ecs]
          simpa using hnd
        · intro x hx
          rw [ecs] at hx
          rcases List.mem_append.1 hx with hx | hx
          · exact sent_step _ (h.calls x hx)
          · simp only [List.mem_cons, List.not_mem_nil, or_false] at hx
            rw [hx]
            exact sent_step _ (h.msgs m (by rw [hts]; simp))
      · have ecs : (Unix.step c (.serve result)).calls = c.calls := by simp [Unix.step, hts, hm]
        refine ⟨?_, ?_, msgs'⟩
        · rw [ets, ecs]
          refine List.Nodup.sublist ?_ hnd
          exact (List.Sublist.refl _).append (List.sublist_cons_self _ _)
        · intro x hx
          rw [ecs] at hx
          exact sent_step _ (h.calls x hx)
  | serverDown =>
    refine ⟨?_, fun x hx => sent_step _ (h.calls x hx), by simp [Unix.step]⟩
    have := h.nodup
    simp only [Unix.step, List.map_nil, List.append_nil]
    exact (List.nodup_append.1 this).1
  | dispatch rep =>
    cases rep with
    | some d => exact absurd rfl (ha d)
    | none =>
      refine same (step_calls _ _ (by simp)) ?_
      simp only [Unix.step]
      split
      · rfl
      · unfold dispatchMsg
        repeat' split
        all_goals first | rfl | contradiction
  | _ =>
    refine same (step_calls _ _ (by simp)) ?_
    simp only [Unix.step]
    try (repeat' split)
    all_goals rfl

theorem once_run (l : List Unix.Act) (hl : Quiet l) (c : Conn) (hi : IdInv c) (hn : (Unix.run c l).reqs.length < 2 ^ 64) (h : OnceInv c) : OnceInv (Unix.run c l) := by
  induction l generalizing c with
  | nil => exact h
  | cons a l ih =>
    have hlen : c.reqs.length < 2 ^ 64 := Nat.lt_of_le_of_lt (length_run c (a :: l)) hn
    exact ih (fun x hx => hl x (by simp [hx])) _ (Unix.idInv_step hi a) hn (once_step hi hlen h a (hl a (by simp)))

/-- Every invocation of a handler is for one call of a client, with the endpoint and the payload of that call, and no call is handled twice: a command has its effect at most once. -/
theorem handled_once (stack : Nat) (f : Facts) (as : List Act) (i : Nat) (hn : ((run stack (init f) as).conns i).reqs.length < 2 ^ 64) :
    (((run stack (init f) as).conns i).calls.map (·.id)).Nodup ∧
    ∀ x ∈ ((run stack (init f) as).conns i).calls, ∃ (r : Nat) (q : Req), ((run stack (init f) as).conns i).reqs[r]? = some q ∧ q.id = x.id ∧ q.endpoint = x.endpoint ∧ q.payload = x.payload := by
  obtain ⟨l, hl, e⟩ := run_conn stack (init f) as i
  have e' : (run stack (init f) as).conns i = Unix.run Unix.init l := e
  rw [e'] at hn ⊢
  have h := once_run l hl Unix.init idInv_init hn ⟨by simp [Unix.init], by simp [Unix.init], by simp [Unix.init]⟩
  refine ⟨(List.nodup_append.1 h.nodup).1, fun x hx => ?_⟩
  obtain ⟨r, q, h1, h2, h3, h4, _⟩ := h.calls x hx
  exact ⟨r, q, h1, h2, h3, h4⟩

/-! ## Concrete cases -/

def before : Facts := { pid := 40, name := [112], threads := [(7, [97])], names := [(5, [120])], switches := { map := [(7, 0), (8, 1)], cells := [{ owner := 0, val := true }, { owner := 1, val := true }] } }
def after : Facts := { before with threads := [(7, [98]), (9, [])], endpoints := [infoName] }

/-- While the query is on its way, a thread gets another name and a thread is new. -/
def schedule (payload : Bytes) : List Act :=
  [.addEndpoint infoName, .conn 3 (.request infoName payload), .conn 3 (.send 0 true), .conn 3 (.register 0), .change after, .serve 3 none, .change { after with threads := [] }, .conn 3 .receive,
    .conn 3 (.dispatch none)]

example : ∃ p d, infoRequest = .ok p ∧ typed before = true ∧
    (((run 2 (init before) (schedule p)).conns 3).reqs[0]?).map (·.fut) = some (.value d) ∧
    infoResult 2 d = .ok { name := [112], threads := [(7, [98]), (9, [])], pid := 40 } := by
  refine ⟨_, _, rfl, by decide +kernel, rfl, by decide +kernel⟩

/-- A command for the process and for threads 8 and 11; the process has 7 and 8. -/
def command : Config := { process := false, setProcess := true, threads := [(8, false), (11, false)] }

example : ∃ p d, configRequest (some command) = .ok p ∧
    (((run 3 (init before) [.addEndpoint configName, .conn 0 (.request configName p), .conn 0 (.send 0 true), .conn 0 (.register 0), .serve 0 none, .conn 0 .receive, .conn 0 (.dispatch none)]).conns 0).reqs[0]?).map
      (·.fut) = some (.value d) ∧ configResult 3 d = .ok { process := false, threads := [(7, true), (8, false)], success := true } := by
  refine ⟨_, _, rfl, rfl, by decide +kernel⟩

/-- The endpoints are addressed by the names that the source has. -/
theorem addressed_by : infoName = "process_info".toUTF8.data.toList ∧ introspectName = "introspect".toUTF8.data.toList ∧ mappingName = "scope_tracing".toUTF8.data.toList ∧
    configName = "trace_configurator".toUTF8.data.toList := by decide +kernel

/-- A process that runs takes a new endpoint: all its clients reach it, and introspection lists it. -/
theorem added (stack : Nat) (s : State) (h : s.ended = false) (n : Bytes) (hn : n.length + 1 < 2 ^ 31) :
    (∀ x, x ∈ (step stack s (.addEndpoint n)).facts.endpoints ↔ x = n ∨ x ∈ s.facts.endpoints) ∧
    ∀ i x, x ∈ ((step stack s (.addEndpoint n)).conns i).serverEndpoints ↔ x = n ∨ x ∈ (s.conns i).serverEndpoints := by
  simp only [step, h, hn, and_self, if_true]
  exact ⟨fun x => mem_insertName _ _ _, fun i x => by simp [Unix.step]⟩

/-- A process that runs may change what it has at any time, and what has ended changes no more. -/
theorem changed (stack : Nat) (s : State) (f : Facts) (ht : typed f = true) (he : f.endpoints = s.facts.endpoints) :
    (step stack s (.change f)).facts = (if s.ended then s.facts else f) ∧ (step stack s (.change f)).conns = s.conns ∧ (step stack s (.change f)).ended = s.ended := by
  cases h : s.ended <;> simp [step, h, ht, he]

/-- Each query is answered, with what the process has. -/
theorem each_answered (stack client : Nat) (f : Facts) (ht : typed f = true) (h63 : ∀ x ∈ f.threads, x.1 < 2 ^ 63) (other : Option Bytes) :
    (∃ req d, infoRequest = .ok req ∧ Query.handle stack f infoName req other = .ok (f, some d) ∧
      infoResult (client + 2) d = .ok { name := f.name, threads := f.threads, pid := f.pid }) ∧
    (∃ d, Query.handle stack f mappingName ("m".toUTF8.toList) other = .ok (f, some d) ∧ mappingResult (client + 4) d = .ok [(f.pid, f.names)]) ∧
    (∀ req, ∃ d, Query.handle stack f introspectName req other = .ok (f, some d) ∧ supportedResult (client + 1) d = .ok f.endpoints) := by
  simp only [typed, Bool.and_eq_true, decide_eq_true_eq, List.all_eq_true] at ht
  obtain ⟨⟨⟨⟨⟨⟨⟨⟨h1, h2⟩, h3⟩, h4⟩, h5⟩, h6⟩, h7⟩, h8⟩, h9⟩ := ht
  refine ⟨?_, ?_, ?_⟩
  · obtain ⟨req, d, e1, e2, e3⟩ := C128.info_arrives stack client f.pid h1 f.name h2 f.threads ⟨h3, fun x hx => ⟨h63 x hx, h4 x hx⟩⟩
    exact ⟨req, d, e1, by simp [Query.handle, e2, Res.bind], e3⟩
  · obtain ⟨d, e1, e2⟩ := C128.mapping_arrives client f.pid h1 f.names ⟨h5, fun x hx => ⟨by have := (h6 x hx).1; omega, (h6 x hx).2⟩⟩ (fun x hx => (h6 x hx).1)
    refine ⟨d, ?_, e2⟩
    have hm : "m".toUTF8.toList = [109] := by decide +kernel
    rw [hm]
    simp [Query.handle, mappingName, infoName, introspectName, e1, Res.bind]
  · intro req
    obtain ⟨d, e1, e2⟩ := C128.endpoints_arrive client f.endpoints h9
    exact ⟨d, by simp [Query.handle, introspectName, infoName, e1, Res.bind], e2⟩

/-- A client may do any of its steps at any time; it changes its own connection only, and nothing of the process. -/
theorem client_acts (stack : Nat) (s : State) (i : Nat) (a : Unix.Act) (h1 : ∀ r, a ≠ .serve r) (h2 : ∀ n, a ≠ .addServerEndpoint n) (h3 : ∀ d, a ≠ .dispatch (some d)) :
    (step stack s (.conn i a)).conns i = Unix.step (s.conns i) a ∧ (∀ j, j ≠ i → (step stack s (.conn i a)).conns j = s.conns j) ∧
      (step stack s (.conn i a)).facts = s.facts ∧ (step stack s (.conn i a)).ended = s.ended := by
  have hc : clientStep a = true := by
    cases a with
    | serve r => exact absurd rfl (h1 r)
    | addServerEndpoint n => exact absurd rfl (h2 n)
    | dispatch d =>
      cases d with
      | none => rfl
      | some d => exact absurd rfl (h3 d)
    | _ => rfl
  simp only [step, hc, if_true, upd]
  exact ⟨trivial, fun j hj => by simp [hj], trivial, trivial⟩

/-- A query for names without a payload makes the process read what is not there. -/
theorem empty_names_query (stack : Nat) (f : Facts) (other : Option Bytes) : Query.handle stack f mappingName [] other = .ub := by
  have h : mappingName ≠ infoName ∧ mappingName ≠ introspectName := by decide
  simp [Query.handle, h.1, h.2]

end Scalopus.C130
