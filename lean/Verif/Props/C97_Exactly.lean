import Verif.Props.C77_PyData
import Verif.Props.C95_SlowClients
import Verif.Props.C97_LoopbackLife

/-!
# C78, C95, C97: exactly when it goes wrong

Waiting for an answer from Python, clients that stop the worker of a server, and loopback transports that are made or released while a broadcast is delivered.
-/

namespace Scalopus.C78

open Protocol PyData

/-- **C78, exactly.** Waiting is undefined exactly if the answer was taken before. (`arrives`, what the future becomes while one waits, is never a future whose answer was taken.) -/
theorem undefined_iff (f : Future) (arrives : Option Future) (ha : arrives ≠ some .taken) : waitFor f arrives = .ub ↔ f = .taken := by
  cases f with
  | taken => simp [waitFor]
  | value d => simp [waitFor]
  | error => simp [waitFor]
  | waiting =>
    cases arrives with
    | none => simp [waitFor]
    | some g => cases g <;> simp_all [waitFor]

/-- **C78, all histories.** Waits one after the other, beginning with a request that has just been sent, become undefined exactly if a wait follows one that returned the answer. -/
theorem waits_undefined_iff (l : List (Option Future)) (ha : ∀ a ∈ l, a ≠ some .taken) :
    waits .waiting l = .ub ↔ ∃ (pre rest : List (Option Future)) (d : Bytes), l = pre ++ some (.value d) :: rest ∧ rest ≠ [] ∧ ∀ a ∈ pre, a = none ∨ a = some .waiting := by
  induction l with
  | nil => simp [waits]
  | cons a l ih =>
    have ih' := ih fun x hx => ha x (by simp [hx])
    have hw : ∀ {o : Option Future}, (o = none ∨ o = some .waiting) → (waits .waiting (o :: l) = .ub ↔ waits .waiting l = .ub) := by
      intro o ho
      have : waitFor .waiting o = .ok ⟨.none, .waiting, [.none false]⟩ := by rcases ho with rfl | rfl <;> rfl
      simp only [waits, this, Res.bind]
      cases waits .waiting l <;> simp
    have hpre : ∀ {o : Option Future}, (o = none ∨ o = some .waiting) →
        ((∃ (pre rest : List (Option Future)) (d : Bytes), l = pre ++ some (.value d) :: rest ∧ rest ≠ [] ∧ ∀ a ∈ pre, a = none ∨ a = some .waiting) ↔
          ∃ (pre rest : List (Option Future)) (d : Bytes), o :: l = pre ++ some (.value d) :: rest ∧ rest ≠ [] ∧ ∀ a ∈ pre, a = none ∨ a = some .waiting) := by
      intro o ho
      constructor
      · rintro ⟨pre, rest, d, rfl, h1, h2⟩
        exact ⟨o :: pre, rest, d, rfl, h1, by simpa [ho] using h2⟩
      · rintro ⟨pre, rest, d, e, h1, h2⟩
        cases pre with
        | nil =>
          simp only [List.nil_append, List.cons.injEq] at e
          rcases ho with rfl | rfl
          · cases e.1
          · cases e.1
        | cons p pre =>
          simp only [List.cons_append, List.cons.injEq] at e
          exact ⟨pre, rest, d, e.2, h1, fun x hx => h2 x (by simp [hx])⟩
    cases a with
    | none => rw [hw (.inl rfl), ih']; exact hpre (.inl rfl)
    | some f =>
      cases f with
      | waiting => rw [hw (.inr rfl), ih']; exact hpre (.inr rfl)
      | taken => exact absurd rfl (ha _ (by simp))
      | error =>
        have : waits .waiting (some .error :: l) = .throws "future_error" := rfl
        rw [this]
        constructor
        · intro h; cases h
        · rintro ⟨pre, rest, d, e, h1, h2⟩
          cases pre with
          | nil => cases (List.cons.inj e).1
          | cons p pre =>
            have e1 := (List.cons.inj e).1
            have := h2 p (by simp)
            rw [← e1] at this
            rcases this with h | h <;> cases h
      | value d =>
        have : waits .waiting (some (.value d) :: l) = (waits .taken l).bind fun r => .ok (dataToPy d :: r) := rfl
        rw [this]
        constructor
        · intro h
          refine ⟨[], l, d, rfl, ?_, by simp⟩
          rintro rfl
          cases h
        · rintro ⟨pre, rest, d', e, h1, h2⟩
          cases pre with
          | nil =>
            have e2 := (List.cons.inj e).2
            subst e2
            cases l with
            | nil => exact absurd rfl h1
            | cons b l =>
              have : waitFor .taken b = .ub := by simp [waitFor]
              simp [waits, this, Res.bind]
          | cons p pre =>
            have e1 := (List.cons.inj e).1
            have := h2 p (by simp)
            rw [← e1] at this
            rcases this with h | h <;> cases h

example : waits .waiting [none, some (.value [1]), none] = .ub := rfl

end Scalopus.C78

namespace Scalopus.C95

open UnixBlock

/-- **C95, exactly.** In every history, the worker of a server that has something to do cannot go on exactly if it waits for a client: one whose buffer is full while it is written to, or one that has
    begun a message and not finished it. -/
theorem stopped_iff (cap : Nat) (as : List Act) (s : State) (e : run cap {} as = some s) (hne : s.tasks ≠ []) : (∀ rep, step cap s (.work rep) = none) ↔ ∃ i, WaitsFor cap s i := by
  have hi := inv_run as inv_init e
  cases ht : s.tasks with
  | nil => exact absurd ht hne
  | cons t rest =>
    cases t with
    | recv i =>
      have hs := hi.some i (by rw [ht]; simp [recvs])
      constructor
      · intro h
        have h := h none
        simp only [step, ht, task] at h
        split at h
        · cases h
        · split at h
          · cases h
          · rename_i h1 h2
            refine ⟨i, by simpa using h2, .inr ⟨rest, ht, by omega, ?_⟩⟩
            rcases hs with hs | hs | hs
            · exact absurd hs h1
            · exact hs
            · exact absurd hs h2
      · rintro ⟨j, hc, h⟩ rep
        rcases h with ⟨k, r, rest', h1, -⟩ | ⟨rest', h1, h2, -⟩
        · rw [ht] at h1; cases h1
        · rw [ht] at h1; cases h1
          simp [step, ht, task, h2, hc]
    | send i k r =>
      constructor
      · intro h
        have h := h none
        simp only [step, ht, task] at h
        split at h
        · cases h
        · rename_i hc
          split at h
          · cases h
          · split at h
            · rename_i h1 h2
              exact ⟨i, by simpa using hc, .inl ⟨k, r, rest, ht, by omega, by omega⟩⟩
            · cases h
      · rintro ⟨j, hc, h⟩ rep
        rcases h with ⟨k', r', rest', h1, h2, h3⟩ | ⟨rest', h1, -⟩
        · rw [ht] at h1; cases h1
          have : min k (cap - s.out i) = 0 := by omega
          simp only [step, ht, task, hc, this]
          rw [if_neg (by simp), if_neg (by omega), if_pos trivial]
        · rw [ht] at h1; cases h1

/-- Such histories: see `full_buffer` and `unfinished_message`. -/
example := full_buffer 8 (by decide)

end Scalopus.C95

namespace Scalopus.C97

open LoopbackLife

theorem checkServer_ne {s : State} {w : Bool} : checkServer s w ≠ .ub ∧ (checkServer s w = .terminate ↔ w = true ∧ s.phase = .alive ∧ s.held = 0 ∧ s.clients.all (·.gone) = true) := by
  unfold checkServer
  split
  · rename_i h
    cases w <;> simp [h]
  · rename_i h
    refine ⟨by simp, ?_⟩
    simp only [reduceCtorEq, false_iff]
    exact fun hh => h hh.2

theorem checkClient_ne {s : State} {i : Nat} {w : Bool} : checkClient s i w ≠ .ub ∧ (checkClient s i w = .terminate → w = true) := by
  unfold checkClient
  split
  · exact ⟨checkServer_ne.1, fun h => (checkServer_ne.2.1 h).1⟩
  · simp

/-- **C97, exactly.** Whatever happened before, the next step is undefined exactly if a client connects while the worker walks through the clients, and it terminates the process exactly if the worker gives a
    client back when no user holds the server or a client any more. -/
theorem wrong_iff (as : List Act) (s : State) (h : run {} as = .ok s) (a : Act) :
    (step s a = .ub ↔ a = .connect ∧ s.phase = .alive ∧ s.walking = true) ∧
    (step s a = .terminate ↔ a = .unlend ∧ s.lent ≠ none ∧ s.held = 0 ∧ ∀ c ∈ s.clients, c.held = 0) := by
  have hi := inv_run as inv_init h
  cases a with
  | connect => simp only [step]; split <;> [(split <;> simp_all); simp_all]
  | holdServer => simp only [step]; split <;> simp
  | dropServer =>
    simp only [step]; split
    · refine ⟨⟨fun h => absurd h checkServer_ne.1, by simp⟩, ⟨fun h => absurd (checkServer_ne.2.1 h).1 (by decide), by simp⟩⟩
    · simp
  | holdClient i => simp only [step]; split <;> simp
  | dropClient i =>
    simp only [step]; split
    · refine ⟨⟨fun h => absurd h checkClient_ne.1, by simp⟩, ⟨fun h => absurd (checkClient_ne.2 h) (by decide), by simp⟩⟩
    · simp
  | walk => simp only [step]; split <;> simp
  | lend i => simp only [step]; split <;> simp
  | walked => simp only [step]; split <;> simp
  | joined => simp only [step]; split <;> simp
  | unlend =>
    simp only [step]
    cases hl : s.lent with
    | none => simp
    | some i =>
      refine ⟨⟨fun h => absurd h checkClient_ne.1, by simp⟩, ?_⟩
      obtain ⟨hw, hlt, hg⟩ := hi.lent i hl
      have hget := get_client hlt
      have hal : s.phase = .alive := hi.alive.2 (.inr ⟨client s i, List.mem_of_getElem? hget, hg⟩)
      have e1 : client { s with lent := none } i = client s i := rfl
      simp only [ne_eq, reduceCtorEq, not_false_eq_true, true_and]
      unfold checkClient
      rw [e1]
      have hothers : ∀ j c, j ≠ i → s.clients[j]? = some c → (c.gone = true ↔ c.held = 0) := by
        intro j c hj hc
        rw [hi.gone j c hc, hl]
        simp only [ne_eq, Option.some.injEq, and_iff_left_iff_imp]
        exact fun _ h => hj h.symm
      constructor
      · intro h
        split at h
        · rename_i hc
          obtain ⟨-, -, h1, h2⟩ := checkServer_ne.2.1 h
          refine ⟨h1, fun c hcm => ?_⟩
          obtain ⟨j, hj⟩ := List.getElem?_of_mem hcm
          by_cases hji : j = i
          · subst hji
            rw [← client_eq hj]; exact hc.1
          · refine (hothers j c hji hj).1 ?_
            rw [List.all_eq_true] at h2
            refine h2 c (List.mem_of_getElem? (i := j) ?_)
            simp only [setClient, List.getElem?_set]
            rw [if_neg (fun h => hji h.symm)]
            exact hj
        · cases h
      · rintro ⟨h1, h2⟩
        rw [if_pos ⟨h2 _ (List.mem_of_getElem? hget), by simp⟩]
        refine checkServer_ne.2.2 ⟨rfl, hal, h1, ?_⟩
        rw [List.all_eq_true]
        intro c hcm
        obtain ⟨j, hj⟩ := List.getElem?_of_mem hcm
        simp only [setClient, List.getElem?_set] at hj
        split at hj
        · simp only [hlt, if_true, Option.some.injEq] at hj; rw [← hj]
        · rename_i hne
          exact (hothers j c (fun h => hne h.symm) hj).2 (h2 c (List.mem_of_getElem? hj))

/-- Both conditions are met by histories. -/
example : (∃ s, run {} [.connect, .walk] = .ok s ∧ s.phase = .alive ∧ s.walking = true) ∧
    ∃ s, run {} [.connect, .dropServer, .walk, .lend 0, .dropClient 0] = .ok s ∧ s.lent ≠ none ∧ s.held = 0 ∧ ∀ c ∈ s.clients, c.held = 0 :=
  ⟨⟨_, rfl, rfl, rfl⟩, ⟨_, rfl, by decide, rfl, by decide⟩⟩

end Scalopus.C97
