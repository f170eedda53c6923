import Verif.Proofs.UnixProgress

/-!
# C94: the end of a connection
-/

namespace Scalopus.C94

open Protocol Unix Spec.Requests

/-- What holds of a connection whose server is gone. -/
structure DownInv (c : Conn) : Prop where
  down : c.serverUp = false → c.toServer = []
  stopped : c.running = false → c.serverUp = false ∧ c.toClient = [] ∧ (c.received = none ∨ c.received = some {})

theorem downInv_init : DownInv init := ⟨by simp [init], by simp [init]⟩

theorem dispatch_fields (c : Conn) (m : Msg) (rep : Option Bytes) :
    (dispatchMsg c m rep).toClient = c.toClient ∧ (dispatchMsg c m rep).received = c.received ∧ (dispatchMsg c m rep).running = c.running ∧
    (dispatchMsg c m rep).serverUp = c.serverUp ∧ (c.serverUp = false → (dispatchMsg c m rep).toServer = c.toServer) := by
  unfold dispatchMsg
  split
  · exact ⟨rfl, rfl, rfl, rfl, fun _ => rfl⟩
  · split
    · split
      · split
        · rename_i h; exact ⟨rfl, rfl, rfl, rfl, fun hs => by rw [hs] at h; simp at h⟩
        · exact ⟨rfl, rfl, rfl, rfl, fun _ => rfl⟩
      · exact ⟨rfl, rfl, rfl, rfl, fun _ => rfl⟩
    · exact ⟨rfl, rfl, rfl, rfl, fun _ => rfl⟩

theorem downInv_step {c : Conn} (h : DownInv c) (a : Act) : DownInv (step c a) := by
  have keep : ∀ c' : Conn, c'.toServer = c.toServer → c'.toClient = c.toClient → c'.received = c.received → c'.running = c.running → c'.serverUp = c.serverUp → DownInv c' :=
    fun c' h1 h2 h3 h4 h5 => ⟨by rw [h1, h5]; exact h.down, by rw [h2, h3, h4, h5]; exact h.stopped⟩
  cases a with
  | request ep p => exact keep _ rfl rfl rfl rfl rfl
  | send r ok =>
    simp only [step]
    split
    · split
      · split
        · rename_i hup
          exact ⟨fun hs => by simp [hup.2.2] at hs, fun hr => by simp [hup.2.1] at hr⟩
        · exact keep _ rfl rfl rfl rfl rfl
      · exact h
    · exact h
  | register r =>
    simp only [step]
    split
    · split
      · exact keep _ rfl rfl rfl rfl rfl
      · exact h
    · exact h
  | drop r =>
    simp only [step]
    split
    · split
      · exact keep _ rfl rfl rfl rfl rfl
      · exact h
    · exact h
  | serve res =>
    simp only [step]
    split
    · exact h
    · rename_i m ms hm
      have hup : c.serverUp = true := by
        cases hs : c.serverUp with
        | true => rfl
        | false => rw [h.down hs] at hm; cases hm
      have hrun : c.running = true := by
        cases hs : c.running with
        | true => rfl
        | false => rw [(h.stopped hs).1] at hup; cases hup
      split
      · exact ⟨fun hs => by simp [hup] at hs, fun hr => by simp [hrun] at hr⟩
      · exact ⟨fun hs => by simp [hup] at hs, fun hr => by simp [hrun] at hr⟩
  | broadcast ep d =>
    simp only [step]
    split
    · rename_i hup
      exact ⟨fun hs => by simp [hup] at hs, fun hr => by simp [(h.stopped hr).1] at hup⟩
    · exact h
  | receive =>
    simp only [step]
    split
    · rename_i hr
      split
      · exact ⟨h.down, fun hs => by simp [hr.1] at hs⟩
      · rename_i hc
        split
        · exact h
        · rename_i hup
          exact ⟨h.down, fun _ => ⟨by simpa using hup, hc, Or.inr rfl⟩⟩
    · exact h
  | dispatch rep =>
    simp only [step]
    split
    · exact h
    · rename_i m hm
      obtain ⟨h1, h2, h3, h4, h5⟩ := dispatch_fields { c with received := none } m rep
      refine ⟨fun hs => ?_, fun hr => ?_⟩
      · rw [h4] at hs; rw [h5 hs]; exact h.down hs
      · rw [h3] at hr
        rw [h1, h2, h4]
        obtain ⟨k1, k2, _⟩ := h.stopped hr
        exact ⟨k1, k2, Or.inl rfl⟩
  | cleanup =>
    simp only [step]
    split
    · exact keep _ rfl rfl rfl rfl rfl
    · exact h
  | serverDown => exact ⟨fun _ => rfl, fun hr => ⟨rfl, (h.stopped hr).2⟩⟩
  | addServerEndpoint n => exact keep _ rfl rfl rfl rfl rfl
  | addClientEndpoint n => exact keep _ rfl rfl rfl rfl rfl

theorem downInv_from {c : Conn} (h : DownInv c) (as : List Act) : DownInv (run c as) := by
  induction as generalizing c with
  | nil => exact h
  | cons a as ih => exact ih (downInv_step h a)

/-- The full property C94 about requests that are waiting (false, see `waiting_forever`): when the client has noticed that the server is gone, the futures of the requests that were sent are ready. -/
def WaitingFail : Prop :=
  ∀ (as : List Act), (run init as).reqs.length < 2 ^ 64 → isConnected (run init as) = false → (run init as).received = none →
    ∀ (r : Nat) (q : Req), (run init as).reqs[r]? = some q → q.pc = .registered → q.fut ≠ .waiting

/-- **C94, no false alarm.** As long as the server is there, the client says that it is connected; and when it says that it is not, it has taken everything that the server sent. -/
theorem disconnected_only_if_gone (as : List Act) (h : isConnected (run init as) = false) : (run init as).serverUp = false ∧ (run init as).toClient = [] := by
  obtain ⟨h1, h2, _⟩ := (downInv_from downInv_init as).stopped h
  exact ⟨h1, h2⟩

/-- Steps that the worker has to make until it notices that the server is gone. -/
def left (c : Conn) : Nat := 2 * c.toClient.length + (if c.received.isSome then 1 else 0)

theorem stays {c : Conn} (h : c.running = false) (as : List Act) : (run c as).running = false := by
  induction as generalizing c with
  | nil => exact h
  | cons a as ih =>
    refine ih ?_
    cases a with
    | dispatch rep =>
      simp only [step]
      split
      · exact h
      · rw [(dispatch_fields _ _ _).2.2.1]; exact h
    | receive => simp [step, h]
    | cleanup => simp [step, h]
    | send r ok => simp only [step]; split <;> (try split) <;> (try split) <;> simp [h]
    | register r => simp only [step]; split <;> (try split) <;> simp [h]
    | drop r => simp only [step]; split <;> (try split) <;> simp [h]
    | serve res => simp only [step]; split <;> (try split) <;> simp [h]
    | broadcast ep d => simp only [step]; split <;> simp [h]
    | _ => exact h

theorem gone_step {c : Conn} (hi : DownInv c) (hup : c.serverUp = false) (hr : c.running = true) (a : Act) :
    (step c a).serverUp = false ∧
    ((step c a).running = false ∨ ((step c a).received.isSome = c.received.isSome ∧ left (step c a) = left c) ∨
      ((step c a).received.isSome ≠ c.received.isSome ∧ left (step c a) < left c)) := by
  have keep : ∀ c' : Conn, c'.toClient = c.toClient → c'.received = c.received → c'.serverUp = c.serverUp →
      c'.serverUp = false ∧ (c'.running = false ∨ (c'.received.isSome = c.received.isSome ∧ left c' = left c) ∨ (c'.received.isSome ≠ c.received.isSome ∧ left c' < left c)) := by
    intro c' h1 h2 h3
    exact ⟨h3.trans hup, Or.inr (Or.inl ⟨by rw [h2], by simp [left, h1, h2]⟩)⟩
  cases a with
  | request ep p => exact keep _ rfl rfl rfl
  | send r ok =>
    simp only [step, hup]
    split
    · split
      · rw [if_neg (by simp)]; exact keep _ rfl rfl rfl
      · exact keep _ rfl rfl rfl
    · exact keep _ rfl rfl rfl
  | register r => simp only [step]; split <;> (try split) <;> exact keep _ rfl rfl rfl
  | drop r => simp only [step]; split <;> (try split) <;> exact keep _ rfl rfl rfl
  | serve res =>
    have e : step c (.serve res) = c := by simp only [step, hi.down hup]
    rw [e]
    exact keep c rfl rfl rfl
  | broadcast ep d => simp only [step, hup]; exact keep _ rfl rfl rfl
  | receive =>
    simp only [step]
    split
    · rename_i hc
      split
      · rename_i m ms hm
        refine ⟨hup, Or.inr (Or.inr ⟨by simp [hc.2], ?_⟩)⟩
        simp [left, hc.2, hm]
        omega
      · rw [if_neg (by simp [hup])]
        exact ⟨hup, Or.inl rfl⟩
    · exact keep _ rfl rfl rfl
  | dispatch rep =>
    simp only [step]
    split
    · exact keep _ rfl rfl rfl
    · rename_i m hm
      obtain ⟨h1, h2, h3, h4, _⟩ := dispatch_fields { c with received := none } m rep
      refine ⟨by rw [h4]; exact hup, Or.inr (Or.inr ⟨by rw [h2, hm]; simp, ?_⟩)⟩
      simp [left, h1, h2, hm]
  | cleanup => simp only [step]; split <;> exact keep _ rfl rfl rfl
  | serverDown => exact ⟨rfl, Or.inr (Or.inl ⟨rfl, rfl⟩)⟩
  | addServerEndpoint n => exact keep _ rfl rfl rfl
  | addClientEndpoint n => exact keep _ rfl rfl rfl

theorem noticed_from : ∀ (bs : List Act) {c : Conn}, DownInv c → c.serverUp = false → left c < workerSteps c bs → (run c bs).running = false := by
  intro bs
  induction bs with
  | nil => intro c _ _ h; simp [workerSteps] at h
  | cons a bs ih =>
    intro c hi hup h
    cases hr : c.running with
    | false => exact stays hr (a :: bs)
    | true =>
      obtain ⟨h1, h2⟩ := gone_step hi hup hr a
      simp only [workerSteps] at h
      rcases h2 with h2 | ⟨h2, h3⟩ | ⟨h2, h3⟩
      · exact stays h2 bs
      · rw [if_pos h2] at h
        exact ih (downInv_step hi a) h1 (by omega)
      · rw [if_neg h2] at h
        exact ih (downInv_step hi a) h1 (by omega)

/-- **C94, a lost connection is noticed.** When the server is gone and the worker has made a step for each of the messages that were sent before, and one more, the client says that it is not
    connected, and goes on saying so. -/
theorem lost_is_noticed (as bs : List Act) (hup : (run init as).serverUp = false) (hs : 2 * ((run init as).toClient.length + 1) ≤ workerSteps (run init as) bs) :
    isConnected (run init (as ++ bs)) = false := by
  rw [run_append]
  refine noticed_from bs (downInv_from downInv_init as) hup ?_
  unfold left
  split <;> omega

/-- The worker can always make such a step, as long as it has not noticed. -/
theorem worker_can_step (as : List Act) (hup : (run init as).serverUp = false) (hc : isConnected (run init as) = true) :
    workerSteps (run init as) [.receive] = 1 ∨ ∀ rep, workerSteps (run init as) [.dispatch rep] = 1 := by
  generalize run init as = c at hup hc
  have hr : c.running = true := hc
  cases h : c.received with
  | none =>
    left
    simp only [workerSteps, step, hr, h, hup]
    cases c.toClient <;> simp
  | some m =>
    right
    intro rep
    simp only [workerSteps, step, h]
    rw [(dispatch_fields { c with received := none } m rep).2.1]
    simp

/-- **C94, afterwards.** A client that says that it is not connected says so for good, and every further request fails when it is sent. -/
theorem lost_for_good (as bs : List Act) (h : isConnected (run init as) = false) : isConnected (run init (as ++ bs)) = false ∧
    ∀ (r : Nat) (q : Req) (ok : Bool), (run init (as ++ bs)).reqs[r]? = some q → q.pc = .sending →
      (run init (as ++ bs ++ [.send r ok])).reqs[r]? = some { q with pc := .failed, fut := .error } := by
  have hb : (run init (as ++ bs)).running = false := by rw [run_append]; exact stays h bs
  refine ⟨hb, fun r q ok hq hp => ?_⟩
  rw [run_append (as := as ++ bs)]
  show (step (run init (as ++ bs)) (.send r ok)).reqs[r]? = _
  simp [step, hq, hp, hb, updReq, List.getElem?_modify]

theorem waits_step {c : Conn} (hi : IdInv c) (hn : c.reqs.length < 2 ^ 64) (hm : MapInv c) (hd : DownInv c) (hr : c.running = false) (a : Act) {r : Nat} {q : Req} (hq : c.reqs[r]? = some q)
    (hp : q.pc = .sent ∨ q.pc = .registered) (hf : q.fut = .waiting) : ∃ q', (step c a).reqs[r]? = some q' ∧ (q'.pc = .sent ∨ q'.pc = .registered) ∧ q'.fut = .waiting := by
  have upd : ∀ (i : Nat) (f : Req → Req), (i = r → (f q).fut = .waiting ∧ ((f q).pc = .sent ∨ (f q).pc = .registered)) →
      ∃ q', (updReq c i f).reqs[r]? = some q' ∧ (q'.pc = .sent ∨ q'.pc = .registered) ∧ q'.fut = .waiting := by
    intro i f h
    rw [getElem?_updReq]
    split
    · rename_i hi
      rw [hq]
      exact ⟨f q, rfl, (h (by simpa using hi.symm)).2, (h (by simpa using hi.symm)).1⟩
    · exact ⟨q, hq, hp, hf⟩
  have here : ∃ q', c.reqs[r]? = some q' ∧ (q'.pc = .sent ∨ q'.pc = .registered) ∧ q'.fut = .waiting := ⟨q, hq, hp, hf⟩
  cases a with
  | request ep p =>
    refine ⟨q, ?_, hp, hf⟩
    simp only [step]
    rw [List.getElem?_append_left (List.getElem?_eq_some_iff.1 hq).1]
    exact hq
  | send i ok =>
    simp only [step]
    split
    · rename_i q2 hq2
      split
      · rename_i hs
        have hne : i ≠ r := by
          rintro rfl
          rw [hq] at hq2
          cases hq2
          rw [hs] at hp; simp at hp
        split
        · exact upd i _ (fun h => absurd h hne)
        · exact upd i _ (fun h => absurd h hne)
      · exact here
    · exact here
  | register i =>
    simp only [step]
    split
    · split
      · exact upd i _ (fun _ => ⟨hf, Or.inr rfl⟩)
      · exact here
    · exact here
  | drop i =>
    simp only [step]
    split
    · split
      · exact upd i _ (fun _ => ⟨hf, hp⟩)
      · exact here
    · exact here
  | serve res =>
    simp only [step, hd.down (hd.stopped hr).1]
    exact here
  | broadcast ep d => simp only [step]; split <;> exact here
  | receive => simp only [step, hr]; exact here
  | dispatch rep =>
    simp only [step]
    split
    · exact here
    · rename_i m hrec
      have hm0 : m = {} := by
        rcases (hd.stopped hr).2.2 with h | h
        · rw [h] at hrec; cases hrec
        · rw [h] at hrec; cases hrec; rfl
      subst hm0
      unfold dispatchMsg
      split
      · rename_i i hfnd
        obtain ⟨q2, hq2, _, hk, _⟩ := hm.ong _ (find_some hfnd)
        have : q2.id = 0 := by
          have := congrArg Prod.snd hk
          exact this.symm
        exact absurd this (hi.pos hn hq2)
      · split
        · split
          · split <;> exact here
          · exact here
        · exact here
  | cleanup => simp only [step, hr]; exact here
  | serverDown => exact here
  | addServerEndpoint n => exact here
  | addClientEndpoint n => exact here

theorem waits_run : ∀ (bs : List Act) {c : Conn}, IdInv c → MapInv c → DownInv c → (run c bs).reqs.length < 2 ^ 64 → c.running = false → ∀ {r : Nat} {q : Req}, c.reqs[r]? = some q →
    (q.pc = .sent ∨ q.pc = .registered) → q.fut = .waiting → ∃ q', (run c bs).reqs[r]? = some q' ∧ q'.fut = .waiting := by
  intro bs
  induction bs with
  | nil => intro c _ _ _ _ _ r q hq _ hf; exact ⟨q, hq, hf⟩
  | cons a bs ih =>
    intro c hi hm hd hn hr r q hq hp hf
    have hn1 : (step c a).reqs.length < 2 ^ 64 := Nat.lt_of_le_of_lt (length_run _ bs) hn
    have hn0 := Nat.lt_of_le_of_lt (length_step c a) hn1
    obtain ⟨q', h1, h2, h3⟩ := waits_step hi hn0 hm hd hr a hq hp hf
    exact ih (idInv_step hi a) (mapInv_step hi hn0 hm a) (downInv_step hd a) hn (stays hr [a]) h1 h2 h3

/-- **C94 fails** for every request that is waiting when the client notices that the server is gone: its future never becomes ready, whatever happens afterwards. -/
theorem waiting_forever (as bs : List Act) (hn : (run init (as ++ bs)).reqs.length < 2 ^ 64) (h : isConnected (run init as) = false) (r : Nat) (q : Req)
    (hq : (run init as).reqs[r]? = some q) (hp : q.pc = .sent ∨ q.pc = .registered) (hf : q.fut = .waiting) :
    ∃ q', (run init (as ++ bs)).reqs[r]? = some q' ∧ q'.fut = .waiting := by
  rw [run_append] at *
  exact waits_run bs (idInv_run idInv_init as) (mapInv_run as (Nat.lt_of_le_of_lt (length_run _ bs) hn)) (downInv_from downInv_init as) hn h hq hp hf

/-- A request is sent, and the server goes away. -/
def lostSchedule : List Act := [.request [101] [1], .send 0 true, .register 0, .serverDown, .receive, .dispatch none]

theorem not_WaitingFail : ¬ WaitingFail := fun h => h lostSchedule (by decide) (by decide) (by decide) 0 { endpoint := [101], payload := [1], id := 1, pc := .registered } (by decide) rfl rfl

/-- **C94, when the client is destroyed.** The futures of the requests that are still waiting fail then, at any time; those that are ready stay as they are. -/
theorem destroyed_fails (as : List Act) (hn : (run init as).reqs.length < 2 ^ 64) (r : Nat) (q : Req) (hq : (run init as).reqs[r]? = some q) (hp : q.pc = .registered) (hh : q.held = true) :
    ∃ q', (destroy (run init as)).reqs[r]? = some q' ∧ (q.fut = .waiting → q'.fut = .error) ∧ (q.fut ≠ .waiting → q'.fut = q.fut) ∧ isConnected (destroy (run init as)) = false := by
  have hm := mapInv_run as hn
  generalize run init as = c at *
  refine ⟨if r ∈ c.ongoing.map (·.2) then { q with fut := .error } else q, ?_, ?_, ?_, rfl⟩
  · simp [destroy, List.getElem?_mapIdx, hq]
  · intro hf
    rw [if_pos (List.mem_map.2 ⟨_, hm.kept r q hq hp hf hh, rfl⟩)]
  · intro hf
    rw [if_neg]
    intro hmem
    obtain ⟨e, he, rfl⟩ := List.mem_map.1 hmem
    obtain ⟨q2, hq2, _, _, hf2⟩ := hm.ong e he
    rw [hq] at hq2
    cases hq2
    exact hf hf2

/-- Two messages were on the way when the server went; the client takes both before it notices. -/
example : let as : List Act := [.addServerEndpoint [1], .request [1] [], .send 0 true, .register 0, .broadcast [2] [], .serve (some [7]), .serverDown]
    let bs : List Act := [.receive, .dispatch none, .receive, .dispatch none, .receive, .dispatch none]
    (run init as).serverUp = false ∧ isConnected (run init as) = true ∧ 2 * ((run init as).toClient.length + 1) ≤ workerSteps (run init as) bs ∧
    isConnected (run init (as ++ bs)) = false ∧ (run init (as ++ bs)).reqs.map (·.fut) = [.value [7]] := by decide

example : (destroy (run init lostSchedule)).reqs.map (·.fut) = [.error] := by decide

end Scalopus.C94
