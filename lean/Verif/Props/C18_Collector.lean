import Verif.Proofs.CollectorProgress

/-!
# C18, C19, C20, C60: from tracepoints to the sender

All statements quantify over every history `as` of the process: any number of threads that start, reach tracepoints and exit at any
moment, any reuse of thread identifiers, and the sender's rounds, interleaved in any order.
-/

namespace Scalopus.C18

open Collector

variable {α : Type}

/-- **C18, conservation.** At every moment, the events of a thread that were accepted are those collected (in finished rounds and in
    the current one, listed under the thread's identifier) followed by those still in its buffer: nothing is lost, duplicated or
    changed. -/
theorem nothing_lost_or_duplicated_partial (n : Nat) (as : List (Act α)) (s : State α) (h : run { ringSize := n } as = .ok s)
    (t : Nat) (th : Thread) (ht : s.threads[t]? = some th) :
    accepted t s = collectedOf t th.tid s ++ ofThread t (buffered s th.buf) :=
  (conserved_run as (wf_init n) (conserved_init n) h).all t th ht

/-- **C18, nothing else.** Whatever a round lists was emitted and accepted, is listed under the identifier of the thread that emitted
    it, and every identifier is listed at most once in a round. -/
theorem nothing_else_collected (n : Nat) (as : List (Act α)) (s : State α) (h : run { ringSize := n } as = .ok s)
    (b : Batch α) (hb : b ∈ s.batches) :
    (b.events.map (·.1)).Nodup ∧
    ∀ tid e, listed b tid e → (e, true) ∈ s.log ∧ ∃ th, s.threads[e.thread]? = some th ∧ th.tid = tid := by
  have hc := conserved_run as (wf_init n) (conserved_init n) h
  refine ⟨(hc.keysB b hb).1, ?_⟩
  rintro tid e ⟨x, hx, rfl, he⟩
  exact hc.tidsB b hb x hx e he

theorem mem_under {m : List (Nat × List (Ev α))} {tid : Nat} {e : Ev α} (h : e ∈ under m tid) : ∃ x ∈ m, x.1 = tid ∧ e ∈ x.2 := by
  unfold under at h
  induction m with
  | nil => simp at h
  | cons x m ih =>
    obtain ⟨k, l⟩ := x
    simp only [List.lookup] at h
    split at h
    · rename_i hk
      simp at hk h
      exact ⟨(k, l), by simp, hk.symm, h⟩
    · obtain ⟨y, hy, h'⟩ := ih h
      exact ⟨y, by simp [hy], h'⟩

/-- **C18, progress.** An accepted event is listed in a finished round, under the identifier of its thread, once the sender has
    finished three rounds since it was emitted, also if its thread exits at any moment in between. (The round during which it was emitted
    may have missed it; the next one may miss it if the thread exits between the two looks of the sender.) -/
theorem every_event_collected_partial (n : Nat) (as : List (Act α)) (hsees : SeesAll as) (s : State α)
    (h : run { ringSize := n } as = .ok s) (e : Ev α) (he : (e, true) ∈ s.log) (hround : e.stamp + 3 ≤ s.rounds) :
    ∃ b ∈ s.batches, ∃ th, s.threads[e.thread]? = some th ∧ listed b th.tid e := by
  have hw := wf_run as (wf_init n) h
  have hc := conserved_run as (wf_init n) (conserved_init n) h
  have hst := stamps_run as hsees (wf_init n) (stamps_init n) h
  obtain ⟨th, ht⟩ := hc.known _ he
  simp only at ht
  have hacc : e ∈ accepted e.thread s := by
    unfold accepted ofThread
    simp only [List.mem_filter, List.mem_map, decide_eq_true_eq, and_true]
    exact ⟨(e, true), ⟨he, rfl⟩, rfl⟩
  rw [hc.all e.thread th ht, List.mem_append] at hacc
  rcases hacc with hcol | hbuf
  · unfold collectedOf at hcol
    rw [List.mem_append] at hcol
    rcases hcol with hcol | hcol
    · unfold ofThread at hcol
      simp only [List.mem_filter, List.mem_flatMap] at hcol
      obtain ⟨⟨b, hb, hb'⟩, _⟩ := hcol
      exact ⟨b, hb, th, ht, mem_under hb'⟩
    · exfalso
      unfold ofThread at hcol
      simp only [List.mem_filter] at hcol
      obtain ⟨x, hx, _, hxe⟩ := mem_under hcol.1
      have := hst.current x hx e hxe
      omega
  · exfalso
    unfold ofThread buffered at hbuf
    simp only [List.mem_filter] at hbuf
    cases hb : s.bufs[th.buf]? with
    | none => rw [hb] at hbuf; simp at hbuf
    | some b =>
      rw [hb] at hbuf
      simp only [Option.map_some, Option.getD_some] at hbuf
      by_cases hp : th.phase = .running
      · have := (hst.running _ th b ht hp hb e hbuf.1).1; omega
      · rcases hst.left _ th b ht hp hb e hbuf.1 with ⟨_, g, _⟩ | ⟨_, g⟩ <;> omega

/-- **C18, what can go wrong.** In a reachable state, a step fails only if a thread reaches a tracepoint after its clean-up, or if a
    thread starts while the ring buffer size is set to zero. -/
theorem only_failures (n : Nat) (as : List (Act α)) (s : State α) (h : run { ringSize := n } as = .ok s) (a : Act α)
    (hf : (step s a).isOk = false) :
    (∃ t v lag th, a = .emit t v lag ∧ s.threads[t]? = some th ∧ th.phase = .ended) ∨ (∃ tid, a = .start tid ∧ s.ringSize = 0) := by
  have hw := wf_run as (wf_init n) h
  cases a with
  | start tid =>
    right
    refine ⟨tid, rfl, ?_⟩
    simp only [step] at hf
    split at hf
    · simp [Res.isOk] at hf
    · split at hf
      · simp [Res.isOk] at hf
      · split at hf
        · assumption
        · simp [Res.isOk] at hf
  | emit t v lag =>
    left
    simp only [step] at hf
    cases ht : s.threads[t]? with
    | none => rw [ht] at hf; simp [Res.isOk] at hf
    | some th =>
      refine ⟨t, v, lag, th, rfl, ht, ?_⟩
      rw [ht] at hf
      simp only at hf
      cases hp : th.phase with
      | ended => rfl
      | retiring => rw [hp] at hf; simp [Res.isOk] at hf
      | running =>
        rw [hp] at hf
        have hb := hw.bufBound t th ht
        simp only at hf
        rw [List.getElem?_eq_getElem hb] at hf
        simp only at hf
        split at hf
        · simp [Res.isOk] at hf
        · split at hf <;> simp [Res.isOk] at hf
  | collect k =>
    exfalso
    simp only [step] at hf
    cases hs : s.sender with
    | idle => rw [hs] at hf; simp [Res.isOk] at hf
    | tookOrphans l => rw [hs] at hf; simp [Res.isOk] at hf
    | collecting l =>
      cases l with
      | nil => rw [hs] at hf; simp [Res.isOk] at hf
      | cons x rest =>
        obtain ⟨t, th, ht, _, hb, _⟩ := hw.todo x (by rw [hs]; simp [todo])
        have hlt := hw.bufBound t th ht
        rw [hs] at hf
        simp only at hf
        rw [List.getElem?_eq_getElem (by rw [← hb]; exact hlt)] at hf
        simp [Res.isOk] at hf
  | setRingbufferSize m => simp [step, Res.isOk] at hf
  | setTransport => simp [step, Res.isOk] at hf
  | retire t =>
    exfalso
    simp only [step] at hf
    cases ht : s.threads[t]? with
    | none => rw [ht] at hf; simp [Res.isOk] at hf
    | some th =>
      rw [ht] at hf
      simp only at hf
      cases hp : th.phase with
      | ended => rw [hp] at hf; simp [Res.isOk] at hf
      | retiring => rw [hp] at hf; simp [Res.isOk] at hf
      | running =>
        rw [hp] at hf
        simp only at hf
        cases hl : s.active.lookup th.tid <;> rw [hl] at hf <;> simp [Res.isOk] at hf
  | erase t =>
    exfalso
    simp only [step] at hf
    cases ht : s.threads[t]? with
    | none => rw [ht] at hf; simp [Res.isOk] at hf
    | some th =>
      rw [ht] at hf
      simp only at hf
      cases hp : th.phase <;> rw [hp] at hf <;> simp [Res.isOk] at hf
  | takeOrphans =>
    exfalso
    simp only [step] at hf
    split at hf <;> simp [Res.isOk] at hf
  | snapshot =>
    exfalso
    simp only [step] at hf
    split at hf <;> simp [Res.isOk] at hf
  | finish =>
    exfalso
    simp only [step] at hf
    split at hf <;> simp [Res.isOk] at hf

/-- The full property C18 also asks for tracepoints that a thread reaches at any moment of its exit. -/
def NeverFails (α : Type) : Prop := ∀ (n : Nat) (as : List (Act α)), 0 < n → (∀ m, Act.setRingbufferSize m ∉ as) →
  (run { ringSize := n } as).isOk = true

/-- **C18 is violated** by a tracepoint that runs after the clean-up of its thread. -/
theorem late_tracepoint : ¬ NeverFails Nat := by
  intro h
  have := h 4 [.start 1, .retire 0, .erase 0, .emit 0 7 0] (by decide) (by simp)
  revert this
  decide

/-- Two threads that share an identifier one after the other, the first exits between the two looks of the sender. -/
example : ∃ s, run ({ ringSize := 4, transport := true } : State Nat)
    [.start 9, .emit 0 1 0, .emit 0 2 0, .takeOrphans, .retire 0, .erase 0, .start 9, .emit 1 3 0, .snapshot, .collect none, .finish,
     .takeOrphans, .snapshot, .collect none, .collect none, .finish] = .ok s ∧
    s.batches = [⟨true, [(9, [⟨1, 0, 3⟩])]⟩, ⟨true, [(9, [⟨0, 0, 1⟩, ⟨0, 0, 2⟩])]⟩] := by
  refine ⟨_, rfl, ?_⟩
  decide

end Scalopus.C18

namespace Scalopus.C19

open Collector

variable {α : Type}

/-- **C19.** At every moment, what has been collected of a thread is the beginning of what was accepted of it, in the order of
    emission, within and across rounds. -/
theorem order_preserved (n : Nat) (as : List (Act α)) (s : State α) (h : run { ringSize := n } as = .ok s)
    (t : Nat) (th : Thread) (ht : s.threads[t]? = some th) :
    collectedOf t th.tid s <+: accepted t s := by
  rw [(conserved_run as (wf_init n) (conserved_init n) h).all t th ht]
  exact List.prefix_append _ _

end Scalopus.C19

namespace Scalopus.C20

open Collector

variable {α : Type}

/-- All events in a thread's buffer are its own. -/
theorem own_buffer {s : State α} (hw : Wf s) {t : Nat} {th : Thread} (ht : s.threads[t]? = some th) :
    ofThread t (buffered s th.buf) = buffered s th.buf := by
  unfold ofThread
  rw [List.filter_eq_self]
  intro e he
  unfold buffered at he
  cases hb : s.bufs[th.buf]? with
  | none => rw [hb] at he; simp at he
  | some b =>
    rw [hb] at he
    simp only [Option.map_some, Option.getD_some] at he
    obtain ⟨th', g1, g2⟩ := hw.queue _ b hb e he
    simpa using hw.inj _ _ th' th g1 ht g2

/-- **C20.** A running thread that reaches a tracepoint never blocks or fails. With `size` the size of its ring buffer, and the
    latest `lag` of the elements collected from it not yet visible to it, the event is accepted iff the accepted events of this thread
    that it does not know to be collected are fewer than `size - 1`. If it is accepted it is added behind those in the buffer; if
    not, the buffer is unchanged. No other buffer changes, and what was collected does not change. -/
theorem full_buffer_drops_newest (n : Nat) (as : List (Act α)) (s : State α) (h : run { ringSize := n } as = .ok s)
    (t : Nat) (th : Thread) (ht : s.threads[t]? = some th) (hp : th.phase = .running) (v : α) (lag : Nat) :
    ∃ b s', s.bufs[th.buf]? = some b ∧ step s (.emit t v lag) = .ok s' ∧
      (lag ≤ b.popped →
        ((accepted t s).length - (collectedOf t th.tid s).length + lag < b.size - 1 →
          buffered s' th.buf = buffered s th.buf ++ [⟨t, s.rounds, v⟩] ∧ accepted t s' = accepted t s ++ [⟨t, s.rounds, v⟩]) ∧
        (b.size - 1 ≤ (accepted t s).length - (collectedOf t th.tid s).length + lag →
          buffered s' th.buf = buffered s th.buf ∧ accepted t s' = accepted t s)) ∧
      (∀ i, i ≠ th.buf → buffered s' i = buffered s i) ∧ s'.batches = s.batches ∧ s'.events = s.events := by
  have hw := wf_run as (wf_init n) h
  have hc := conserved_run as (wf_init n) (conserved_init n) h
  have hlt := hw.bufBound t th ht
  have hb : s.bufs[th.buf]? = some s.bufs[th.buf] := List.getElem?_eq_getElem hlt
  generalize s.bufs[th.buf] = b at hb
  have hlen : (accepted t s).length - (collectedOf t th.tid s).length = b.queue.length := by
    rw [hc.all t th ht, own_buffer hw ht, List.length_append]
    unfold buffered
    rw [hb]
    simp
  refine ⟨b, ?_⟩
  simp only [step, ht, hp, hb]
  by_cases hl : b.popped < lag
  · refine ⟨s, trivial, by rw [if_pos hl], fun h' => by omega, fun _ _ => rfl, rfl, rfl⟩
  · rw [if_neg hl, hlen]
    by_cases hroom : b.queue.length + lag + 1 < b.size
    · rw [if_pos hroom]
      refine ⟨_, trivial, rfl, ?_, ?_, rfl, rfl⟩
      · intro _
        refine ⟨fun _ => ⟨?_, ?_⟩, fun h' => by omega⟩
        · unfold buffered
          rw [hb]
          simp [hlt]
        · unfold accepted
          simp [ofThread]
      · intro i hi
        unfold buffered
        simp only
        rw [List.getElem?_set, if_neg (fun e => hi e.symm)]
    · rw [if_neg hroom]
      refine ⟨_, trivial, rfl, ?_, fun _ _ => rfl, rfl, rfl⟩
      intro _
      refine ⟨fun h' => by omega, fun _ => ⟨rfl, ?_⟩⟩
      unfold accepted
      simp [ofThread]

/-- A buffer of size three holds two events, the third is dropped, and there is room again after collection. -/
example : ∃ s, run ({ ringSize := 3, transport := true } : State Nat)
    [.start 9, .emit 0 1 0, .emit 0 2 0, .emit 0 3 0, .takeOrphans, .snapshot, .collect none, .finish, .emit 0 4 2, .emit 0 5 0] = .ok s ∧
    s.log.map (fun x => (x.1.val, x.2)) = [(1, true), (2, true), (3, false), (4, false), (5, true)] := by
  refine ⟨_, rfl, ?_⟩
  decide

end Scalopus.C20

namespace Scalopus.C60

open Collector

variable {α : Type}

theorem transport_stays {s s' : State α} (a : Act α) (hr : step s a = .ok s') (h : s.transport = true) : s'.transport = true := by
  cases a <;> simp only [step] at hr <;> (repeat' split at hr) <;>
    first
      | (simp only [Res.ok.injEq] at hr; subst hr; first | exact h | rfl)
      | simp at hr

theorem sent_step {s s' : State α} (a : Act α) (hr : step s a = .ok s') (h : s.transport = true)
    (hb : ∀ b ∈ s.batches, b.sent = true) : ∀ b ∈ s'.batches, b.sent = true := by
  cases a with
  | finish =>
    simp only [step] at hr
    split at hr
    · simp only [Res.ok.injEq] at hr
      subst hr
      intro b hb'
      simp only at hb'
      split at hb'
      · exact hb b hb'
      · simp only [List.mem_append, List.mem_singleton] at hb'
        rcases hb' with hb' | hb'
        · exact hb b hb'
        · subst hb'; exact h
    · simp only [Res.ok.injEq] at hr; subst hr; exact hb
  | _ =>
    simp only [step] at hr
    (repeat' split at hr) <;>
    first
      | (simp only [Res.ok.injEq] at hr; subst hr; exact hb)
      | simp at hr

/-- The full property C60 (false): every round that collected something is broadcast. -/
def AllSent (α : Type) : Prop :=
  ∀ (n : Nat) (as : List (Act α)) (s : State α), run { ringSize := n } as = .ok s → ∀ b ∈ s.batches, b.sent = true

/-- **C60, partial.** If the sender has a transport from the start, every round that collected something is broadcast, once, with all
    the events it collected (C18); a round without events broadcasts nothing: every broadcast holds at least one event. Missing: rounds
    that are finished before the endpoint is added to a transport. -/
theorem collected_is_broadcast_partial (n : Nat) (as : List (Act α)) (s : State α)
    (h : run { ringSize := n, transport := true } as = .ok s) : ∀ b ∈ s.batches, b.sent = true ∧ ∃ tid e, listed b tid e := by
  have key : ∀ (as : List (Act α)) (s0 : State α), s0.transport = true → (∀ b ∈ s0.batches, b.sent = true) → ∀ s, run s0 as = .ok s →
      ∀ b ∈ s.batches, b.sent = true := by
    intro as
    induction as with
    | nil => intro s0 _ hb s hr; simp [run] at hr; subst hr; exact hb
    | cons a as ih =>
      intro s0 ht hb s hr
      simp only [run] at hr
      cases hs : step s0 a with
      | ok s1 => rw [hs] at hr; exact ih s1 (transport_stays a hs ht) (sent_step a hs ht hb) s hr
      | throws w => rw [hs] at hr; simp [Res.bind] at hr
      | ub => rw [hs] at hr; simp [Res.bind] at hr
      | terminate => rw [hs] at hr; simp [Res.bind] at hr
  intro b hb
  refine ⟨key as _ rfl (by simp) s h b hb, ?_⟩
  have hc : Conserved s := conserved_run as (by constructor <;> simp [todo]) (by constructor <;> simp [total]) h
  have hpos := (hc.keysB b hb).2
  have : ∃ x ∈ b.events, x.2 ≠ [] := by
    false_or_by_contra
    rename_i hno
    have hz : total b.events = 0 := by
      unfold total
      have : ∀ l : List (Nat × List (Ev α)), (∀ x ∈ l, x.2 = []) → (l.map (fun x => x.2.length)).sum = 0 := by
        intro l
        induction l with
        | nil => intro _; rfl
        | cons x l ih => intro hx; simp [hx x (by simp), ih (fun y hy => hx y (by simp [hy]))]
      apply this
      intro x hx
      false_or_by_contra
      rename_i hne
      exact hno ⟨x, hx, hne⟩
    omega
  obtain ⟨x, hx, hne⟩ := this
  cases hx2 : x.2 with
  | nil => exact absurd hx2 hne
  | cons e l => exact ⟨x.1, e, x, hx, rfl, by rw [hx2]; simp⟩

/-- **C60 is violated**: events collected before the endpoint is added to a transport are dropped. -/
theorem collected_without_transport_dropped : ¬ AllSent Nat := by
  intro h
  have := h 4 [.start 1, .emit 0 7 0, .takeOrphans, .snapshot, .collect none, .finish, .setTransport] _ rfl
  revert this
  decide

theorem step_batches {s s' : State α} (a : Act α) (ha : a ≠ .setTransport) (hr : step s a = .ok s') :
    s'.transport = s.transport ∧ ∃ new, s'.batches = s.batches ++ new ∧ ∀ b ∈ new, b.sent = s.transport := by
  cases a with
  | setTransport => exact absurd rfl ha
  | finish =>
    simp only [step] at hr
    split at hr
    · simp only [Res.ok.injEq] at hr
      subst hr
      refine ⟨rfl, ?_⟩
      simp only
      split
      · exact ⟨[], by simp, by simp⟩
      · exact ⟨_, rfl, by simp⟩
    · simp only [Res.ok.injEq] at hr; subst hr; exact ⟨rfl, [], by simp, by simp⟩
  | _ =>
    simp only [step] at hr
    (repeat' split at hr) <;>
    first
      | (simp only [Res.ok.injEq] at hr; subst hr; exact ⟨rfl, [], by simp, by simp⟩)
      | simp at hr

theorem run_batches : ∀ (as : List (Act α)) (s s' : State α), run s as = .ok s' → ∃ new, s'.batches = s.batches ++ new ∧ (.setTransport ∉ as → s'.transport = s.transport ∧ ∀ b ∈ new, b.sent = s.transport) ∧
    (s.transport = true → ∀ b ∈ new, b.sent = true) := by
  intro as
  induction as with
  | nil => intro s s' hr; simp only [run, Res.ok.injEq] at hr; subst hr; exact ⟨[], by simp, by simp, by simp⟩
  | cons a as ih =>
    intro s s' hr
    simp only [run] at hr
    cases hs : step s a with
    | throws w => rw [hs] at hr; simp [Res.bind] at hr
    | ub => rw [hs] at hr; simp [Res.bind] at hr
    | terminate => rw [hs] at hr; simp [Res.bind] at hr
    | ok s1 =>
      rw [hs] at hr
      obtain ⟨new, h1, h2, h3⟩ := ih s1 s' hr
      by_cases ha : a = .setTransport
      · subst ha
        simp only [step, Res.ok.injEq] at hs
        subst hs
        exact ⟨new, h1, fun h => absurd (List.mem_cons_self) h, fun _ => h3 rfl⟩
      · obtain ⟨e1, n1, e2, e3⟩ := step_batches a ha hs
        refine ⟨n1 ++ new, by rw [h1, e2, List.append_assoc], fun h => ?_, fun h => ?_⟩
        · have hh := h2 (fun hm => h (List.mem_cons_of_mem _ hm))
          refine ⟨hh.1.trans e1, fun b hb => ?_⟩
          rcases List.mem_append.mp hb with hb | hb
          · exact e3 b hb
          · rw [hh.2 b hb, e1]
        · intro b hb
          rcases List.mem_append.mp hb with hb | hb
          · rw [e3 b hb, h]
          · exact h3 (e1.trans h) b hb

/-- **C60, exactly.** Whatever the threads and the sender do: of the rounds that collected something, none of those that end before the endpoint is added to a transport is ever broadcast, neither then nor later, and every
    one that ends after that is. -/
theorem sent_exact (n : Nat) (before after : List (Act α)) (s s' : State α) (hb : .setTransport ∉ before) (h : run { ringSize := n } before = .ok s) (h' : run s (.setTransport :: after) = .ok s') :
    ∃ new, s'.batches = s.batches ++ new ∧ (∀ b ∈ s.batches, b.sent = false) ∧ ∀ b ∈ new, b.sent = true := by
  obtain ⟨old, e1, e2, _⟩ := run_batches before _ s h
  simp only [run, step, Res.bind] at h'
  obtain ⟨new, e3, _, e4⟩ := run_batches after _ s' h'
  refine ⟨new, e3, ?_, e4 rfl⟩
  rw [e1]
  simpa using (e2 hb).2

example : ∃ s s' : State Nat, run { ringSize := 4 } [.start 1, .emit 0 7 0, .takeOrphans, .snapshot, .collect none, .finish] = .ok s ∧
    run s (.setTransport :: [.emit 0 8 0, .takeOrphans, .snapshot, .collect none, .finish]) = .ok s' ∧ s.batches.length = 1 ∧ s'.batches.length = 2 := ⟨_, _, rfl, rfl, rfl, rfl⟩

end Scalopus.C60
