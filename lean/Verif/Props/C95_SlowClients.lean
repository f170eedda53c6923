import Verif.Model.UnixBlock

/-!
# C95: clients that do not read, or stop in the middle of a message
-/

namespace Scalopus.C95

open UnixBlock

/-- The client that makes a step, if one does. -/
def client : Act → Option Nat
  | .message i | .begin i | .complete i | .read i _ | .close i => some i
  | _ => none

/-- **C95** in full: when client `j` has sent a request and goes on reading, and endpoints reply, then it can get the answer whatever the other clients do; and the server can always be destroyed. -/
def OthersDoNotMatter : Prop :=
  ∀ cap, 0 < cap → ∀ (as : List Act) (s : State), run cap {} as = some s →
    (∀ j, s.inbox j ≠ 0 → s.closed j = false → s.stopping = false → ∃ bs s', (∀ a ∈ bs, client a = none ∨ client a = some j) ∧ run cap s bs = some s' ∧ s.replied j < s'.replied j) ∧
    (∃ bs s', (∀ a ∈ bs, client a = none) ∧ run cap s bs = some s' ∧ s'.ended = true)

/-! ### A client can stop the server -/

/-- The worker waits for client `i`. -/
def WaitsFor (cap : Nat) (s : State) (i : Nat) : Prop :=
  s.closed i = false ∧ ((∃ k r rest, s.tasks = .send i k r :: rest ∧ k ≠ 0 ∧ cap ≤ s.out i) ∨ (∃ rest, s.tasks = .recv i :: rest ∧ s.inbox i = 0 ∧ s.begun i = true))

/-- Client `i` does not help: it does not read, does not complete its message and does not go away. -/
def Idle (i : Nat) : Act → Prop
  | .read j _ | .complete j | .close j => j ≠ i
  | _ => True

theorem waits_step {cap : Nat} {s s' : State} {i : Nat} (h : WaitsFor cap s i) {a : Act} (ha : Idle i a) (e : step cap s a = some s') :
    WaitsFor cap s' i ∧ s'.tasks = s.tasks ∧ s'.replied = s.replied ∧ s'.ended = s.ended := by
  obtain ⟨hc, hw⟩ := h
  have hne : s.tasks ≠ [] := by
    rcases hw with ⟨k, r, rest, h, _⟩ | ⟨rest, h, _⟩ <;> rw [h] <;> simp
  have keep : ∀ s' : State, s'.tasks = s.tasks → s'.closed i = s.closed i → s'.out i = s.out i → (s.inbox i = 0 → s.begun i = true → s'.inbox i = 0 ∧ s'.begun i = true) → WaitsFor cap s' i := by
    intro s' h1 h2 h3 h4
    refine ⟨h2.trans hc, ?_⟩
    rcases hw with ⟨k, r, rest, h, hk, ho⟩ | ⟨rest, h, hi, hb⟩
    · exact Or.inl ⟨k, r, rest, h1.trans h, hk, by rw [h3]; exact ho⟩
    · obtain ⟨a, b⟩ := h4 hi hb
      exact Or.inr ⟨rest, h1.trans h, a, b⟩
  cases a with
  | connect j =>
    simp only [step] at e
    split at e
    · simp only [Option.some.injEq] at e; subst e
      exact ⟨keep _ rfl rfl rfl (fun a b => ⟨a, b⟩), rfl, rfl, rfl⟩
    · cases e
  | message j =>
    simp only [step] at e
    split at e
    · rename_i hg
      simp only [Option.some.injEq] at e; subst e
      refine ⟨keep _ rfl rfl rfl (fun a b => ⟨?_, b⟩), rfl, rfl, rfl⟩
      have : i ≠ j := by rintro rfl; rw [hg.2.1] at b; cases b
      simp [upd, this, a]
    · cases e
  | begin j =>
    simp only [step] at e
    split at e
    · rename_i hg
      simp only [Option.some.injEq] at e; subst e
      refine ⟨keep _ rfl rfl rfl (fun a b => ⟨a, ?_⟩), rfl, rfl, rfl⟩
      simp only [upd]; split
      · rfl
      · exact b
    · cases e
  | complete j =>
    have hj : i ≠ j := Ne.symm ha
    simp only [step] at e
    split at e
    · simp only [Option.some.injEq] at e; subst e
      exact ⟨keep _ rfl rfl rfl (fun a b => ⟨by simp [upd, hj, a], by simp [upd, hj, b]⟩), rfl, rfl, rfl⟩
    · cases e
  | read j n =>
    have hj : i ≠ j := Ne.symm ha
    simp only [step, Option.some.injEq] at e; subst e
    exact ⟨keep _ rfl rfl (by simp [upd, hj]) (fun a b => ⟨a, b⟩), rfl, rfl, rfl⟩
  | close j =>
    have hj : i ≠ j := Ne.symm ha
    simp only [step, Option.some.injEq] at e; subst e
    exact ⟨keep _ rfl (by simp [upd, hj]) rfl (fun a b => ⟨a, b⟩), rfl, rfl, rfl⟩
  | round rs bs =>
    simp only [step] at e
    split at e
    · rename_i hg; exact absurd hg.1 hne
    · cases e
  | work rep =>
    exfalso
    simp only [step] at e
    rcases hw with ⟨k, r, rest, h, hk, ho⟩ | ⟨rest, h, hi, hb⟩
    · rw [h] at e
      have h0 : min k (cap - s.out i) = 0 := by omega
      simp [task, hc, h0, Ne.symm hk] at e
    · rw [h] at e
      simp [task, hi, hc] at e
  | stop =>
    simp only [step, Option.some.injEq] at e; subst e
    exact ⟨keep _ rfl rfl rfl (fun a b => ⟨a, b⟩), rfl, rfl, rfl⟩
  | finish =>
    simp only [step] at e
    split at e
    · rename_i hg; exact absurd hg.1 hne
    · cases e

/-- **C95 fails:** when the worker is writing to a client whose buffer is full, or reading a message that the client has not finished, then as long as this client does not read, does not finish the
    message and stays connected, no other client gets a reply and the destructor does not return, whatever anyone else does. -/
theorem one_client_stops_all (cap : Nat) (s s' : State) (i : Nat) (h : WaitsFor cap s i) (as : List Act) (ha : ∀ a ∈ as, Idle i a) (e : run cap s as = some s') :
    s'.replied = s.replied ∧ s'.ended = s.ended ∧ s'.tasks = s.tasks := by
  induction as generalizing s with
  | nil => simp only [run, List.foldlM_nil, Option.pure_def, Option.some.injEq] at e; subst e; exact ⟨rfl, rfl, rfl⟩
  | cons a as ih =>
    simp only [run, List.foldlM_cons] at e
    cases h1 : step cap s a with
    | none => rw [h1] at e; cases e
    | some s1 =>
      rw [h1] at e
      obtain ⟨k1, k2, k3, k4⟩ := waits_step h (ha a (by simp)) h1
      obtain ⟨j1, j2, j3⟩ := ih s1 k1 (fun x hx => ha x (by simp [hx])) e
      exact ⟨j1.trans k3, j2.trans k4, j3.trans k2⟩

/-- This happens, for every size of the buffers: a broadcast that is larger than the buffer, to a client that does not read, while another client waits for an answer. -/
theorem full_buffer (cap : Nat) (hc : 0 < cap) : ∃ s, run cap {} [.connect 0, .connect 1, .message 1, .round [] [cap + 1], .work none] = some s ∧ WaitsFor cap s 0 ∧ s.inbox 1 ≠ 0 ∧
    s.closed 1 = false ∧ s.stopping = false := by
  have h1 : ¬ (min (cap + 1) (cap - 0) = cap + 1) := by omega
  have h2 : ¬ (min (cap + 1) (cap - 0) = 0) := by omega
  refine ⟨{ conns := [0, 1], inbox := upd (fun _ => 0) 1 1, out := upd (fun _ => 0) 0 cap, tasks := [.send 0 1 false, .send 1 (cap + 1) false] }, ?_, ⟨rfl, Or.inl ⟨1, false, _, rfl, by decide, ?_⟩⟩, ?_, rfl, rfl⟩
  · have h3 : min (cap + 1) (cap - 0) = cap := by omega
    simp only [run, step, List.foldlM_cons, List.foldlM_nil]
    simp [task]
    omega
  · simp [upd]
  · simp [upd]

/-- And a client that sends the first bytes of a message. -/
theorem unfinished_message (cap : Nat) : ∃ s, run cap {} [.connect 0, .connect 1, .message 1, .begin 0, .round [0, 1] []] = some s ∧ WaitsFor cap s 0 ∧ s.inbox 1 ≠ 0 ∧ s.closed 1 = false ∧
    s.stopping = false := by
  refine ⟨{ conns := [0, 1], inbox := upd (fun _ => 0) 1 1, begun := upd (fun _ => false) 0 true, tasks := [.recv 0, .recv 1] }, ?_, ⟨rfl, Or.inr ⟨_, rfl, ?_, ?_⟩⟩, ?_, rfl, rfl⟩
  · simp [run, step, List.foldlM_cons, upd]
  · simp [upd]
  · simp [upd]
  · simp [upd]

theorem not_OthersDoNotMatter : ¬ OthersDoNotMatter := fun h => by
  obtain ⟨s, e, hw, hi, hc, hs⟩ := full_buffer 1 (by decide)
  obtain ⟨bs, s', hb, e', hr⟩ := (h 1 (by decide) _ s e).1 1 hi hc hs
  have := (one_client_stops_all 1 s s' 0 hw bs (fun a ha => by
    rcases hb a ha with h | h
    · cases a <;> simp_all [client, Idle]
    · cases a <;> simp_all [client, Idle]) e').1
  rw [this] at hr
  exact Nat.lt_irrefl _ hr

/-! ### If all clients read, and finish their messages, everything goes on -/

def recvs : List Task → List Nat
  | [] => []
  | .recv i :: l => i :: recvs l
  | .send _ _ _ :: l => recvs l

theorem recvs_append (a b : List Task) : recvs (a ++ b) = recvs a ++ recvs b := by
  induction a with
  | nil => rfl
  | cons t a ih => cases t <;> simp [recvs, ih]

theorem recvs_sends (l : List Nat) (k : Nat) : recvs (l.map fun i => .send i k false) = [] := by
  induction l with
  | nil => rfl
  | cons _ _ ih => exact ih

theorem recvs_broadcasts (bs conns : List Nat) : recvs (bs.flatMap fun k => conns.map fun i => .send i k false) = [] := by
  induction bs with
  | nil => rfl
  | cons b bs ih => rw [List.flatMap_cons, recvs_append, recvs_sends, ih]; rfl

theorem recvs_recv (l : List Nat) : recvs (l.map .recv) = l := by
  induction l with
  | nil => rfl
  | cons _ _ ih => rw [List.map_cons, recvs, ih]

/-- There is something to read where the worker is going to read. -/
structure Inv (s : State) : Prop where
  nodup : (recvs s.tasks).Nodup
  some : ∀ i ∈ recvs s.tasks, s.inbox i ≠ 0 ∨ s.begun i = true ∨ s.closed i = true

theorem inv_init : Inv {} := ⟨List.nodup_nil, by simp [recvs]⟩

theorem inv_step {cap : Nat} {s s' : State} (h : Inv s) {a : Act} (e : step cap s a = .some s') : Inv s' := by
  have keep : ∀ s' : State, s'.tasks = s.tasks → (∀ i, s.inbox i ≠ 0 ∨ s.begun i = true ∨ s.closed i = true → s'.inbox i ≠ 0 ∨ s'.begun i = true ∨ s'.closed i = true) → Inv s' :=
    fun s' h1 h2 => ⟨by rw [h1]; exact h.nodup, fun i hi => h2 i (h.some i (by rw [← h1]; exact hi))⟩
  cases a with
  | connect j =>
    simp only [step] at e
    split at e
    · simp only [Option.some.injEq] at e; subst e; exact keep _ rfl fun _ h => h
    · cases e
  | message j =>
    simp only [step] at e
    split at e
    · simp only [Option.some.injEq] at e; subst e
      refine keep _ rfl fun i hi => ?_
      simp only [upd]
      split
      · left; omega
      · exact hi
    · cases e
  | begin j =>
    simp only [step] at e
    split at e
    · simp only [Option.some.injEq] at e; subst e
      refine keep _ rfl fun i hi => ?_
      simp only [upd]
      split
      · right; left; rfl
      · exact hi
    · cases e
  | complete j =>
    simp only [step] at e
    split at e
    · simp only [Option.some.injEq] at e; subst e
      refine keep _ rfl fun i hi => ?_
      simp only [upd]
      split
      · left; omega
      · exact hi
    · cases e
  | read j n => simp only [step, Option.some.injEq] at e; subst e; exact keep _ rfl fun _ h => h
  | close j =>
    simp only [step, Option.some.injEq] at e; subst e
    refine keep _ rfl fun i hi => ?_
    simp only [upd]
    split
    · right; right; rfl
    · exact hi
  | round rs bs =>
    simp only [step] at e
    split at e
    · rename_i hg
      simp only [Option.some.injEq] at e; subst e
      have hr : recvs (rs.map Task.recv ++ bs.flatMap fun k => s.conns.map fun i => .send i k false) = rs := by
        rw [recvs_append, recvs_recv, recvs_broadcasts, List.append_nil]
      exact ⟨by simp only [hr]; exact hg.2.2.1, fun i hi => by simp only [hr] at hi; exact (hg.2.2.2 i hi).2⟩
    · cases e
  | work rep =>
    simp only [step] at e
    split at e
    · cases e
    · rename_i t rest ht
      have h1 := h.nodup
      have h2 := h.some
      rw [ht] at h1 h2
      cases t with
      | recv i =>
        simp only [recvs, List.nodup_cons] at h1
        simp only [recvs, List.mem_cons] at h2
        simp only [task] at e
        split at e
        · simp only [Option.some.injEq] at e; subst e
          have hr : recvs (replyTask i rep ++ rest) = recvs rest := by cases rep <;> rfl
          refine ⟨by simp only [hr]; exact h1.2, fun x hx => ?_⟩
          simp only [hr] at hx
          have hne : x ≠ i := by rintro rfl; exact h1.1 hx
          simp only [upd, hne, if_false]
          exact h2 x (Or.inr hx)
        · split at e
          · simp only [Option.some.injEq] at e; subst e
            exact ⟨h1.2, fun x hx => h2 x (Or.inr hx)⟩
          · cases e
      | send i k r =>
        simp only [task] at e
        split at e
        · simp only [Option.some.injEq] at e; subst e; exact ⟨h1, h2⟩
        · split at e
          · simp only [Option.some.injEq] at e; subst e; exact ⟨h1, h2⟩
          · split at e
            · cases e
            · simp only [Option.some.injEq] at e; subst e; exact ⟨h1, h2⟩
  | stop => simp only [step, Option.some.injEq] at e; subst e; exact keep _ rfl fun _ h => h
  | finish =>
    simp only [step] at e
    split at e
    · simp only [Option.some.injEq] at e; subst e; exact keep _ rfl fun _ h => h
    · cases e

theorem inv_run {cap : Nat} (as : List Act) : ∀ {s s' : State}, Inv s → run cap s as = some s' → Inv s' := by
  induction as with
  | nil => intro s s' h e; simp only [run, List.foldlM_nil, Option.pure_def, Option.some.injEq] at e; subst e; exact h
  | cons a as ih =>
    intro s s' h e
    simp only [run, List.foldlM_cons] at e
    cases h1 : step cap s a with
    | none => rw [h1] at e; cases e
    | some s1 => rw [h1] at e; exact ih (inv_step h h1) e

theorem run_append {cap : Nat} (as bs : List Act) {s s1 s2 : State} (h1 : run cap s as = some s1) (h2 : run cap s1 bs = some s2) : run cap s (as ++ bs) = some s2 := by
  simp only [run, List.foldlM_append] at *
  rw [h1]
  exact h2

/-- Only the worker, for whose calls endpoints give the reply `rep`, and clients that read. -/
def Fair (rep : Option Nat) (a : Act) : Prop := a = .work rep ∨ ∃ i n, a = .read i n

/-- What is left to do. -/
def weight (rep : Option Nat) : List Task → Nat
  | [] => 0
  | .recv _ :: l => (rep.getD 0 + 2) + weight rep l
  | .send _ k _ :: l => (k + 1) + weight rep l

/-- Replies to `j` that are being written. -/
def replies (j : Nat) : List Task → Nat
  | [] => 0
  | .send i _ true :: l => (if i = j then 1 else 0) + replies j l
  | _ :: l => replies j l

/-- What a run leaves as it is. -/
structure Kept (j : Nat) (s s' : State) : Prop where
  begun : s'.begun = s.begun
  closed : s'.closed = s.closed
  stopping : s'.stopping = s.stopping
  mem : s.closed j = false → j ∈ s.conns → j ∈ s'.conns
  less : s'.inbox j ≤ s.inbox j
  sum : s.closed j = false → s'.inbox j + replies j s'.tasks + s'.replied j = s.inbox j + replies j s.tasks + s.replied j

theorem Kept.trans {j : Nat} {s s1 s2 : State} (h1 : Kept j s s1) (h2 : Kept j s1 s2) : Kept j s s2 :=
  ⟨h2.begun.trans h1.begun, h2.closed.trans h1.closed, h2.stopping.trans h1.stopping, fun h hm => h2.mem (by rw [h1.closed]; exact h) (h1.mem h hm), Nat.le_trans h2.less h1.less,
    fun h => (h2.sum (by rw [h1.closed]; exact h)).trans (h1.sum h)⟩

/-- One task, or a part of it, done. -/
theorem one_task {cap : Nat} (hc : 0 < cap) (j : Nat) (rep : Option Nat) (hrep : rep.isSome) {s : State} (h : Inv s) (hb : ∀ i, s.begun i = false) (hne : s.tasks ≠ []) :
    ∃ bs s', (∀ a ∈ bs, Fair rep a) ∧ run cap s bs = some s' ∧ Kept j s s' ∧ weight rep s'.tasks < weight rep s.tasks := by
  obtain ⟨k0, rfl⟩ : ∃ k, rep = some k := Option.isSome_iff_exists.mp hrep
  cases ht : s.tasks with
  | nil => exact absurd ht hne
  | cons t rest =>
    cases t with
    | recv i =>
      have hs := h.some i (by rw [ht]; simp [recvs])
      have hbi := hb i
      by_cases hi : s.inbox i ≠ 0
      · refine ⟨[.work (some k0)], { s with inbox := upd s.inbox i (s.inbox i - 1), tasks := .send i k0 true :: rest }, by simp [Fair], by simp [run, step, ht, task, hi, replyTask], ⟨rfl, rfl, rfl, fun _ h => h, ?_, ?_⟩, ?_⟩
        · simp only [upd]; split
          · rename_i hj; rw [hj]; omega
          · exact Nat.le_refl _
        · intro _
          simp only [replies, ht, upd]
          by_cases hij : i = j
          · subst hij; simp; omega
          · rw [if_neg (Ne.symm hij), if_neg hij]; omega
        · simp [weight]
      · have hcl : s.closed i = true := by simpa [hi, hbi] using hs
        refine ⟨[.work (some k0)], { s with conns := s.conns.erase i, tasks := rest }, by simp [Fair], by simp at hi; simp [run, step, ht, task, hi, hcl], ⟨rfl, rfl, rfl, ?_, Nat.le_refl _, ?_⟩, by simp [weight]⟩
        · intro hj hm
          have : j ≠ i := by rintro rfl; rw [hcl] at hj; cases hj
          exact (List.mem_erase_of_ne this).mpr hm
        · intro _; simp [replies, ht]
    | send i k r =>
      by_cases hcl : s.closed i = true
      · refine ⟨[.work (some k0)], { s with tasks := rest }, by simp [Fair], by simp [run, step, ht, task, hcl], ⟨rfl, rfl, rfl, fun _ h => h, Nat.le_refl _, ?_⟩, by simp [weight]⟩
        intro hj
        have : i ≠ j := by rintro rfl; rw [hcl] at hj; cases hj
        cases r <;> simp [replies, ht, this]
      · -- the client empties its buffer first
        have hcl : s.closed i = false := by simpa using hcl
        by_cases hk : k ≤ cap
        · refine ⟨[.read i (s.out i), .work (some k0)], { s with out := upd (upd s.out i 0) i k, tasks := rest, replied := if r then upd s.replied i (s.replied i + 1) else s.replied },
            by simp [Fair], ?_, ⟨rfl, rfl, rfl, fun _ h => h, Nat.le_refl _, ?_⟩, by simp [weight]⟩
          · simp [run, step, ht, task, hcl, upd, List.foldlM_cons, Nat.min_eq_left hk]
          · intro _
            cases r with
            | false => simp [replies, ht]
            | true =>
              by_cases hij : i = j
              · subst hij; simp [replies, ht, upd]; omega
              · simp [replies, ht, upd, hij, Ne.symm hij]
        · refine ⟨[.read i (s.out i), .work (some k0)], { s with out := upd (upd s.out i 0) i cap, tasks := .send i (k - cap) r :: rest }, by simp [Fair], ?_, ⟨rfl, rfl, rfl, fun _ h => h, Nat.le_refl _, ?_⟩, ?_⟩
          · have h1 : min k cap = cap := by omega
            have h2 : ¬ cap = k := by omega
            have h3 : ¬ cap = 0 := by omega
            have h4 : ¬ k = 0 := by omega
            simp [run, step, ht, task, hcl, upd, List.foldlM_cons, h1, h2, h3, h4]
          · intro _; cases r <;> simp [replies, ht]
          · simp [weight]; omega

theorem all_tasks {cap : Nat} (hc : 0 < cap) (j : Nat) (rep : Option Nat) (hrep : rep.isSome) : ∀ (n : Nat) (s : State), weight rep s.tasks ≤ n → Inv s → (∀ i, s.begun i = false) →
    ∃ bs s', (∀ a ∈ bs, Fair rep a) ∧ run cap s bs = some s' ∧ Kept j s s' ∧ s'.tasks = [] := by
  intro n
  induction n with
  | zero =>
    intro s hw _ _
    refine ⟨[], s, by simp, rfl, ⟨rfl, rfl, rfl, fun _ h => h, Nat.le_refl _, fun _ => rfl⟩, ?_⟩
    cases ht : s.tasks with
    | nil => rfl
    | cons t l => rw [ht] at hw; cases t <;> simp [weight] at hw
  | succ n ih =>
    intro s hw hi hb
    by_cases hne : s.tasks = []
    · exact ⟨[], s, by simp, rfl, ⟨rfl, rfl, rfl, fun _ h => h, Nat.le_refl _, fun _ => rfl⟩, hne⟩
    · obtain ⟨b1, s1, f1, r1, k1, w1⟩ := one_task hc j rep hrep hi hb hne
      obtain ⟨b2, s2, f2, r2, k2, w2⟩ := ih s1 (by omega) (inv_run b1 hi r1) (by rw [k1.begun]; exact hb)
      refine ⟨b1 ++ b2, s2, ?_, run_append b1 b2 r1 r2, k1.trans k2, w2⟩
      intro a ha
      rcases List.mem_append.mp ha with h | h
      · exact f1 a h
      · exact f2 a h

/-- **C95, partial.** If the clients read what they are sent and no message is unfinished, then everything goes on, whatever happened before: every client that has sent a request can get an answer, if the
    endpoints reply, and the server can be destroyed; with no other step of a client than reading. Missing: clients that do not read, or leave a message unfinished. -/
theorem goes_on_partial (cap : Nat) (hc : 0 < cap) (as : List Act) (s : State) (e : run cap {} as = some s) (hb : ∀ i, s.begun i = false) (k : Nat) :
    (∀ j, s.inbox j ≠ 0 → s.closed j = false → j ∈ s.conns → s.stopping = false →
      ∃ bs s', (∀ a ∈ bs, Fair (some k) a ∨ a = .round [j] []) ∧ run cap s bs = some s' ∧ s.replied j < s'.replied j) ∧
    (∃ bs s', (∀ a ∈ bs, Fair (some k) a ∨ a = .stop ∨ a = .finish) ∧ run cap s bs = some s' ∧ s'.ended = true) := by
  have hi := inv_run as inv_init e
  refine ⟨fun j hj hcl hm hst => ?_, ?_⟩
  · obtain ⟨b1, s1, f1, r1, k1, w1⟩ := all_tasks hc j (some k) rfl _ s (Nat.le_refl _) hi hb
    have hs1 := k1.sum hcl
    rw [w1] at hs1
    simp only [replies] at hs1
    by_cases h1 : s1.inbox j < s.inbox j
    · exact ⟨b1, s1, fun a ha => Or.inl (f1 a ha), r1, by omega⟩
    · have hne : s1.inbox j ≠ 0 := by omega
      have hcl1 : s1.closed j = false := by rw [k1.closed]; exact hcl
      have e2 : step cap s1 (.round [j] []) = some { s1 with tasks := [.recv j] } := by
        simp [step, w1, k1.stopping, hst, k1.mem hcl hm, hne]
      have r2 : run cap s1 [.round [j] [], .work (some k)] = some { s1 with inbox := upd s1.inbox j (s1.inbox j - 1), tasks := [.send j k true] } := by
        simp only [run, List.foldlM_cons, List.foldlM_nil, e2]
        simp [step, task, hne, replyTask]
      have hi2 := inv_run _ (inv_run b1 hi r1) r2
      obtain ⟨b3, s3, f3, r3, k3, w3⟩ := all_tasks hc j (some k) rfl _ _ (Nat.le_refl _) hi2 (by simpa [k1.begun] using hb)
      refine ⟨b1 ++ ([.round [j] [], .work (some k)] ++ b3), s3, ?_, run_append _ _ r1 (run_append _ _ r2 r3), ?_⟩
      · intro a ha
        simp only [List.mem_append, List.mem_cons, List.not_mem_nil, or_false] at ha
        rcases ha with h | (h | h) | h
        · exact Or.inl (f1 a h)
        · exact Or.inr h
        · exact Or.inl (Or.inl h)
        · exact Or.inl (f3 a h)
      · have h3 := k3.sum hcl1
        rw [w3] at h3
        simp [replies, upd] at h3
        -- what was read in this iteration has been replied to
        have h4 : s3.inbox j ≤ s1.inbox j - 1 := by
          have := k3.less
          simpa [upd] using this
        have h5 := k1.less
        omega
  · obtain ⟨b1, s1, f1, r1, k1, w1⟩ := all_tasks hc 0 (some k) rfl _ s (Nat.le_refl _) hi hb
    refine ⟨b1 ++ [.stop, .finish], { s1 with stopping := true, ended := true }, ?_, run_append _ _ r1 (by simp [run, step, List.foldlM_cons, w1]), rfl⟩
    intro a ha
    simp only [List.mem_append, List.mem_cons, List.not_mem_nil, or_false] at ha
    rcases ha with h | h | h
    · exact Or.inl (f1 a h)
    · exact Or.inr (Or.inl h)
    · exact Or.inr (Or.inr h)

/-- Two clients, one of which has a full buffer and is being written to, while the other waits. -/
example : ∃ s, run 4 {} [.connect 0, .connect 1, .message 1, .round [] [9], .work none, .work none] = none ∧
    run 4 {} [.connect 0, .connect 1, .message 1, .round [] [9], .work none] = some s ∧ s.tasks = [.send 0 5 false, .send 1 9 false] ∧ s.out 0 = 4 ∧ s.inbox 1 = 1 ∧ (∀ i, s.begun i = false) :=
  ⟨_, rfl, rfl, rfl, rfl, rfl, fun _ => rfl⟩

/-- **C95, a message in two parts.** A message that has been begun counts when its rest has arrived, and then like one that came whole. Before that a client cannot begin another. -/
theorem two_parts (cap : Nat) (s s1 : State) (i : Nat) (h : step cap s (.message i) = some s1) :
    run cap s [.begin i, .complete i] = some s1 ∧ ∃ s2, step cap s (.begin i) = some s2 ∧ s2.inbox = s.inbox ∧ step cap s2 (.message i) = none ∧ step cap s2 (.begin i) = none := by
  simp only [step] at h
  split at h
  · rename_i hc
    injection h with h
    subst h
    have e : upd (upd s.begun i true) i false = s.begun := by
      funext k
      simp only [upd]
      split
      · rename_i e; rw [e, hc.2.1]
      · rfl
    refine ⟨?_, { s with begun := upd s.begun i true }, ?_, rfl, ?_, ?_⟩
    · have hu : upd s.begun i true i = true := by simp [upd]
      simp [run, step, hc, hu, e]
    · simp [step, hc]
    · simp [step, upd]
    · simp [step, upd]
  · cases h

end Scalopus.C95
