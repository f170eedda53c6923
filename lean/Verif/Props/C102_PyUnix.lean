import Verif.Spec.PyUnix

/-!
# C102: calls on a unix transport from Python return
-/

namespace Scalopus.C102

open PyUnix

/-- **C102** in full: adding an endpoint, making a request and destroying a unix transport from Python can always still return. -/
def CallsReturn : Prop := ∀ python client s, Reachable python client s → ∀ t, InCall (s.py t) → ¬ Hangs s t

theorem run_cons {s s' : State} {a : Act} {l : List Act} (h : run s (a :: l) = some s') : ∃ m, step s a = some m ∧ run m l = some s' := by
  simp only [run, Option.bind_eq_some_iff] at h
  exact h

theorem run_append {s m s' : State} {l k : List Act} (h : run s l = some m) (h' : run m k = some s') : run s (l ++ k) = some s' := by
  induction l generalizing s with
  | nil => simp only [run, Option.some.injEq] at h; exact h ▸ h'
  | cons a l ih =>
    obtain ⟨n, e1, e2⟩ := run_cons h
    simp only [List.cons_append, run, e1, Option.bind_some]
    exact ih e2

theorem run_keeps {P : State → Prop} (hp : ∀ s a s', P s → step s a = some s' → P s') : ∀ (l : List Act) (s s' : State), P s → run s l = some s' → P s' := by
  intro l
  induction l with
  | nil => intro s s' h e; simp only [run, Option.some.injEq] at e; exact e ▸ h
  | cons a l ih =>
    intro s s' h e
    obtain ⟨m, e1, e2⟩ := run_cons e
    exact ih m s' (hp s a m h e1) e2

/-- Who has which lock. -/
structure Inv (s : State) : Prop where
  gil : ∀ t, s.gil = some (.py t) ↔ HasGil (s.py t)
  gilW : s.gil = some .worker ↔ ∃ h, s.worker = .method h
  endpoints : ∀ t, s.endpoints = some (.py t) ↔ (s.py t = .naming ∨ s.py t = .paused)
  endpointsW : s.endpoints = some .worker ↔ (s.worker = .waiting true ∨ s.worker = .method true)
  requests : s.requests = none ∨ s.requests = some .worker
  requestsW : s.requests = some .worker ↔ (s.worker = .lockEndpoints ∨ s.worker = .waiting true ∨ s.worker = .method true)
  server : s.client = false → s.worker ≠ .lockRequests ∧ s.worker ≠ .lockEndpoints ∧ s.worker ≠ .waiting true ∧ s.worker ≠ .method true ∧ ∀ t, s.py t ≠ .requesting
  native : s.python = false → ∀ h, s.worker ≠ .waiting h ∧ s.worker ≠ .method h
  native' : s.python = false → ∀ t, s.py t ≠ .naming ∧ s.py t ≠ .paused
  ended : s.running = true → s.worker ≠ .ended ∧ s.worker ≠ .gone
  joining : ∀ t, s.py t = .joining → s.running = false ∧ s.worker ≠ .gone

theorem Inv.init (python client : Bool) : Inv { python := python, client := client } := by
  constructor <;> simp [HasGil]

theorem Inv.step {s s' : State} {a : Act} (h : Inv s) (e : step s a = some s') : Inv s' := by
  obtain ⟨h1, h2, h3, h4, h5, h6, h7, h8, h9, h10, h11⟩ := h
  cases a <;> simp only [PyUnix.step, workerStep, State.set] at e
  all_goals
    repeat' (first | (simp only [Option.some.injEq] at e; subst e; constructor <;> first | grind [HasGil] | skip) | (cases e; done) | split at e)

theorem keeps_kind {s s' : State} {a : Act} (e : step s a = some s') : s'.python = s.python ∧ s'.client = s.client := by
  cases a <;> simp only [PyUnix.step, workerStep, State.set] at e
  all_goals
    repeat' (first | (simp only [Option.some.injEq] at e; subst e; exact ⟨rfl, rfl⟩) | (cases e; done) | split at e)

theorem Inv.reach {python client : Bool} {s : State} (h : Reachable python client s) : Inv s ∧ s.python = python ∧ s.client = client := by
  obtain ⟨l, e⟩ := h
  exact run_keeps (P := fun s => Inv s ∧ s.python = python ∧ s.client = client)
    (fun _ _ _ h e => ⟨h.1.step e, (keeps_kind e).1.trans h.2.1, (keeps_kind e).2.trans h.2.2⟩) l _ s ⟨.init _ _, rfl, rfl⟩ e

theorem Inv.others {s : State} (h : Inv s) {t : Nat} (ht : HasGil (s.py t)) {u : Nat} (hu : u ≠ t) : ¬ HasGil (s.py u) := by
  intro hc
  have h1 := (h.gil u).mpr hc
  rw [(h.gil t).mpr ht] at h1
  simp only [Option.some.injEq, Tid.py.injEq] at h1
  exact hu h1.symm

/-! ### Where it fails -/

/-- A thread that is in a call keeps the interpreter lock, while what it waits for does not happen before another thread gets that lock. -/
structure Stuck (t : Nat) (p : Pc) (s : State) : Prop where
  inv : Inv s
  pc : s.py t = p
  why : p = .joining ∧ (∃ h, s.worker = .waiting h) ∨ p = .adding ∧ s.worker = .waiting true ∨ p = .requesting ∧ s.worker = .waiting true ∨ p = .adding ∧ ∃ u, s.py u = .paused

theorem Stuck.step {t : Nat} {p : Pc} {s s' : State} {a : Act} (h : Stuck t p s) (e : step s a = some s') : Stuck t p s' := by
  have hi' := h.inv.step e
  obtain ⟨hi, h2, h3⟩ := h
  have hg : HasGil (s.py t) := by rw [h2]; rcases h3 with ⟨rfl, _⟩ | ⟨rfl, _⟩ | ⟨rfl, _⟩ | ⟨rfl, _⟩ <;> simp [HasGil]
  have hgil := (hi.gil t).mpr hg
  have ho : ∀ u, u ≠ t → s.py u = .idle ∨ s.py u = .paused := fun u hu => by
    have := hi.others hg hu
    unfold HasGil at this
    cases hp : s.py u <;> simp [hp] at this ⊢
  have hep := hi.endpoints
  have hepW := hi.endpointsW
  have hrW := hi.requestsW
  refine ⟨hi', ?_, ?_⟩
  · clear hi'
    cases a <;> simp only [PyUnix.step, workerStep, State.set] at e
    all_goals
      repeat' (first | (simp only [Option.some.injEq] at e; subst e; first | grind | skip) | (cases e; done) | split at e)
  · clear hi'
    cases a <;> simp only [PyUnix.step, workerStep, State.set] at e
    all_goals
      repeat' (first | (simp only [Option.some.injEq] at e; subst e; first | grind | skip) | (cases e; done) | split at e)

theorem Stuck.hangs {t : Nat} {p : Pc} {s : State} (h : Stuck t p s) : Hangs s t ∧ InterpreterDead s := by
  have key : ∀ l s', run s l = some s' → Stuck t p s' := fun l s' e => run_keeps (P := Stuck t p) (fun _ _ _ h e => h.step e) l s s' h e
  have hp : p = .joining ∨ p = .adding ∨ p = .requesting := by rcases h.why with ⟨rfl, _⟩ | ⟨rfl, _⟩ | ⟨rfl, _⟩ | ⟨rfl, _⟩ <;> simp
  refine ⟨fun l s' e => ?_, fun l s' e => ?_⟩
  · rw [(key l s' e).pc]
    rcases hp with rfl | rfl | rfl <;> simp [InCall]
  · have hs := key l s' e
    have hg : HasGil (s'.py t) := by rw [hs.pc]; rcases hp with rfl | rfl | rfl <;> simp [HasGil]
    refine ⟨fun u => ?_, fun x hx => ?_⟩
    · by_cases hu : u = t
      · rw [hu, hs.pc]; rcases hp with rfl | rfl | rfl <;> simp
      · have := hs.inv.others hg hu
        constructor <;> (intro hc; rw [hc] at this; simp [HasGil] at this)
    · have h1 := hs.inv.gilW.mpr ⟨x, hx⟩
      rw [(hs.inv.gil t).mpr hg] at h1
      cases h1

/-- **C102 fails:** whenever a Python thread destroys a transport while the worker waits to call a method of an endpoint, the destructor hangs, and with it the interpreter. -/
theorem destroy_hangs (python client : Bool) (s s' : State) (h : Reachable python client s) (t : Nat) (hw : ∃ x, s.worker = .waiting x) (e : step s (.destroy t) = some s') : Hangs s' t ∧ InterpreterDead s' := by
  refine Stuck.hangs (p := .joining) ⟨(Inv.reach h).1.step e, ?_, Or.inl ⟨rfl, ?_⟩⟩
  all_goals
    simp only [step, State.set] at e
    split at e
    · simp only [Option.some.injEq] at e; subst e
      first | exact hw | simp
    · cases e

/-- **C102 fails:** whenever a Python thread adds an endpoint to a client, or makes a request, while the worker waits to call `unsolicited` of an endpoint, the call hangs, and with it the interpreter. -/
theorem client_hangs (python client : Bool) (s s' : State) (h : Reachable python client s) (t : Nat) (hw : s.worker = .waiting true) (e : step s (.add t) = some s' ∨ step s (.request t) = some s') :
    Hangs s' t ∧ InterpreterDead s' := by
  rcases e with e | e
  · refine Stuck.hangs (p := .adding) ⟨(Inv.reach h).1.step e, ?_, Or.inr (Or.inl ⟨rfl, ?_⟩)⟩
    all_goals
      simp only [step, State.set] at e
      split at e
      · simp only [Option.some.injEq] at e; subst e
        first | exact hw | simp
      · cases e
  · refine Stuck.hangs (p := .requesting) ⟨(Inv.reach h).1.step e, ?_, Or.inr (Or.inr (Or.inl ⟨rfl, ?_⟩))⟩
    all_goals
      simp only [step, State.set] at e
      split at e
      · simp only [Option.some.injEq] at e; subst e
        first | exact hw | simp
      · cases e

/-- **C102 fails:** whenever two Python threads add an endpoint to the same transport, and the interpreter switches threads in the first one's `getName`, both calls hang, and with them the interpreter. -/
theorem two_adds_hang (python client : Bool) (s s' : State) (h : Reachable python client s) (t u : Nat) (hu : s.py u = .paused) (e : step s (.add t) = some s') :
    Hangs s' t ∧ Hangs s' u ∧ InterpreterDead s' := by
  have hs : Stuck t .adding s' := by
    refine ⟨(Inv.reach h).1.step e, ?_, Or.inr (Or.inr (Or.inr ⟨rfl, u, ?_⟩))⟩
    all_goals
      simp only [step, State.set] at e
      split at e
      · simp only [Option.some.injEq] at e; subst e
        grind
      · cases e
  have hu' : s'.py u = .paused := by
    simp only [step, State.set] at e
    split at e
    · simp only [Option.some.injEq] at e; subst e
      grind
    · cases e
  refine ⟨hs.hangs.1, fun l s'' e' => ?_, hs.hangs.2⟩
  have := run_keeps (P := fun s => Stuck t .adding s ∧ s.py u = .paused) ?_ l s' s'' ⟨hs, hu'⟩ e'
  · rw [this.2]; simp [InCall]
  · rintro s1 a s2 ⟨h1, h2⟩ e1
    refine ⟨h1.step e1, ?_⟩
    have hg := (h1.inv.gil t).mpr (by rw [h1.pc]; simp [HasGil])
    have hpc := h1.pc
    cases a <;> simp only [PyUnix.step, workerStep, State.set] at e1
    all_goals
      repeat' (first | (simp only [Option.some.injEq] at e1; subst e1; first | grind | skip) | (cases e1; done) | split at e1)

/-- The three cases occur: a message arrives while a Python thread runs; a thread is interrupted in `getName`. -/
example : ∃ s s', Reachable true false s ∧ s.worker = .waiting false ∧ step s (.destroy 0) = some s' := ⟨_, _, ⟨[.acquire 0, .worker .message false], rfl⟩, rfl, rfl⟩
example : ∃ s s' s'', Reachable true true s ∧ s.worker = .waiting true ∧ step s (.add 0) = some s' ∧ step s (.request 0) = some s'' :=
  ⟨_, _, _, ⟨[.acquire 0, .worker .message false, .worker .nothing false, .worker .nothing false], rfl⟩, rfl, rfl, rfl⟩
example : ∃ s s', Reachable true false s ∧ s.py 0 = .paused ∧ step s (.add 1) = some s' := ⟨_, _, ⟨[.acquire 0, .add 0, .locked 0, .pause 0, .acquire 1], rfl⟩, rfl, rfl⟩

theorem not_CallsReturn : ¬ CallsReturn := by
  intro h
  have hr : Reachable true false _ := ⟨[.acquire 0, .worker .message false], rfl⟩
  have hh := (destroy_hangs true false _ _ hr 0 ⟨false, rfl⟩ rfl).1
  exact h true false _ ⟨[.acquire 0, .worker .message false, .destroy 0], rfl⟩ 0 (by simp [InCall, State.set]) hh

/-! ### Where it holds -/

/-- What the worker still has to do before it ends, once it has been told to. -/
def toEnd (s : State) : Nat :=
  match s.worker with
  | .test => 1
  | .cleanup => 2
  | .method _ => 3
  | .lockEndpoints => 3
  | .lockRequests => 4
  | _ => 0

theorem joining_run {t : Nat} : ∀ (n : Nat) (s : State), toEnd s = n → Inv s → s.python = false → s.py t = .joining → ∃ l s', run s l = some s' ∧ s'.py t = .running := by
  intro n
  induction n using Nat.strongRecOn with
  | _ n ih =>
    intro s hn hi hp hj
    have hr := (hi.joining t hj)
    have go : ∀ (a : Act) (m : State), step s a = some m → m.py t = .joining → toEnd m < n → ∃ l s', run s l = some s' ∧ s'.py t = .running := by
      intro a m e h1 h2
      obtain ⟨l, s', e', h3⟩ := ih _ h2 m rfl (hi.step e) ((keeps_kind e).1.trans hp) h1
      exact ⟨a :: l, s', by simp [run, e, e'], h3⟩
    have hreq : s.worker ≠ .lockEndpoints → s.requests = none := by
      intro hne
      rcases hi.requests with h | h
      · exact h
      · rcases hi.requestsW.mp h with h | h | h
        · exact absurd h hne
        · exact absurd h (hi.native hp true).1
        · exact absurd h (hi.native hp true).2
    have hend : s.endpoints = none := by
      cases he : s.endpoints with
      | none => rfl
      | some x =>
        cases x with
        | py u => rcases (hi.endpoints u).mp he with h | h
                  · exact absurd h (hi.native' hp u).1
                  · exact absurd h (hi.native' hp u).2
        | worker => rcases hi.endpointsW.mp he with h | h
                    · exact absurd h (hi.native hp true).1
                    · exact absurd h (hi.native hp true).2
    cases hw : s.worker with
    | test => exact go (.worker .nothing false) { s with worker := .ended } (by simp [step, workerStep, hw, hr.1]) hj (by rw [← hn]; simp [toEnd, hw])
    | lockRequests =>
      exact go (.worker .nothing false) { s with worker := .lockEndpoints, requests := some .worker } (by simp [step, workerStep, hw, hreq (by simp [hw])]) hj (by rw [← hn]; simp [toEnd, hw])
    | lockEndpoints =>
      exact go (.worker .nothing false) { s with worker := .cleanup, requests := none, served := s.served + 1 } (by simp [step, workerStep, hw, hend, hp]) hj (by rw [← hn]; simp [toEnd, hw])
    | waiting h => exact absurd hw (hi.native hp h).1
    | method h => exact absurd hw (hi.native hp h).2
    | cleanup => exact go (.worker .nothing false) { s with worker := .test } (by simp [step, workerStep, hw, hreq (by simp [hw])]) hj (by rw [← hn]; simp [toEnd, hw])
    | ended => exact ⟨[.join t], { s.set t .running with worker := .gone }, by simp [run, step, hj, hw], by simp [State.set]⟩
    | gone => exact absurd hw hr.2

/-- **C102, partial.** When no endpoint is written in Python, every call can return, whatever happened before. Missing: endpoints written in Python. -/
theorem calls_return_partial (client : Bool) (s : State) (h : Reachable false client s) (t : Nat) (ht : InCall (s.py t)) : ¬ Hangs s t := by
  intro hh
  obtain ⟨hi, hp, _⟩ := Inv.reach h
  have done : ∀ l s', run s l = some s' → s'.py t ≠ .running := fun l s' e h' => (hh l s' e).2 h'
  have hend : s.endpoints = none := by
    cases he : s.endpoints with
    | none => rfl
    | some x =>
      cases x with
      | py u => rcases (hi.endpoints u).mp he with h | h
                · exact absurd h (hi.native' hp u).1
                · exact absurd h (hi.native' hp u).2
      | worker => rcases hi.endpointsW.mp he with h | h
                  · exact absurd h (hi.native hp true).1
                  · exact absurd h (hi.native hp true).2
  cases hq : s.py t with
  | idle => exact ht.1 hq
  | running => exact ht.2 hq
  | adding => exact done [.locked t] { s.set t .running with added := s.added + 1 } (by simp [run, step, hq, hend, hp]) (by simp [State.set])
  | naming => exact (hi.native' hp t).1 hq
  | paused => exact (hi.native' hp t).2 hq
  | requesting =>
    rcases hi.requests with h' | h'
    · exact done [.store t] { s.set t .running with stored := s.stored + 1 } (by simp [run, step, hq, h']) (by simp [State.set])
    · rcases hi.requestsW.mp h' with hw | hw | hw
      · have e1 : step s (.worker .nothing false) = some { s with worker := .cleanup, requests := none, served := s.served + 1 } := by simp [step, workerStep, hw, hend, hp]
        exact done [.worker .nothing false, .store t] ({ ({ s with worker := .cleanup, requests := none, served := s.served + 1 } : State).set t .running with stored := s.stored + 1 })
          (by simp only [run, e1, Option.bind_some]; simp [step, hq]) (by simp [State.set])
      · exact (hi.native hp true).1 hw
      · exact (hi.native hp true).2 hw
  | joining =>
    obtain ⟨l, s', e, h3⟩ := joining_run _ s rfl hi hp hq
    exact done l s' e h3

/-- **C102, partial.** On a server that is not being destroyed, `addEndpoint` can return, also for endpoints written in Python and whatever the worker does, if no other Python thread is in a call on the
    transport. Missing: adding from several threads, see `two_adds_hang`. -/
theorem server_add_returns_partial (python : Bool) (s : State) (h : Reachable python false s) (t : Nat) (hc : s.py t = .adding ∨ s.py t = .naming ∨ s.py t = .paused) (ho : ∀ u, u ≠ t → ¬ InCall (s.py u)) : ¬ Hangs s t := by
  intro hh
  obtain ⟨hi, hp, hcl⟩ := Inv.reach h
  have done : ∀ l s', run s l = some s' → s'.py t ≠ .running := fun l s' e h' => (hh l s' e).2 h'
  have fin : ∀ (l : List Act) (m : State), run s l = some m → m.py t = .naming → False := fun l m e hm =>
    done (l ++ [.named t]) { m.set t .running with endpoints := none, added := m.added + 1 } (run_append e (by simp [run, step, hm])) (by simp [State.set])
  rcases hc with hq | hq | hq
  · have hend : s.endpoints = none := by
      cases he : s.endpoints with
      | none => rfl
      | some x =>
        cases x with
        | py u =>
          have hu := (hi.endpoints u).mp he
          by_cases hut : u = t
          · subst hut; rw [hq] at hu; simp at hu
          · exact absurd (by rcases hu with hu | hu <;> (rw [hu]; simp [InCall])) (ho u hut)
        | worker =>
          rcases hi.endpointsW.mp he with h | h
          · exact absurd h (hi.server hcl).2.2.1
          · exact absurd h (hi.server hcl).2.2.2.1
    cases hpy : s.python with
    | false => exact done [.locked t] { s.set t .running with added := s.added + 1 } (by simp [run, step, hq, hend, hpy]) (by simp [State.set])
    | true => exact fin [.locked t] { s.set t .naming with endpoints := some (.py t) } (by simp [run, step, hq, hend, hpy]) (by simp [State.set])
  · exact fin [] s rfl hq
  · -- the interpreter lock can become free
    have free : ∃ l m, run s l = some m ∧ m.py t = .paused ∧ m.gil = none := by
      cases hg : s.gil with
      | none => exact ⟨[], s, rfl, hq, hg⟩
      | some x =>
        cases x with
        | py u =>
          have hu := (hi.gil u).mp hg
          have hut : u ≠ t := fun e => by subst e; rw [hq] at hu; simp [HasGil] at hu
          have hr : s.py u = .running := by
            refine Classical.byContradiction fun hne => ho u hut ⟨hu.1, hne⟩
          exact ⟨[.release u], { s.set u .idle with gil := none }, by simp [run, step, hr], by simp [State.set, Ne.symm hut, hq], rfl⟩
        | worker =>
          obtain ⟨x, hx⟩ := hi.gilW.mp hg
          exact ⟨[.worker .nothing true], { s with worker := .waiting x, gil := none }, by simp [run, step, workerStep, hx], hq, rfl⟩
    obtain ⟨l, m, e, h1, h2⟩ := free
    exact fin (l ++ [.resume t]) { m.set t .naming with gil := some (.py t) } (run_append e (by simp [run, step, h1, h2])) (by simp [State.set])

/-- A thread is interrupted in `getName` while the worker calls a method; the call returns. -/
example : ∃ s, Reachable true false s ∧ s.py 0 = .paused ∧ s.worker = .method false ∧ ∃ s', run s [.worker .nothing false, .resume 0, .named 0] = some s' ∧ s'.py 0 = .running ∧ s'.added = 1 ∧ s'.served = 1 :=
  ⟨_, ⟨[.acquire 0, .worker .message false, .add 0, .locked 0, .pause 0, .worker .nothing false], rfl⟩, rfl, rfl, _, rfl, rfl, rfl, rfl⟩

/-! ### Exactly when it fails -/

/-- A call that waits for something that will not happen: a mutex that is held by a thread which needs the interpreter lock, or the end of a worker which needs it. -/
def Blocked (s : State) (t : Nat) : Prop :=
  s.py t = .adding ∧ s.endpoints ≠ none ∨ s.py t = .requesting ∧ s.requests ≠ none ∨
  s.py t = .joining ∧ (s.worker = .lockRequests ∨ s.worker = .lockEndpoints ∨ ∃ h, s.worker = .waiting h)

theorem Blocked.gil {s : State} {t : Nat} (h : Blocked s t) : HasGil (s.py t) := by
  rcases h with h | h | h <;> (rw [h.1]; simp [HasGil])

theorem Blocked.step {t : Nat} {s s' : State} {a : Act} (hi : Inv s) (hp : s.python = true) (h : Blocked s t) (e : step s a = some s') : Blocked s' t ∧ ∀ u, s'.py u = s.py u := by
  have hg := h.gil
  have hgil := (hi.gil t).mpr hg
  have ho : ∀ u, u ≠ t → s.py u = .idle ∨ s.py u = .paused := fun u hu => by
    have := hi.others hg hu
    unfold HasGil at this
    cases hp : s.py u <;> simp [hp] at this ⊢
  have hep := hi.endpoints
  have hepW := hi.endpointsW
  have hrW := hi.requestsW
  have hgW := hi.gilW
  unfold Blocked at h ⊢
  cases a <;> simp only [PyUnix.step, workerStep, State.set] at e
  all_goals
    repeat' (first | (simp only [Option.some.injEq] at e; subst e; first | grind | skip) | (cases e; done) | split at e)

/-- Nothing happens in Python any more. -/
theorem Blocked.run {t : Nat} {s s' : State} {l : List Act} (hi : Inv s) (hp : s.python = true) (h : Blocked s t) (e : run s l = some s') : ∀ u, s'.py u = s.py u :=
  (run_keeps (P := fun m => Inv m ∧ m.python = true ∧ Blocked m t ∧ ∀ u, m.py u = s.py u)
    (fun _ _ _ h e => ⟨h.1.step e, (keeps_kind e).1.trans h.2.1, (h.2.2.1.step h.1 h.2.1 e).1, fun u => ((h.2.2.1.step h.1 h.2.1 e).2 u).trans (h.2.2.2 u)⟩) l s s' ⟨hi, hp, h, fun _ => rfl⟩ e).2.2.2

/-- A call that has the interpreter lock and is not blocked returns, if the thread is left to itself and to the worker. -/
theorem returns_of_not_blocked {s : State} (hi : Inv s) (hp : s.python = true) {v : Nat} (hg : HasGil (s.py v)) (hb : ¬ Blocked s v) :
    ∃ l s', run s l = some s' ∧ s'.py v = .running ∧ ∀ u, u ≠ v → s'.py u = s.py u := by
  have hgil := (hi.gil v).mpr hg
  cases hq : s.py v with
  | idle => exact absurd hq hg.1
  | paused => exact absurd hq hg.2
  | running => exact ⟨[], s, rfl, hq, fun _ _ => rfl⟩
  | adding =>
    have he : s.endpoints = none := Classical.byContradiction fun h => hb (.inl ⟨hq, h⟩)
    exact ⟨[.locked v, .named v], _, by simp [PyUnix.run, PyUnix.step, hq, he, hp, State.set]; rfl, by simp, fun u hu => by simp [hu]⟩
  | naming => exact ⟨[.named v], _, by simp [PyUnix.run, PyUnix.step, hq, State.set]; rfl, by simp, fun u hu => by simp [hu]⟩
  | requesting =>
    have he : s.requests = none := Classical.byContradiction fun h => hb (.inr (.inl ⟨hq, h⟩))
    exact ⟨[.store v], _, by simp [PyUnix.run, PyUnix.step, hq, he, State.set]; rfl, by simp, fun u hu => by simp [hu]⟩
  | joining =>
    have hj := hi.joining v hq
    cases hw : s.worker with
    | test => exact ⟨[.worker .nothing false, .join v], _, by simp [PyUnix.run, PyUnix.step, workerStep, hw, hj.1, hq, State.set]; rfl, by simp, fun u hu => by simp [hu]⟩
    | cleanup =>
      have hr : s.requests = none := by
        rcases hi.requests with h | h
        · exact h
        · have := hi.requestsW.mp h
          rw [hw] at this
          simp at this
      exact ⟨[.worker .nothing false, .worker .nothing false, .join v], _, by simp [PyUnix.run, PyUnix.step, workerStep, hw, hj.1, hq, hr, State.set]; rfl, by simp, fun u hu => by simp [hu]⟩
    | ended => exact ⟨[.join v], _, by simp [PyUnix.run, PyUnix.step, hw, hq, State.set]; rfl, by simp, fun u hu => by simp [hu]⟩
    | gone => exact absurd hw hj.2
    | method x =>
      have := hi.gilW.mpr ⟨x, hw⟩
      rw [hgil] at this
      cases this
    | lockRequests => exact absurd (.inr (.inr ⟨hq, .inl hw⟩)) hb
    | lockEndpoints => exact absurd (.inr (.inr ⟨hq, .inr (.inl hw)⟩)) hb
    | waiting x => exact absurd (.inr (.inr ⟨hq, .inr (.inr ⟨x, hw⟩)⟩)) hb

/-- **C102, exactly.** A call never returns if and only if endpoints are written in Python and it is blocked, or it was interrupted in `getName` while another call is blocked. -/
theorem hangs_iff (python client : Bool) (s : State) (h : Reachable python client s) (t : Nat) (ht : InCall (s.py t)) :
    Hangs s t ↔ python = true ∧ (Blocked s t ∨ s.py t = .paused ∧ ∃ v, Blocked s v) := by
  cases python with
  | false => exact ⟨fun hh => absurd hh (calls_return_partial client s h t ht), fun hh => by cases hh.1⟩
  | true =>
    obtain ⟨hi, hp, _⟩ := Inv.reach h
    simp only [true_and]
    constructor
    · intro hh
      refine Classical.byContradiction fun hn => ?_
      simp only [not_or, not_and, not_exists] at hn
      obtain ⟨hn1, hn2⟩ := hn
      by_cases hq : s.py t = .paused
      · have key : ∀ (l : List Act) (m : State), run s l = some m → m.py t = .paused → m.gil = none → False := by
          intro l m e h1 h2
          refine (hh (l ++ [.resume t, .named t]) _ (run_append e (by simp [PyUnix.run, PyUnix.step, h1, h2, State.set]; rfl))).2 ?_
          simp
        cases hgil : s.gil with
        | none => exact key [] s rfl hq hgil
        | some x =>
          cases x with
          | worker =>
            obtain ⟨x, hx⟩ := hi.gilW.mp hgil
            exact key [.worker .nothing true] { s with worker := .waiting x, gil := none } (by simp [PyUnix.run, PyUnix.step, workerStep, hx]) hq rfl
          | py v =>
            have hgv := (hi.gil v).mp hgil
            have hvt : t ≠ v := fun e => by subst e; rw [hq] at hgv; simp [HasGil] at hgv
            obtain ⟨l, m, e, h1, h2⟩ := returns_of_not_blocked hi hp hgv (hn2 hq v)
            exact key (l ++ [.release v]) { m.set v .idle with gil := none } (run_append e (by simp [PyUnix.run, PyUnix.step, h1])) (by simp [State.set, hvt, h2 t hvt, hq]) rfl
      · obtain ⟨l, m, e, h1, _⟩ := returns_of_not_blocked hi hp (v := t) ⟨ht.1, hq⟩ hn1
        exact (hh l m e).2 h1
    · intro hh l s' e
      rcases hh with hh | ⟨-, v, hh⟩
      · rw [hh.run hi hp e t]; exact ht
      · rw [hh.run hi hp e t]; exact ht

/-- Both cases occur: a thread is interrupted in `getName`, and another adds an endpoint. -/
example : ∃ s, Reachable true false s ∧ Blocked s 1 ∧ s.py 0 = .paused :=
  ⟨_, ⟨[.acquire 0, .add 0, .locked 0, .pause 0, .acquire 1, .add 1], rfl⟩, .inl ⟨rfl, by decide⟩, rfl⟩

/-- An endpoint written in C++ is served without Python's lock: by a server in one step, by a client as soon as the two mutexes are free. -/
theorem native_served (client : Bool) (s : State) (h : Reachable false client s) (switch : Bool) :
    (client = false → s.running = true → s.worker = .test → ∃ s', step s (.worker .message switch) = some s' ∧ s'.served = s.served + 1 ∧ s'.gil = s.gil ∧ s'.requests = s.requests ∧ s'.endpoints = s.endpoints ∧
      s'.worker = .cleanup) ∧
    (∀ ev, s.worker = .lockEndpoints → s.endpoints = none → ∃ s', step s (.worker ev switch) = some s' ∧ s'.served = s.served + 1 ∧ s'.gil = s.gil ∧ s'.requests = none ∧ s'.endpoints = none ∧
      s'.worker = .cleanup) := by
  obtain ⟨-, hp, hcl⟩ := Inv.reach h
  refine ⟨fun hc hr hw => ⟨{ s with worker := .cleanup, served := s.served + 1 }, ?_, rfl, rfl, rfl, rfl, rfl⟩, fun ev hw he => ⟨{ s with worker := .cleanup, requests := none, served := s.served + 1 }, ?_, rfl, rfl, rfl, he, rfl⟩⟩
  · simp [step, workerStep, hw, hr, hcl, hc, hp]
  · simp [step, workerStep, hw, he, hp]

/-- A method of an endpoint that returns to the transport gives every lock back and counts as served, whichever way it was called. -/
theorem method_returns (python client : Bool) (s : State) (h : Reachable python client s) (x : Bool) (hw : s.worker = .method x) (ev : Event) :
    ∃ s', step s (.worker ev false) = some s' ∧ s'.served = s.served + 1 ∧ s'.gil = none ∧ s'.requests = none ∧ s'.endpoints ≠ some .worker ∧ s'.py = s.py ∧ s'.worker = .cleanup := by
  obtain ⟨hi, -, -⟩ := Inv.reach h
  cases x with
  | true => exact ⟨{ s with worker := .cleanup, gil := none, endpoints := none, requests := none, served := s.served + 1 }, by simp [step, workerStep, hw], rfl, rfl, rfl, by simp, rfl, rfl⟩
  | false =>
    refine ⟨{ s with worker := .cleanup, gil := none, served := s.served + 1 }, by simp [step, workerStep, hw], rfl, rfl, ?_, ?_, rfl, rfl⟩
    · rcases hi.requests with h | h
      · exact h
      · have := hi.requestsW.1 h; simp [hw] at this
    · intro h
      have := hi.endpointsW.1 h; simp [hw] at this

/-- A client gets a message that no request waits for: the method runs with every lock of the transport held. -/
example : ∃ s, Reachable true true s ∧ s.worker = .method true ∧ s.requests = some .worker ∧ s.endpoints = some .worker :=
  ⟨_, ⟨[.worker .message false, .worker .nothing false, .worker .nothing false, .worker .nothing false], rfl⟩, rfl, rfl, rfl⟩

end Scalopus.C102
