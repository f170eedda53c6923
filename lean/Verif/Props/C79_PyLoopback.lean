import Verif.Spec.PyLoopback

/-!
# C79: calls on a loopback transport from Python return
-/

namespace Scalopus.C79

open PyLoopback

/-- **C79** in full: a request that a Python thread makes on a loopback transport, and the destruction of one, can always still return. -/
def CallsReturn : Prop := ∀ python s, Reachable python s → ∀ t, InCall (s.py t) → ¬ Hangs s t

theorem run_cons {s s' : State} {a : Act} {l : List Act} (h : run s (a :: l) = some s') : ∃ m, step s a = some m ∧ run m l = some s' := by
  simp only [run, Option.bind_eq_some_iff] at h
  exact h

theorem run_append {s m s' : State} {l k : List Act} (h : run s l = some m) (h' : run m k = some s') : run s (l ++ k) = some s' := by
  induction l generalizing s with
  | nil => simp only [run, Option.some.injEq] at h; exact h ▸ h'
  | cons a l ih =>
    obtain ⟨n, e1, e2⟩ := run_cons h
    simp only [List.cons_append, run, e1, Option.bind_some]
    exact ih e2

theorem run_keeps {P : State → Prop} (hp : ∀ s a s', P s → step s a = some s' → P s') : ∀ (l : List Act) (s s' : State), P s → run s l = some s' → P s' := by
  intro l
  induction l with
  | nil => intro s s' h e; simp only [run, Option.some.injEq] at e; exact e ▸ h
  | cons a l ih =>
    intro s s' h e
    obtain ⟨m, e1, e2⟩ := run_cons e
    exact ih m s' (hp s a m h e1) e2

/-- A Python thread is in a call with the interpreter lock, for which the worker waits with `request_lock_` locked. -/
structure Stuck (t : Nat) (p : Pc) (s : State) : Prop where
  gil : s.gil = some (.py t)
  pc : s.py t = p
  waiting : ∃ n, s.worker = .waiting n
  lock : s.lock = some .worker
  others : ∀ u, u ≠ t → s.py u = .idle

theorem Stuck.step {t : Nat} {p : Pc} (hp : InCall p) {s s' : State} {a : Act} (h : Stuck t p s) (e : step s a = some s') : Stuck t p s' := by
  obtain ⟨h1, h2, ⟨n, h3⟩, h4, h5⟩ := h
  have hp' : p ≠ .idle ∧ p ≠ .running := by rcases hp with rfl | rfl <;> simp
  cases a <;> simp only [PyLoopback.step, workerStep, State.set] at e <;> grind

theorem Stuck.hangs {t : Nat} {p : Pc} (hp : InCall p) {s : State} (h : Stuck t p s) : Hangs s t ∧ InterpreterDead s := by
  constructor
  · intro l s' e
    rw [(run_keeps (P := Stuck t p) (fun _ _ _ h e => h.step hp e) l s s' h e).pc]
    exact hp
  · intro l s' e u
    have hs := run_keeps (P := Stuck t p) (fun _ _ _ h e => h.step hp e) l s s' h e
    by_cases hu : u = t
    · rw [hu, hs.pc]; rcases hp with rfl | rfl <;> simp
    · rw [hs.others u hu]; simp

/-- A request has been stored and the worker has come to it, while the thread that made it runs on. -/
def oneRequest : List Act := [.acquire 0, .request 0, .store 0, .worker false, .worker false, .worker false]

/-- **C79 fails:** when an endpoint is written in Python, a second request that follows the first can hang, and with it the whole interpreter. -/
theorem second_request_hangs : ∃ s, run { python := true } (oneRequest ++ [.request 0]) = some s ∧ Hangs s 0 ∧ InterpreterDead s := by
  refine ⟨_, rfl, Stuck.hangs (p := .requesting) (Or.inl rfl) ⟨rfl, rfl, ⟨1, rfl⟩, rfl, ?_⟩⟩
  intro u hu
  simp [State.set, hu]

/-- **C79 fails:** so can the destruction of the transport after a request. -/
theorem destroy_hangs : ∃ s, run { python := true } (oneRequest ++ [.destroy 0]) = some s ∧ Hangs s 0 ∧ InterpreterDead s := by
  refine ⟨_, rfl, Stuck.hangs (p := .joining) (Or.inr rfl) ⟨rfl, rfl, ⟨1, rfl⟩, rfl, ?_⟩⟩
  intro u hu
  simp [State.set, hu]

/-- Where the locks are, for endpoints of both kinds. -/
structure Held (s : State) : Prop where
  gil : ∀ t, s.gil = some (.py t) ↔ s.py t ≠ .idle
  method : s.gil = some .worker ↔ ∃ n, s.worker = .method n
  lock : s.lock = none ∨ s.lock = some .worker
  lock' : s.lock = some .worker ↔ ∃ n, s.worker = .serving n ∨ s.worker = .waiting n ∨ s.worker = .method n
  ended : s.running = true → s.worker ≠ .ended ∧ s.worker ≠ .gone

theorem Held.init (b : Bool) : Held { python := b } := by
  constructor <;> simp

theorem Held.step {s s' : State} {a : Act} (h : Held s) (e : step s a = some s') : Held s' := by
  obtain ⟨h1, h2, h3, h4, h5⟩ := h
  cases a <;> simp only [PyLoopback.step, workerStep, State.set] at e
  all_goals
    repeat' (first | (simp only [Option.some.injEq] at e; subst e; constructor <;> first | grind | skip) | (cases e; done) | split at e)

theorem Held.reach {b : Bool} {s : State} (h : Reachable b s) : Held s := by
  obtain ⟨l, e⟩ := h
  exact run_keeps (P := Held) (fun _ _ _ h e => h.step e) l _ s (.init b) e

theorem Held.others {s : State} (h : Held s) {t : Nat} (ht : s.py t ≠ .idle) {u : Nat} (hu : u ≠ t) : s.py u = .idle := by
  refine Classical.byContradiction fun hc => ?_
  have h1 := (h.gil u).mpr hc
  rw [(h.gil t).mpr ht] at h1
  simp only [Option.some.injEq, Tid.py.injEq] at h1
  exact hu h1.symm

/-- **C79 fails, whenever the worker waits.** In every state in which the worker has come to a request for an endpoint written in Python while a thread runs Python code: if that thread now makes a request or
    destroys the transport, its call never returns, and no thread ever runs Python code again. -/
theorem call_hangs_always (b : Bool) (s : State) (h : Reachable b s) (t n : Nat) (ht : s.py t = .running) (hr : s.running = true) (hw : s.worker = .waiting n) :
    (∃ s', step s (.request t) = some s' ∧ Hangs s' t ∧ InterpreterDead s') ∧ ∃ s', step s (.destroy t) = some s' ∧ Hangs s' t ∧ InterpreterDead s' := by
  have hl := Held.reach h
  have hg := (hl.gil t).mpr (by simp [ht])
  have hk := hl.lock'.mpr ⟨n, .inr (.inl hw)⟩
  have ho : ∀ u, u ≠ t → s.py u = .idle := fun u hu => hl.others (by simp [ht]) hu
  refine ⟨⟨s.set t .requesting, by simp [step, ht, hr], Stuck.hangs (p := .requesting) (.inl rfl) ⟨hg, by simp [State.set], ⟨n, hw⟩, hk, ?_⟩⟩,
    ⟨{ s.set t .joining with running := false }, by simp [step, ht, hr], Stuck.hangs (p := .joining) (.inr rfl) ⟨hg, by simp [State.set], ⟨n, hw⟩, hk, ?_⟩⟩⟩ <;>
  · intro u hu
    simp [State.set, hu, ho u hu]

theorem python_kept (b : Bool) {s : State} (h : Reachable b s) : s.python = b := by
  obtain ⟨l, e⟩ := h
  refine run_keeps (P := fun s => s.python = b) (fun s a s' h e => ?_) l _ s rfl e
  cases a <;> simp only [PyLoopback.step, workerStep, State.set] at e <;> grind

/-- The worker alone gets from a thread that runs Python code to the place where it waits, if a request is pending. -/
theorem worker_comes (s : State) (t : Nat) (hp : s.python = true) (hl : Held s) (ht : s.py t = .running) (hr : s.running = true) :
    ∃ l s' n, run s l = some s' ∧ s'.py t = .running ∧ s'.running = true ∧ s'.worker = .waiting n := by
  have hg := (hl.gil t).mpr (by simp [ht])
  -- from `test`, without the lock held
  have fromTest : ∀ s : State, s.python = true → s.py t = .running → s.running = true → s.lock = none → s.worker = .test →
      ∃ l s' n, run s l = some s' ∧ s'.py t = .running ∧ s'.running = true ∧ s'.worker = .waiting n := by
    intro s hp ht hr hk hw
    refine ⟨[.request t, .store t, .worker false, .worker false, .worker false],
      { (s.set t .requesting).set t .running with pending := s.pending + 1, worker := .waiting (s.pending + 1), lock := some .worker }, s.pending + 1, ?_, by simp [State.set], hr, rfl⟩
    simp [run, step, workerStep, State.set, ht, hr, hk, hw, hp]
  have free : (∀ n, s.worker ≠ .serving n ∧ s.worker ≠ .waiting n ∧ s.worker ≠ .method n) → s.lock = none := fun hh => by
    rcases hl.lock with h' | h'
    · exact h'
    · obtain ⟨n, hn⟩ := hl.lock'.mp h'
      have := hh n
      rcases hn with hn | hn | hn
      · exact absurd hn this.1
      · exact absurd hn this.2.1
      · exact absurd hn this.2.2
  cases hw : s.worker with
  | test => exact fromTest s hp ht hr (free (by simp [hw])) hw
  | locking =>
    have hk := free (by simp [hw])
    refine ⟨[.request t, .store t, .worker false, .worker false],
      { (s.set t .requesting).set t .running with pending := s.pending + 1, worker := .waiting (s.pending + 1), lock := some .worker }, s.pending + 1, ?_, by simp [State.set], hr, rfl⟩
    simp [run, step, workerStep, State.set, ht, hr, hk, hw, hp]
  | serving n => cases n with
    | zero =>
      obtain ⟨l, s', n, e, h1, h2, h3⟩ := fromTest { s with worker := .test, pending := 0, lock := none } hp ht hr rfl rfl
      exact ⟨.worker false :: .worker false :: l, s', n, by simpa [run, step, workerStep, hw] using e, h1, h2, h3⟩
    | succ n => exact ⟨[.worker false], { s with worker := .waiting (n + 1) }, n + 1, by simp [run, step, workerStep, hw, hp], ht, hr, rfl⟩
  | waiting n => exact ⟨[], s, n, rfl, ht, hr, hw⟩
  | method n =>
    have := hl.method.mpr ⟨n, hw⟩
    rw [hg] at this
    simp at this
  | sleeping =>
    obtain ⟨l, s', n, e, h1, h2, h3⟩ := fromTest { s with worker := .test } hp ht hr (free (by simp [hw])) rfl
    exact ⟨.worker false :: l, s', n, by simpa [run, step, workerStep, hw] using e, h1, h2, h3⟩
  | ended => exact absurd hw (hl.ended hr).1
  | gone => exact absurd hw (hl.ended hr).2

/-- **C79 fails, every time.** With endpoints written in Python, whatever happened before: every thread that runs Python code while the transport exists can hang with its next calls, and the whole interpreter
    with it. -/
theorem every_use_can_hang (s : State) (h : Reachable true s) (t : Nat) (ht : s.py t = .running) (hr : s.running = true) : ∃ l s', run s l = some s' ∧ Hangs s' t ∧ InterpreterDead s' := by
  obtain ⟨l, s1, n, e1, h1, h2, h3⟩ := worker_comes s t (python_kept true h) (Held.reach h) ht hr
  obtain ⟨k, e⟩ := h
  obtain ⟨⟨s2, e2, h4, h5⟩, _⟩ := call_hangs_always true s1 ⟨_, run_append e e1⟩ t n h1 h2 h3
  exact ⟨l ++ [.request t], s2, run_append e1 (by simp [run, e2]), h4, h5⟩

/-- After a request that was served. -/
example : ∃ s, run { python := true } (oneRequest ++ [.release 0, .worker false, .worker false, .worker false, .acquire 1]) = some s ∧ s.py 1 = .running ∧ s.running = true ∧ s.served = 1 :=
  ⟨_, rfl, rfl, rfl, rfl⟩

example : ∃ s, run { python := true } oneRequest = some s ∧ s.py 0 = .running ∧ s.running = true ∧ s.worker = .waiting 1 := ⟨_, rfl, rfl, rfl, rfl⟩

theorem not_CallsReturn : ¬ CallsReturn := by
  intro h
  obtain ⟨s, e, hh, _⟩ := second_request_hangs
  exact h true s ⟨_, e⟩ 0 (hh [] s rfl) hh

/-! ## Endpoints that are not written in Python -/

structure Inv (s : State) : Prop where
  native : s.python = false
  gil : ∀ t, s.gil = some (.py t) ↔ s.py t ≠ .idle
  gil' : s.gil ≠ some .worker
  lock : s.lock = none ∨ s.lock = some .worker
  lock' : s.lock = some .worker ↔ ∃ n, s.worker = .serving n
  serving : ∀ n, s.worker = .serving n → n ≤ s.pending
  noWait : ∀ n, s.worker ≠ .waiting n ∧ s.worker ≠ .method n
  ended : s.running = true → s.worker ≠ .ended ∧ s.worker ≠ .gone
  joining : ∀ t, s.py t = .joining → s.running = false ∧ s.worker ≠ .gone

theorem Inv.init : Inv { python := false } := by
  constructor <;> simp

theorem Inv.step {s s' : State} {a : Act} (h : Inv s) (e : step s a = some s') : Inv s' := by
  obtain ⟨h1, h2, h3, h4, h5, h6, h7, h8, h9⟩ := h
  cases a <;> simp only [PyLoopback.step, workerStep, State.set] at e
  all_goals
    repeat' (first | (simp only [Option.some.injEq] at e; subst e; constructor <;> first | grind | skip) | (cases e; done) | split at e)

theorem Inv.reach {s : State} (h : Reachable false s) : Inv s := by
  obtain ⟨l, e⟩ := h
  exact run_keeps (P := Inv) (fun _ _ _ h e => h.step e) l _ s .init e

theorem Inv.others {s : State} (h : Inv s) {t : Nat} (ht : s.py t ≠ .idle) {u : Nat} (hu : u ≠ t) : s.py u = .idle := by
  refine Classical.byContradiction fun hc => ?_
  have h1 := (h.gil u).mpr hc
  rw [(h.gil t).mpr ht] at h1
  simp only [Option.some.injEq, Tid.py.injEq] at h1
  exact hu h1.symm

/-- How many steps the worker takes at most to end, once `running_` is not set. -/
def toEnd (s : State) : Nat :=
  match s.worker with
  | .test => 1
  | .sleeping => 2
  | .serving n => n + 3
  | .locking => s.pending + 4
  | _ => 0

theorem joining_step {s m : State} {a : Act} {t : Nat} (h : Inv s) (hj : s.py t = .joining) (e : step s a = some m) :
    m.py t = .running ∨ (m.py t = .joining ∧ toEnd m < toEnd s) := by
  have ho : ∀ u, u ≠ t → s.py u = .idle := fun u hu => h.others (by simp [hj]) hu
  have hp := (h.joining t hj).1
  have hg := (h.gil t).mpr (by simp [hj])
  obtain ⟨h1, h2, h3, h4, h5, h6, h7, h8, h9⟩ := h
  cases a <;> simp only [PyLoopback.step, workerStep, State.set] at e
  all_goals
    repeat' (first | (simp only [Option.some.injEq] at e; subst e; first | grind [toEnd] | skip) | (cases e; done) | split at e)

theorem joining_enabled {s : State} {t : Nat} (h : Inv s) (hj : s.py t = .joining) : ∃ a s', step s a = some s' := by
  have hp := (h.joining t hj).2
  cases hq : s.worker with
  | test => exact ⟨.worker false, _, by simp only [step, workerStep, hq]; rfl⟩
  | locking =>
    have hm : s.lock = none := by
      rcases h.lock with h' | h'
      · exact h'
      · obtain ⟨n, hn⟩ := h.lock'.mp h'
        rw [hq] at hn; exact absurd hn (by simp)
    exact ⟨.worker false, _, by simp only [step, workerStep, hq, hm]; rfl⟩
  | serving n => cases n with
    | zero => exact ⟨.worker false, _, by simp only [step, workerStep, hq]; rfl⟩
    | succ n => exact ⟨.worker false, { s with worker := .serving n, served := s.served + 1 }, by simp [step, workerStep, hq, h.native]⟩
  | waiting n => exact absurd hq (h.noWait n).1
  | method n => exact absurd hq (h.noWait n).2
  | sleeping => exact ⟨.worker false, _, by simp only [step, workerStep, hq]; rfl⟩
  | ended => exact ⟨.join t, { s.set t .running with worker := .gone }, by simp [step, hj, hq]⟩
  | gone => exact absurd hq hp

theorem joining_run {t : Nat} : ∀ (l : List Act) (s s' : State), Inv s → s.py t = .joining → run s l = some s' → toEnd s < l.length →
    ∃ k m, k ≤ l.length ∧ run s (l.take k) = some m ∧ m.py t = .running := by
  intro l
  induction l with
  | nil => intro s s' _ _ _ hl; simp at hl
  | cons a l ih =>
    intro s s' h hj e hl
    obtain ⟨m, e1, e2⟩ := run_cons e
    rcases joining_step h hj e1 with h' | ⟨h', h''⟩
    · exact ⟨1, m, by simp, by simp [run, e1], h'⟩
    · obtain ⟨k, m', hk, h3, h4⟩ := ih m s' (h.step e1) h' e2 (by simp only [List.length_cons] at hl; omega)
      exact ⟨k + 1, m', by simpa using hk, by simp [run, e1, h3], h4⟩

/-- **C79, partial: destruction ends.** When no endpoint is written in Python and a thread destroys the transport, some step can always be taken, and the destructor returns within any `n + 5` steps that
    the threads take, if `n` requests are pending. Missing: endpoints written in Python, see `destroy_hangs`. -/
theorem destroy_returns_partial (s : State) (h : Reachable false s) (t : Nat) (hj : s.py t = .joining) :
    (∃ a s', step s a = some s') ∧ ∀ l s', run s l = some s' → l.length = s.pending + 5 → ∃ k m, k ≤ s.pending + 5 ∧ run s (l.take k) = some m ∧ m.py t = .running := by
  have hi := Inv.reach h
  refine ⟨joining_enabled hi hj, fun l s' e hl => ?_⟩
  rw [← hl]
  refine joining_run l s s' hi hj e ?_
  rw [hl]
  unfold toEnd
  cases hw : s.worker with
  | serving n => have := hi.serving n hw; simp only; omega
  | _ => simp only <;> omega

/-- **C79, partial.** When no endpoint is written in Python, every request and every destruction can return, whatever happened before. Missing: endpoints written in Python, see `second_request_hangs`. -/
theorem calls_return_partial (s : State) (h : Reachable false s) (t : Nat) (ht : InCall (s.py t)) : ¬ Hangs s t := by
  intro hh
  have hi := Inv.reach h
  have done : ∀ l s', run s l = some s' → s'.py t ≠ .running := fun l s' e h' => by
    have := hh l s' e
    rw [h'] at this
    rcases this with h | h <;> exact absurd h (by simp)
  rcases ht with hq | hq
  · -- the worker can give back the lock
    have free : ∀ n (s : State), s.python = false → s.worker = .serving n → ∃ l s', run s l = some s' ∧ s'.py = s.py ∧ s'.lock = none := by
      intro n
      induction n with
      | zero => intro s hp hn; exact ⟨[.worker false], { s with worker := .sleeping, pending := 0, lock := none }, by simp [run, step, workerStep, hn], rfl, rfl⟩
      | succ n ih =>
        intro s hp hn
        obtain ⟨l, s', e, h1, h2⟩ := ih { s with worker := .serving n, served := s.served + 1 } hp rfl
        rw [hp] at e
        exact ⟨.worker false :: l, s', by simp [run, step, workerStep, hn, hp, e], h1, h2⟩
    have free' : ∃ l s', run s l = some s' ∧ s'.py = s.py ∧ s'.lock = none := by
      rcases hi.lock with h' | h'
      · exact ⟨[], s, rfl, rfl, h'⟩
      · obtain ⟨n, hn⟩ := hi.lock'.mp h'
        exact free n s hi.native hn
    obtain ⟨l, s', e, hpy, hm⟩ := free'
    have e2 : run s' [.store t] = some { s'.set t .running with pending := s'.pending + 1 } := by simp [run, step, hpy, hq, hm]
    exact done (l ++ [.store t]) _ (run_append e e2) (by simp [State.set])
  · have key : ∀ n (s : State), Inv s → s.py t = .joining → toEnd s = n → ∃ l s', run s l = some s' ∧ s'.py t = .running := by
      intro n
      induction n using Nat.strongRecOn with
      | _ n ih =>
        intro s hi hj hn
        obtain ⟨a, m, e⟩ := joining_enabled hi hj
        rcases joining_step hi hj e with h' | ⟨h', h''⟩
        · exact ⟨[a], m, by simp [run, e], h'⟩
        · obtain ⟨l, s', e', hr⟩ := ih (toEnd m) (hn ▸ h'') m (hi.step e) h' rfl
          exact ⟨a :: l, s', by simp [run, e, e'], hr⟩
    obtain ⟨l, s', e, hr⟩ := key _ s hi hq rfl
    exact done l s' e hr

/-- Two requests in a row and the destruction, without Python endpoints: all return. -/
example : ∃ s, run { python := false } (oneRequest ++ [.request 0]) = some s ∧ InCall (s.py 0) ∧
    ∃ s', run s [.worker false, .store 0, .destroy 0, .worker false, .worker false, .join 0] = some s' ∧ s'.py 0 = .running ∧ s'.worker = .gone := ⟨_, rfl, Or.inl rfl, _, rfl, rfl, rfl⟩

/-- How many requests were stored. -/
def stored : List Act → Nat
  | [] => 0
  | .store _ :: l => stored l + 1
  | _ :: l => stored l

/-- How many requests the worker has still to serve. -/
def unserved (s : State) : Nat :=
  match s.worker with
  | .serving n => n
  | .waiting n => n
  | .method n => n
  | _ => s.pending

/-- What holds of the locks, whether the endpoints are written in Python or not. -/
structure Locks (s : State) : Prop where
  gil : ∀ t, s.gil = some (.py t) ↔ s.py t ≠ .idle
  method : s.gil = some .worker ↔ ∃ n, s.worker = .method n
  lock : s.lock = none ∨ s.lock = some .worker
  lock' : s.lock = some .worker ↔ ∃ n, s.worker = .serving n ∨ s.worker = .waiting n ∨ s.worker = .method n
  pos : ∀ n, s.worker = .waiting n ∨ s.worker = .method n → 0 < n

theorem Locks.step {s s' : State} {a : Act} (h : Locks s) (e : PyLoopback.step s a = some s') : Locks s' := by
  obtain ⟨h1, h2, h3, h4, h5⟩ := h
  cases a <;> simp only [PyLoopback.step, workerStep, State.set] at e
  all_goals
    repeat' (first | (simp only [Option.some.injEq] at e; subst e; constructor <;> first | grind | skip) | (cases e; done) | split at e)

theorem Locks.reach {python : Bool} {s : State} (h : Reachable python s) : Locks s := by
  obtain ⟨l, e⟩ := h
  exact run_keeps (P := Locks) (fun _ _ _ h e => h.step e) l _ s (by constructor <;> simp) e

/-- A method of an endpoint runs only while no thread of the program runs Python code, and no two threads run at once. -/
theorem one_runs (python : Bool) (s : State) (h : Reachable python s) : (∀ t n, s.worker = .method n → s.py t = .idle) ∧ ∀ t u, s.py t ≠ .idle → s.py u ≠ .idle → t = u := by
  have hl := Locks.reach h
  constructor
  · intro t n hm
    refine Decidable.byContradiction fun hc => ?_
    have h1 := (hl.gil t).2 hc
    rw [hl.method.2 ⟨n, hm⟩] at h1
    cases h1
  · intro t u ht hu
    have h1 := (hl.gil t).2 ht
    rw [(hl.gil u).2 hu] at h1
    cases h1; rfl

/-- Every request is served once: those that were served and those that are still to be served are together those that were made, whether the endpoints are written in Python or not. -/
theorem each_once (python : Bool) (l : List Act) (s : State) (e : run { python := python } l = some s) : s.served + unserved s = stored l := by
  have key : ∀ (l : List Act) (s s' : State), Locks s → run s l = some s' → s'.served + unserved s' = s.served + unserved s + stored l := by
    intro l
    induction l with
    | nil => intro s s' _ e; simp only [run, Option.some.injEq] at e; subst e; rfl
    | cons a l ih =>
      intro s s' h e
      obtain ⟨m, e1, e2⟩ := run_cons e
      rw [ih m s' (h.step e1) e2]
      have hm : m.served + unserved m + stored l = s.served + unserved s + stored (a :: l) := by
        obtain ⟨h1, h2, h3, h4, h5⟩ := h
        cases a with
        | worker b =>
          simp only [PyLoopback.step, workerStep] at e1
          simp only [stored]
          split at e1
          all_goals repeat' (first | (cases e1; done) | (simp only [Option.some.injEq] at e1; subst e1) | split at e1)
          all_goals simp only [unserved, *]
          all_goals grind
        | store t =>
          simp only [PyLoopback.step, State.set] at e1
          simp only [stored]
          split at e1
          · simp only [Option.some.injEq] at e1; subst e1
            simp only [unserved]
            split
            all_goals grind
          · cases e1
        | join t =>
          simp only [PyLoopback.step, State.set] at e1
          simp only [stored]
          split at e1
          · rename_i hj
            simp only [Option.some.injEq] at e1; subst e1
            simp only [unserved, hj.2]
          · cases e1
        | _ =>
          simp only [PyLoopback.step, State.set] at e1
          simp only [stored]
          split at e1
          · simp only [Option.some.injEq] at e1; subst e1; rfl
          · cases e1
      exact hm
  have := key l _ s (by constructor <;> simp) e
  simpa [unserved] using this

/-- A request served by a method that is interrupted once. -/
example : ∃ s, run { python := true } (oneRequest ++ [.release 0, .worker false, .worker true, .acquire 1, .release 1, .worker false]) = some s ∧ s.worker = .method 1 ∧ s.served = 0 ∧ s.py 1 = .idle :=
  ⟨_, rfl, rfl, rfl, rfl⟩

/-! ## Exactly when it fails -/

/-- A call that waits for the worker, which has a request to serve for which it needs the interpreter lock. -/
def Blocked (s : State) (t : Nat) : Prop :=
  InCall (s.py t) ∧ ((∃ n, s.worker = .waiting n) ∨ ∃ n, s.worker = .serving (n + 1)) ∨ s.py t = .joining ∧ s.worker = .locking ∧ 0 < s.pending

/-- A transport that is being destroyed is not running, and its worker has not been joined. -/
theorem joining_reach {b : Bool} {s : State} (h : Reachable b s) : ∀ t, s.py t = .joining → s.running = false ∧ s.worker ≠ .gone := by
  obtain ⟨l, e⟩ := h
  refine (run_keeps (P := fun s => Held s ∧ ∀ t, s.py t = .joining → s.running = false ∧ s.worker ≠ .gone) (fun s a s' h e => ⟨h.1.step e, ?_⟩) l _ s ⟨.init b, by simp⟩ e).2
  obtain ⟨⟨h1, h2, h3, h4, h5⟩, h6⟩ := h
  cases a <;> simp only [PyLoopback.step, workerStep, State.set] at e
  all_goals
    repeat' (first | (simp only [Option.some.injEq] at e; subst e; first | grind | skip) | (cases e; done) | split at e)

theorem Blocked.step {t : Nat} {s s' : State} {a : Act} (hi : Locks s) (hp : s.python = true) (h : Blocked s t) (e : step s a = some s') : Blocked s' t ∧ ∀ u, s'.py u = s.py u := by
  have hin : InCall (s.py t) := by
    rcases h with h | h
    · exact h.1
    · exact .inr h.1
  have hne : s.py t ≠ .idle ∧ s.py t ≠ .running := by rcases hin with h | h <;> simp [h]
  have hgil := (hi.gil t).mpr hne.1
  have ho : ∀ u, u ≠ t → s.py u = .idle := fun u hu => Classical.byContradiction fun hc => by
    have h1 := (hi.gil u).mpr hc
    rw [hgil] at h1
    simp only [Option.some.injEq, Tid.py.injEq] at h1
    exact hu h1.symm
  obtain ⟨h1, h2, h3, h4, h5⟩ := hi
  unfold Blocked InCall at h ⊢
  cases a <;> simp only [PyLoopback.step, workerStep, State.set] at e
  all_goals
    repeat' (first | (simp only [Option.some.injEq] at e; subst e; first | grind | skip) | (cases e; done) | split at e)
  rename_i hw _
  have hj : s.py t = .joining ∧ 0 < s.pending := by simpa [hw] using h
  exact ⟨.inl ⟨.inr hj.1, .inr ⟨s.pending - 1, by simp only [Worker.serving.injEq]; omega⟩⟩, fun _ => rfl⟩

/-- **C79, exactly.** A call never returns if and only if endpoints are written in Python and the worker has come to a request, or, for a destruction, is about to lock the list with a request in it. -/
theorem hangs_iff (python : Bool) (s : State) (h : Reachable python s) (t : Nat) (ht : InCall (s.py t)) : Hangs s t ↔ python = true ∧ Blocked s t := by
  cases python with
  | false => exact ⟨fun hh => absurd hh (calls_return_partial s h t ht), fun hh => by cases hh.1⟩
  | true =>
    have hi := Locks.reach h
    have hp := python_kept true h
    have hj := joining_reach h
    simp only [true_and]
    constructor
    · intro hh
      refine Classical.byContradiction fun hn => ?_
      have hne : s.py t ≠ .idle := by rcases ht with h | h <;> simp [h]
      have hgil := (hi.gil t).mpr hne
      have done : ∀ l s', run s l = some s' → s'.py t ≠ .running := fun l s' e h' => by
        have := hh l s' e
        rw [h'] at this
        rcases this with h | h <;> cases h
      have hlock : (∀ n, s.worker ≠ .serving n ∧ s.worker ≠ .waiting n ∧ s.worker ≠ .method n) → s.lock = none := fun hw => by
        rcases hi.lock with h' | h'
        · exact h'
        · obtain ⟨n, hx⟩ := hi.lock'.mp h'
          have := hw n
          rcases hx with hx | hx | hx <;> simp [hx] at this
      unfold Blocked at hn
      simp only [not_or, not_and, not_exists] at hn
      obtain ⟨hn1, hn2⟩ := hn
      have hn1 := hn1 ht
      have hmeth : ∀ n, s.worker ≠ .method n := fun n hw => by
        have := hi.method.mpr ⟨n, hw⟩
        rw [hgil] at this
        cases this
      rcases ht with hq | hq
      · cases hw : s.worker with
        | serving n =>
          cases n with
          | succ n => exact hn1.2 n hw
          | zero => exact done [.worker false, .store t] _ (by simp [run, PyLoopback.step, workerStep, hw, hq, State.set]; rfl) (by simp)
        | waiting n => exact hn1.1 n hw
        | method n => exact hmeth n hw
        | _ => exact done [.store t] _ (by simp [run, PyLoopback.step, hlock (by simp [hw]), hq, State.set]; rfl) (by simp)
      · have hr := (hj t hq).1
        cases hw : s.worker with
        | serving n =>
          cases n with
          | succ n => exact hn1.2 n hw
          | zero => exact done [.worker false, .worker false, .worker false, .join t] _ (by simp [run, PyLoopback.step, workerStep, hw, hr, hq, State.set]; rfl) (by simp)
        | waiting n => exact hn1.1 n hw
        | method n => exact hmeth n hw
        | test => exact done [.worker false, .join t] _ (by simp [run, PyLoopback.step, workerStep, hw, hr, hq, State.set]; rfl) (by simp)
        | sleeping => exact done [.worker false, .worker false, .join t] _ (by simp [run, PyLoopback.step, workerStep, hw, hr, hq, State.set]; rfl) (by simp)
        | locking =>
          have h0 : s.pending = 0 := by have := hn2 hq hw; omega
          exact done [.worker false, .worker false, .worker false, .worker false, .join t] _ (by simp [run, PyLoopback.step, workerStep, hw, hr, hq, h0, hlock (by simp [hw]), State.set]; rfl) (by simp)
        | ended => exact done [.join t] _ (by simp [run, PyLoopback.step, hw, hq, State.set]; rfl) (by simp)
        | gone => exact (hj t hq).2 hw
    · intro hb l s' e
      have := (run_keeps (P := fun m => Locks m ∧ m.python = true ∧ Blocked m t ∧ ∀ u, m.py u = s.py u)
        (fun m a m' h e => ⟨h.1.step e, by
            have h2 := h.2.1
            cases a <;> simp only [PyLoopback.step, workerStep, State.set] at e <;> grind,
          (h.2.2.1.step h.1 h.2.1 e).1, fun u => ((h.2.2.1.step h.1 h.2.1 e).2 u).trans (h.2.2.2 u)⟩) l s s' ⟨hi, hp, hb, fun _ => rfl⟩ e).2.2.2 t
      rw [this]; exact ht

/-- A destruction that hangs although the worker has not come to the request yet, and one that returns. -/
example : (∃ s, Reachable true s ∧ s.py 0 = .joining ∧ Blocked s 0) ∧ ∃ s, Reachable true s ∧ s.py 0 = .joining ∧ s.pending = 1 ∧ ¬ Blocked s 0 :=
  ⟨⟨_, ⟨[.acquire 0, .worker false, .request 0, .store 0, .destroy 0], rfl⟩, rfl, .inr ⟨rfl, rfl, by decide⟩⟩,
    ⟨_, ⟨[.acquire 0, .request 0, .store 0, .destroy 0], rfl⟩, rfl, rfl, by simp [Blocked, State.set]⟩⟩

end Scalopus.C79
