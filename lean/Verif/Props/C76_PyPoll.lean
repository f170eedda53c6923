import Verif.Spec.PyPoll

/-!
# C76: calls of the manager from Python return
-/

namespace Scalopus.C76

open PyPoll

/-- **C76** in full: a call of the manager that a Python thread makes can always still return. -/
def CallsReturn : Prop := ∀ cb s, Reachable cb s → ∀ t, InCall (s.py t) → ¬ Hangs s t

theorem run_cons {s s' : State} {a : Act} {l : List Act} (h : run s (a :: l) = some s') : ∃ m, step s a = some m ∧ run m l = some s' := by
  simp only [run, Option.bind_eq_some_iff] at h
  exact h

theorem run_append {s m s' : State} {l k : List Act} (h : run s l = some m) (h' : run m k = some s') : run s (l ++ k) = some s' := by
  induction l generalizing s with
  | nil => simp only [run, Option.some.injEq] at h; exact h ▸ h'
  | cons a l ih =>
    obtain ⟨n, e1, e2⟩ := run_cons h
    simp only [List.cons_append, run, e1, Option.bind_some]
    exact ih e2

theorem run_keeps {P : State → Prop} (hp : ∀ s a s', P s → step s a = some s' → P s') : ∀ (l : List Act) (s s' : State), P s → run s l = some s' → P s' := by
  intro l
  induction l with
  | nil => intro s s' h e; simp only [run, Option.some.injEq] at e; exact e ▸ h
  | cons a l ih =>
    intro s s' h e
    obtain ⟨m, e1, e2⟩ := run_cons e
    exact ih m s' (hp s a m h e1) e2

/-- The state of a stop that hangs: a Python thread has the interpreter lock and waits for the polling thread, which waits for the interpreter lock. -/
structure StopStuck (t : Nat) (s : State) : Prop where
  gil : s.gil = some (.py t)
  joining : ∃ r, s.py t = .joining r
  waiting : s.poll = .waiting
  others : ∀ u, u ≠ t → s.py u = .idle ∨ s.py u = .paused

/-- A Python thread has the interpreter lock and waits for `mutex_`, which the polling thread has, which waits for the interpreter lock. -/
structure LockStuck (t : Nat) (s : State) : Prop where
  gil : s.gil = some (.py t)
  locking : ∃ c, s.py t = .locking c
  waiting : s.poll = .waiting
  mutex : s.mutex = some .poll
  others : ∀ u, u ≠ t → s.py u = .idle ∨ s.py u = .paused

theorem StopStuck.step {t : Nat} {s s' : State} {a : Act} (h : StopStuck t s) (e : step s a = some s') : StopStuck t s' := by
  obtain ⟨h1, ⟨r, h2⟩, h3, h4⟩ := h
  cases a <;> simp only [PyPoll.step, pollStep] at e <;> grind

theorem LockStuck.step {t : Nat} {s s' : State} {a : Act} (h : LockStuck t s) (e : step s a = some s') : LockStuck t s' := by
  obtain ⟨h1, ⟨r, h2⟩, h3, h4, h5⟩ := h
  cases a <;> simp only [PyPoll.step, pollStep] at e <;> grind

theorem StopStuck.hangs {t : Nat} {s : State} (h : StopStuck t s) : Hangs s t ∧ InterpreterDead s := by
  constructor
  · intro l s' e
    obtain ⟨r, hr⟩ := (run_keeps (P := StopStuck t) (fun _ _ _ h e => h.step e) l s s' h e).joining
    rw [hr]; trivial
  · intro l s' e u
    have hs := run_keeps (P := StopStuck t) (fun _ _ _ h e => h.step e) l s s' h e
    by_cases hu : u = t
    · obtain ⟨r, hr⟩ := hs.joining
      rw [hu, hr]; simp
    · rcases hs.others u hu with h | h <;> rw [h] <;> simp

theorem LockStuck.hangs {t : Nat} {s : State} (h : LockStuck t s) : Hangs s t ∧ InterpreterDead s := by
  constructor
  · intro l s' e
    obtain ⟨r, hr⟩ := (run_keeps (P := LockStuck t) (fun _ _ _ h e => h.step e) l s s' h e).locking
    rw [hr]; trivial
  · intro l s' e u
    have hs := run_keeps (P := LockStuck t) (fun _ _ _ h e => h.step e) l s s' h e
    by_cases hu : u = t
    · obtain ⟨r, hr⟩ := hs.locking
      rw [hu, hr]; simp
    · rcases hs.others u hu with h | h <;> rw [h] <;> simp

/-- The polling thread is about to run a callback while the program runs Python code. -/
def atCallback : List Act := [.acquire 0, .start 0, .poll false, .poll false, .poll true]

/-- **C76 fails:** with a Python logger or factory, `stopPolling()` can hang, and with it the whole interpreter. -/
theorem stop_hangs : ∃ s, run { callbacks := true } (atCallback ++ [.stop 0]) = some s ∧ Hangs s 0 ∧ InterpreterDead s := by
  refine ⟨_, rfl, StopStuck.hangs ⟨rfl, ⟨false, rfl⟩, rfl, ?_⟩⟩
  intro u hu
  simp [State.set, hu]

/-- **C76 fails:** so can a call of `endpoints()`, `addEndpointFactory()` or `manage()`. -/
theorem call_hangs (c : Call) : ∃ s, run { callbacks := true } (atCallback ++ [.call 0 c]) = some s ∧ Hangs s 0 ∧ InterpreterDead s := by
  refine ⟨_, rfl, LockStuck.hangs ⟨rfl, ⟨c, rfl⟩, rfl, rfl, ?_⟩⟩
  intro u hu
  simp [State.set, hu]

/-- Without a polling thread two threads of the program can do this to each other: one is in a callback of `manage()` when the interpreter switches to another, which calls the manager. -/
structure MutualStuck (t u : Nat) (s : State) : Prop where
  gil : s.gil = some (.py t)
  locking : ∃ c, s.py t = .locking c
  paused : s.py u = .paused
  mutex : s.mutex = some (.py u)
  poll : s.poll = .absent
  others : ∀ v, v ≠ t → s.py v = .idle ∨ s.py v = .paused

theorem MutualStuck.step {t u : Nat} {s s' : State} {a : Act} (h : MutualStuck t u s) (e : step s a = some s') : MutualStuck t u s' := by
  obtain ⟨h1, ⟨r, h2⟩, h3, h4, h5, h6⟩ := h
  cases a <;> simp only [PyPoll.step, pollStep] at e <;> grind

theorem MutualStuck.hangs {t u : Nat} {s : State} (h : MutualStuck t u s) : Hangs s t ∧ InterpreterDead s := by
  constructor
  · intro l s' e
    obtain ⟨r, hr⟩ := (run_keeps (P := MutualStuck t u) (fun _ _ _ h e => h.step e) l s s' h e).locking
    rw [hr]; trivial
  · intro l s' e v
    have hs := run_keeps (P := MutualStuck t u) (fun _ _ _ h e => h.step e) l s s' h e
    by_cases hv : v = t
    · obtain ⟨r, hr⟩ := hs.locking
      rw [hv, hr]; simp
    · rcases hs.others v hv with h | h <;> rw [h] <;> simp

theorem call_hangs_without_polling (c : Call) : ∃ s, run { callbacks := true } [.acquire 1, .call 1 .manage, .lock 1, .enterCallback 1, .release 1, .acquire 0, .call 0 c] = some s ∧
    Hangs s 0 ∧ InterpreterDead s := by
  refine ⟨_, rfl, MutualStuck.hangs (u := 1) ⟨rfl, ⟨c, rfl⟩, rfl, rfl, rfl, ?_⟩⟩
  intro v hv
  by_cases h1 : v = 1 <;> simp [State.set, hv, h1]

theorem not_CallsReturn : ¬ CallsReturn := by
  intro h
  obtain ⟨s, e, hh, _⟩ := stop_hangs
  refine h true s ⟨_, e⟩ 0 ?_ hh
  exact hh [] s rfl

/-! ## Without Python callbacks -/

/-- What holds in every state that is reached without Python callbacks. -/
structure Inv (s : State) : Prop where
  cb : s.callbacks = false
  gil : ∀ t, s.gil = some (.py t) ↔ s.py t ≠ .idle
  gil' : s.gil ≠ some .poll
  noCb : ∀ t, s.py t ≠ .callback ∧ s.py t ≠ .paused
  mutex : ∀ t, s.mutex = some (.py t) ↔ ∃ c, s.py t = .locked c
  mutex' : s.mutex = some .poll ↔ s.poll = .locked
  noCb' : s.poll ≠ .waiting ∧ s.poll ≠ .callback
  polling : s.polling = true → s.poll ≠ .absent
  notEnded : s.polling = true → s.poll ≠ .ended
  joining : ∀ t r, s.py t = .joining r → s.poll ≠ .absent ∧ s.polling = false
  alone : s.polling = false → s.poll ≠ .absent → ∃ t r, s.py t = .joining r

theorem Inv.init : Inv { callbacks := false } := by
  constructor <;> simp

theorem Inv.step {s s' : State} {a : Act} (h : Inv s) (e : step s a = some s') : Inv s' := by
  obtain ⟨h1, h2, h3, h4, h5, h6, h7, h8, h9, h10, h11⟩ := h
  cases a <;> simp only [PyPoll.step, pollStep, State.set] at e
  all_goals
    repeat' (first | (simp only [Option.some.injEq] at e; subst e; constructor <;> first | grind | exact fun _ _ => ⟨_, _, if_pos rfl⟩ | skip) | cases e | split at e)
  · rename_i t _ c hc hm
    intro u
    by_cases hu : u = t
    · subst hu; simp
    · have h := h5 u
      rw [hm] at h
      simp only [hu, if_false, Option.some.injEq, Tid.py.injEq]
      constructor
      · intro h'; exact absurd h'.symm hu
      · intro h'; exact absurd (h.mpr h') (by simp)

theorem Inv.reach {s : State} (h : Reachable false s) : Inv s := by
  obtain ⟨l, e⟩ := h
  exact run_keeps (P := Inv) (fun _ _ _ h e => h.step e) l _ s .init e

/-- With the interpreter lock held by `t` the other threads of the program can do nothing. -/
theorem Inv.others {s : State} (h : Inv s) {t : Nat} (ht : s.py t ≠ .idle) {u : Nat} (hu : u ≠ t) : s.py u = .idle := by
  refine Classical.byContradiction fun hc => ?_
  have h1 := (h.gil u).mpr hc
  rw [(h.gil t).mpr ht] at h1
  simp only [Option.some.injEq, Tid.py.injEq] at h1
  exact hu h1.symm

/-- How many steps the polling thread takes at most to end, once `is_polling_` is not set. -/
def toEnd : Poll → Nat
  | .test => 1
  | .sleeping => 2
  | .locked => 3
  | .locking => 4
  | _ => 0

/-- While a thread is joining, a step either ends the call or brings the polling thread closer to its end. -/
theorem joining_step {s m : State} {a : Act} {t : Nat} {r : Bool} (h : Inv s) (hj : s.py t = .joining r) (e : step s a = some m) :
    m.py t = .running ∨ (m.py t = .joining r ∧ toEnd m.poll < toEnd s.poll) := by
  have ho : ∀ u, u ≠ t → s.py u = .idle := fun u hu => h.others (by simp [hj]) hu
  have hp := (h.joining t r hj).2
  have hg := (h.gil t).mpr (by simp [hj])
  obtain ⟨h1, h2, h3, h4, h5, h6, h7, h8, h9, h10, h11⟩ := h
  cases a <;> simp only [PyPoll.step, pollStep, State.set] at e
  all_goals
    repeat' (first | (simp only [Option.some.injEq] at e; subst e; first | grind [toEnd] | skip) | cases e | split at e)

/-- Some step can be taken while a thread is joining. -/
theorem joining_enabled {s : State} {t : Nat} {r : Bool} (h : Inv s) (hj : s.py t = .joining r) : ∃ a s', step s a = some s' := by
  have hp := (h.joining t r hj).1
  have hw := h.noCb'
  have ho : ∀ u, u ≠ t → s.py u = .idle := fun u hu => h.others (by simp [hj]) hu
  cases hq : s.poll with
  | absent => exact absurd hq hp
  | test => exact ⟨.poll false, _, by simp only [step, pollStep, hq]; rfl⟩
  | locking =>
    have hm : s.mutex = none := by
      cases hm : s.mutex with
      | none => rfl
      | some u => cases u with
        | poll => have := h.mutex'.mp hm; rw [hq] at this; exact absurd this (by simp)
        | py u =>
          obtain ⟨c, hc⟩ := (h.mutex u).mp hm
          by_cases hu : u = t
          · rw [hu, hj] at hc; exact absurd hc (by simp)
          · rw [ho u hu] at hc; exact absurd hc (by simp)
    exact ⟨.poll false, _, by simp only [step, pollStep, hq, hm]; rfl⟩
  | locked => exact ⟨.poll false, _, by simp only [step, pollStep, hq]; rfl⟩
  | waiting => exact absurd hq hw.1
  | callback => exact absurd hq hw.2
  | sleeping => exact ⟨.poll false, _, by simp only [step, pollStep, hq]; rfl⟩
  | ended => exact ⟨.join t, _, by simp only [step, hj, hq]; rfl⟩

theorem joining_run {t : Nat} {r : Bool} : ∀ (l : List Act) (s s' : State), Inv s → s.py t = .joining r → run s l = some s' → toEnd s.poll < l.length →
    ∃ k m, k ≤ l.length ∧ run s (l.take k) = some m ∧ m.py t = .running := by
  intro l
  induction l with
  | nil => intro s s' _ _ _ hl; simp at hl
  | cons a l ih =>
    intro s s' h hj e hl
    obtain ⟨m, e1, e2⟩ := run_cons e
    rcases joining_step h hj e1 with h' | ⟨h', h''⟩
    · exact ⟨1, m, by simp, by simp [run, e1], h'⟩
    · obtain ⟨k, m', hk, h3, h4⟩ := ih m s' (h.step e1) h' e2 (by simp only [List.length_cons] at hl; omega)
      exact ⟨k + 1, m', by simpa using hk, by simp [run, e1, h3], h4⟩

/-- **C76, partial: stopping ends.** Without Python callbacks, when a thread is in `stopPolling()`, or in the same place inside `startPolling()`, some step can always be taken, and the call
    returns within any five steps that the threads take. Missing: programs with a Python logger or factory, see `stop_hangs`. -/
theorem stop_returns_partial (s : State) (h : Reachable false s) (t : Nat) (r : Bool) (hj : s.py t = .joining r) :
    (∃ a s', step s a = some s') ∧ ∀ l s', run s l = some s' → l.length = 5 → ∃ k m, k ≤ 5 ∧ run s (l.take k) = some m ∧ m.py t = .running := by
  refine ⟨joining_enabled (Inv.reach h) hj, fun l s' e hl => ?_⟩
  rw [← hl]
  refine joining_run l s s' (Inv.reach h) hj e ?_
  rw [hl]
  cases s.poll <;> simp [toEnd]

/-- **C76, partial.** Without Python callbacks every call of the manager that a Python thread has made can return, whatever happened before. Missing: programs with a Python logger or factory, see
    `stop_hangs` and `call_hangs`. -/
theorem calls_return_partial (s : State) (h : Reachable false s) (t : Nat) (ht : InCall (s.py t)) : ¬ Hangs s t := by
  intro hh
  have hi := Inv.reach h
  have done : ∀ l s', run s l = some s' → s'.py t ≠ .running := fun l s' e h' => by
    have := hh l s' e
    rw [h'] at this
    exact this
  cases hq : s.py t with
  | idle => rw [hq] at ht; exact ht
  | running => rw [hq] at ht; exact ht
  | callback => exact (hi.noCb t).1 hq
  | paused => exact (hi.noCb t).2 hq
  | locked c => exact done [.unlock t] { s.set t .running with mutex := none } (by simp [run, step, hq]) (by simp [State.set])
  | locking c =>
    -- the polling thread can give back the mutex
    have free : ∃ l s', run s l = some s' ∧ s'.py = s.py ∧ s'.mutex = none := by
      cases hm : s.mutex with
      | none => exact ⟨[], s, rfl, rfl, hm⟩
      | some u => cases u with
        | poll =>
          have hp := hi.mutex'.mp hm
          exact ⟨[.poll false], { s with poll := .sleeping, mutex := none }, by simp [run, step, pollStep, hp], rfl, rfl⟩
        | py u =>
          obtain ⟨c', hc⟩ := (hi.mutex u).mp hm
          by_cases hu : u = t
          · rw [hu, hq] at hc; exact absurd hc (by simp)
          · rw [hi.others (by simp [hq]) hu] at hc; exact absurd hc (by simp)
    obtain ⟨l, s', e, hpy, hm⟩ := free
    have e2 : run s' [.lock t, .unlock t] = some { (({ s'.set t (.locked c) with mutex := some (.py t) } : State).set t .running) with mutex := none } := by
      simp [run, step, hpy, hq, hm, State.set]
    exact done (l ++ [.lock t, .unlock t]) _ (run_append e e2) (by simp [State.set])
  | joining r =>
    have key : ∀ n (s : State), Inv s → s.py t = .joining r → toEnd s.poll = n → ∃ l s', run s l = some s' ∧ s'.py t = .running := by
      intro n
      induction n using Nat.strongRecOn with
      | _ n ih =>
        intro s hi hj hn
        obtain ⟨a, m, e⟩ := joining_enabled hi hj
        rcases joining_step hi hj e with h' | ⟨h', h''⟩
        · exact ⟨[a], m, by simp [run, e], h'⟩
        · obtain ⟨l, s', e', hr⟩ := ih (toEnd m.poll) (hn ▸ h'') m (hi.step e) h' rfl
          exact ⟨a :: l, s', by simp [run, e, e'], hr⟩
    obtain ⟨l, s', e, hr⟩ := key _ s hi hq rfl
    exact done l s' e hr

/-- A program without callbacks in which one thread stops the polling while the polling thread is in `manage()`: it returns. -/
example : ∃ s, run { callbacks := false } [.acquire 0, .start 0, .poll false, .poll false, .stop 0] = some s ∧ InCall (s.py 0) ∧ s.poll = .locked ∧
    ∃ s', run s [.poll false, .poll false, .poll false, .join 0] = some s' ∧ s'.py 0 = .running ∧ s'.poll = .absent := ⟨_, rfl, trivial, rfl, _, rfl, rfl, rfl⟩

/-- A thread that waits in `join` stays there until the join. -/
theorem joining_stays {s s' : State} {a : Act} {t : Nat} {r : Bool} (hj : s.py t = .joining r) (ha : a ≠ .join t) (e : step s a = some s') : s'.py t = .joining r := by
  have hset : ∀ (u : Nat) (p : Pc), u ≠ t → (s.set u p).py t = .joining r := fun u p hu => by simp [State.set, Ne.symm hu, hj]
  have hne : ∀ (u : Nat) (p : Pc), s.py u = p → (∀ q, p ≠ .joining q) → u ≠ t := fun u p h1 h2 h3 => by rw [h3, hj] at h1; exact h2 r h1.symm
  cases a <;> simp only [step] at e
  case acquire u => split at e <;> (try split at e) <;> first | (cases e; exact hset u _ (hne u _ (by assumption) (by simp))) | cases e
  case release u => split at e <;> first | (cases e; exact hset u _ (hne u _ (by assumption) (by simp))) | cases e
  case call u c => split at e <;> first | (cases e; exact hset u _ (hne u _ (by assumption) (by simp))) | cases e
  case lock u => split at e <;> (try split at e) <;> first | (cases e; exact hset u _ (hne u _ (by assumption) (by simp))) | cases e
  case enterCallback u => split at e <;> first | (cases e; rename_i hc; exact hset u _ (hne u _ hc.1 (by simp))) | cases e
  case leaveCallback u => split at e <;> first | (cases e; exact hset u _ (hne u _ (by assumption) (by simp))) | cases e
  case unlock u => split at e <;> first | (cases e; exact hset u _ (hne u _ (by assumption) (by simp))) | cases e
  case start u =>
    split at e
    · rename_i hc
      split at e <;> cases e
      · exact hset u _ (hne u _ hc (by simp))
      · exact hj
    · cases e
  case stop u =>
    split at e
    · rename_i hc
      split at e <;> cases e
      · exact hset u _ (hne u _ hc (by simp))
      · exact hj
    · cases e
  case join u =>
    have hu : u ≠ t := fun hh => ha (by rw [hh])
    split at e
    · split at e
      · cases e; split <;> exact hset u _ hu
      · cases e
    · cases e
  case poll cb =>
    simp only [pollStep] at e
    split at e <;> (try split at e) <;> (try split at e) <;> first | (cases e; exact hj) | cases e

theorem joining_until {t : Nat} {r : Bool} : ∀ (l : List Act) (s s' : State), s.py t = .joining r → .join t ∉ l → run s l = some s' → s'.py t = .joining r := by
  intro l
  induction l with
  | nil => intro s s' hj _ e; cases e; exact hj
  | cons a l ih =>
    intro s s' hj hl e
    obtain ⟨m, h1, h2⟩ := run_cons e
    simp only [List.mem_cons, not_or] at hl
    exact ih m s' (joining_stays hj (Ne.symm hl.1) h1) hl.2 h2

theorem run_snoc {l : List Act} : ∀ {s s' : State} {a : Act}, run s (l ++ [a]) = some s' → ∃ m, run s l = some m ∧ step m a = some s' := by
  induction l with
  | nil =>
    intro s s' a e
    obtain ⟨m, h1, h2⟩ := run_cons e
    cases h2; exact ⟨s, rfl, h1⟩
  | cons b l ih =>
    intro s s' a e
    obtain ⟨m, h1, h2⟩ := run_cons e
    obtain ⟨k, h3, h4⟩ := ih h2
    exact ⟨k, by simp [run, h1, h3], h4⟩

/-- **C76.** `startPolling`: when it returns, there is a polling thread that will go on; `stopPolling`: when it returns, there is none that was asked to go on. Each returns at once, or at the join; in between
anything may happen. -/
theorem start_stop_effect (s m : State) (t : Nat) :
    (step s (.start t) = some m → (m.py t = .running ∧ m.polling = true ∧ m.poll = .test) ∨
      ∀ l s', .join t ∉ l → run m (l ++ [.join t]) = some s' → s'.py t = .running ∧ s'.polling = true ∧ s'.poll = .test) ∧
    (step s (.stop t) = some m → (m.py t = .running ∧ m.polling = false) ∨
      ∀ l s', .join t ∉ l → run m (l ++ [.join t]) = some s' → s'.py t = .running ∧ s'.poll = .absent) := by
  refine ⟨fun e => ?_, fun e => ?_⟩
  · simp only [step] at e
    split at e
    · rename_i hr
      split at e
      · cases e
        refine Or.inr fun l s' hl e' => ?_
        obtain ⟨k, h1, h2⟩ := run_snoc e'
        have hj := joining_until (r := true) l _ k (by simp [State.set]) hl h1
        simp only [step, hj] at h2
        split at h2
        · cases h2; exact ⟨by simp [State.set], rfl, rfl⟩
        · cases h2
      · cases e; exact Or.inl ⟨hr, rfl, rfl⟩
    · cases e
  · simp only [step] at e
    split at e
    · rename_i hr
      split at e
      · cases e
        refine Or.inr fun l s' hl e' => ?_
        obtain ⟨k, h1, h2⟩ := run_snoc e'
        have hj := joining_until (r := false) l _ k (by simp [State.set]) hl h1
        simp only [step, hj] at h2
        split at h2
        · cases h2; exact ⟨by simp [State.set], rfl⟩
        · cases h2
      · rename_i hp; cases e; exact Or.inl ⟨hr, by simpa using hp⟩
    · cases e

/-- A start while polling, and a stop. -/
example : (∃ s, run { callbacks := false } [.acquire 0, .start 0, .start 0, .poll false, .join 0] = some s ∧ s.py 0 = .running ∧ s.polling = true) ∧
    ∃ s, run { callbacks := false } [.acquire 0, .start 0, .stop 0, .poll false, .join 0] = some s ∧ s.poll = .absent := ⟨⟨_, rfl, rfl, rfl⟩, _, rfl, rfl⟩

/-- Who has the locks, with callbacks or without. -/
structure Locks (s : State) : Prop where
  gil : ∀ t, s.gil = some (.py t) ↔ s.py t ≠ .idle ∧ s.py t ≠ .paused
  poll : s.gil = some .poll ↔ s.poll = .callback
  mutex : ∀ t, s.mutex = some (.py t) ↔ (∃ c, s.py t = .locked c) ∨ s.py t = .callback ∨ s.py t = .paused
  mpoll : s.mutex = some .poll ↔ s.poll = .locked ∨ s.poll = .waiting ∨ s.poll = .callback
  ended : s.polling = true → s.poll ≠ .absent ∧ s.poll ≠ .ended
  absent : s.poll ≠ .absent → s.polling = true ∨ ∃ t r, s.py t = .joining r

theorem Locks.step {s s' : State} {a : Act} (h : Locks s) (e : step s a = some s') : Locks s' := by
  obtain ⟨h1, h2, h3, h4, h5, h6⟩ := h
  cases a <;> simp only [PyPoll.step, pollStep, State.set] at e
  all_goals
    repeat' (first | (simp only [Option.some.injEq] at e; subst e; constructor <;> first | grind | skip) | cases e | split at e)
  all_goals exact fun _ => .inr ⟨_, _, if_pos rfl⟩

theorem Locks.reach {cb : Bool} {s : State} (h : Reachable cb s) : Locks s := by
  obtain ⟨l, e⟩ := h
  exact run_keeps (P := Locks) (fun _ _ _ h e => h.step e) l _ s (by constructor <;> simp) e

/-- Python code runs in one thread at a time: a callback of the polling thread only while all threads of the program wait, and of those at most one. Work on the manager's connections and endpoints, and
its callbacks, are done by one thread at a time. -/
theorem one_runs (cb : Bool) (s : State) (h : Reachable cb s) :
    (s.poll = .callback → ∀ t, s.py t = .idle ∨ s.py t = .paused) ∧ (∀ t u, s.py t ≠ .idle → s.py t ≠ .paused → s.py u ≠ .idle → s.py u ≠ .paused → t = u) ∧
    (∀ t u c c', s.py t = .locked c → s.py u = .locked c' ∨ s.py u = .callback ∨ s.py u = .paused → t = u) ∧
    (s.poll = .locked ∨ s.poll = .waiting ∨ s.poll = .callback → ∀ t, (∀ c, s.py t ≠ .locked c) ∧ s.py t ≠ .callback ∧ s.py t ≠ .paused) := by
  obtain ⟨h1, h2, h3, h4, _, _⟩ := Locks.reach h
  refine ⟨?_, ?_, ?_, ?_⟩ <;> grind

/-- The polling thread is in a callback while thread 1 waits. -/
example : ∃ s, run { callbacks := true } (atCallback ++ [.release 0, .poll true]) = some s ∧ s.poll = .callback := ⟨_, rfl, rfl⟩

/-! ## Every call can hang -/

/-- A Python thread has the interpreter lock and waits for the polling thread, which waits for `mutex_`, which a thread has that waits for the interpreter lock inside a callback. -/
structure JoinStuck (t u : Nat) (s : State) : Prop where
  gil : s.gil = some (.py t)
  joining : ∃ r, s.py t = .joining r
  paused : s.py u = .paused
  mutex : s.mutex = some (.py u)
  poll : s.poll = .locking
  others : ∀ v, v ≠ t → s.py v = .idle ∨ s.py v = .paused

/-- As `MutualStuck`, wherever the polling thread is. -/
structure CallStuck (t u : Nat) (s : State) : Prop where
  gil : s.gil = some (.py t)
  locking : ∃ c, s.py t = .locking c
  paused : s.py u = .paused
  mutex : s.mutex = some (.py u)
  poll : s.poll ≠ .locked ∧ s.poll ≠ .waiting ∧ s.poll ≠ .callback
  others : ∀ v, v ≠ t → s.py v = .idle ∨ s.py v = .paused

theorem JoinStuck.step {t u : Nat} {s s' : State} {a : Act} (h : JoinStuck t u s) (e : step s a = some s') : JoinStuck t u s' := by
  obtain ⟨h1, ⟨r, h2⟩, h3, h4, h5, h6⟩ := h
  cases a <;> simp only [PyPoll.step, pollStep] at e <;> grind

theorem CallStuck.step {t u : Nat} {s s' : State} {a : Act} (h : CallStuck t u s) (e : step s a = some s') : CallStuck t u s' := by
  obtain ⟨h1, ⟨r, h2⟩, h3, h4, h5, h6⟩ := h
  cases a with
  | poll cb =>
    simp only [PyPoll.step, pollStep] at e
    split at e
    · cases e
    · cases e
      refine ⟨h1, ⟨r, h2⟩, h3, h4, ?_, h6⟩
      dsimp only
      split <;> simp
    · rw [h4, if_neg (by simp)] at e; cases e
    · exact absurd ‹_› h5.1
    · exact absurd ‹_› h5.2.1
    · exact absurd ‹_› h5.2.2
    · cases e
      exact ⟨h1, ⟨r, h2⟩, h3, h4, by simp, h6⟩
    · cases e
  | _ => simp only [PyPoll.step] at e; grind

theorem JoinStuck.hangs {t u : Nat} {s : State} (h : JoinStuck t u s) : Hangs s t ∧ InterpreterDead s := by
  constructor
  · intro l s' e
    obtain ⟨r, hr⟩ := (run_keeps (P := JoinStuck t u) (fun _ _ _ h e => h.step e) l s s' h e).joining
    rw [hr]; trivial
  · intro l s' e v
    have hs := run_keeps (P := JoinStuck t u) (fun _ _ _ h e => h.step e) l s s' h e
    by_cases hv : v = t
    · obtain ⟨r, hr⟩ := hs.joining
      rw [hv, hr]; simp
    · rcases hs.others v hv with h | h <;> rw [h] <;> simp

theorem CallStuck.hangs {t u : Nat} {s : State} (h : CallStuck t u s) : Hangs s t ∧ InterpreterDead s := by
  constructor
  · intro l s' e
    obtain ⟨r, hr⟩ := (run_keeps (P := CallStuck t u) (fun _ _ _ h e => h.step e) l s s' h e).locking
    rw [hr]; trivial
  · intro l s' e v
    have hs := run_keeps (P := CallStuck t u) (fun _ _ _ h e => h.step e) l s s' h e
    by_cases hv : v = t
    · obtain ⟨r, hr⟩ := hs.locking
      rw [hv, hr]; simp
    · rcases hs.others v hv with h | h <;> rw [h] <;> simp

theorem run_then : ∀ (l : List Act) (s : State) (k : List Act), run s (l ++ k) = (run s l).bind fun m => run m k := by
  intro l
  induction l with
  | nil => intro s k; rfl
  | cons x l ih =>
    intro s k
    simp only [List.cons_append, run]
    cases step s x with
    | none => rfl
    | some m => simp [ih]

theorem callbacks_kept {cb : Bool} {s : State} (h : Reachable cb s) : s.callbacks = cb := by
  obtain ⟨l, e⟩ := h
  refine run_keeps (P := fun s => s.callbacks = cb) ?_ l _ s rfl e
  intro s a s' h e
  cases a <;> simp only [PyPoll.step, pollStep, State.set] at e <;> grind

/-- While a Python thread runs, the polling thread alone can get to where it waits for the interpreter lock with `mutex_`, or, if a thread is in a callback with `mutex_`, to where it waits for that. -/
theorem poll_gets_stuck (s : State) (h : Reachable true s) (t : Nat) (ht : s.py t = .running) (hp : s.polling = true) :
    ∃ (l : List Act) (m : State), (∀ a ∈ l, ∃ b, a = .poll b) ∧ run s l = some m ∧ m.py = s.py ∧ m.polling = true ∧ m.gil = some (.py t) ∧
      ((m.poll = .waiting ∧ m.mutex = some .poll) ∨ ∃ u, m.poll = .locking ∧ m.py u = .paused ∧ m.mutex = some (.py u)) := by
  have hl := Locks.reach h
  have hcb := callbacks_kept h
  have hg : s.gil = some (.py t) := (hl.gil t).mpr (by rw [ht]; simp)
  have other : ∀ u, u ≠ t → s.py u = .idle ∨ s.py u = .paused := by
    intro u hu
    refine Classical.byContradiction fun hc => ?_
    have := (hl.gil u).mpr ⟨fun h => hc (.inl h), fun h => hc (.inr h)⟩
    rw [hg] at this
    simp only [Option.some.injEq, Tid.py.injEq] at this
    exact hu this.symm
  have hne := hl.ended hp
  have owner : ∀ x, s.mutex = some x → x = .poll ∨ ∃ u, x = .py u ∧ s.py u = .paused := by
    intro x hx
    cases x with
    | poll => exact .inl rfl
    | py u =>
      right
      refine ⟨u, rfl, ?_⟩
      rcases (hl.mutex u).mp hx with ⟨c, hc⟩ | hc | hc
      · by_cases hu : u = t
        · rw [hu, ht] at hc; cases hc
        · rcases other u hu with h | h <;> rw [h] at hc <;> cases hc
      · by_cases hu : u = t
        · rw [hu, ht] at hc; cases hc
        · rcases other u hu with h | h <;> rw [h] at hc <;> cases hc
      · exact hc
  have fromLocking : ∀ m : State, m.py = s.py → m.polling = true → m.gil = s.gil → m.mutex = s.mutex → m.callbacks = true → m.poll = .locking → s.mutex ≠ some .poll →
      ∃ (l : List Act) (m' : State), (∀ a ∈ l, ∃ b, a = .poll b) ∧ run m l = some m' ∧ m'.py = s.py ∧ m'.polling = true ∧ m'.gil = some (.py t) ∧
        ((m'.poll = .waiting ∧ m'.mutex = some .poll) ∨ ∃ u, m'.poll = .locking ∧ m'.py u = .paused ∧ m'.mutex = some (.py u)) := by
    intro m m1 m2 m3 m4 m5 m6 hnp
    cases hx : s.mutex with
    | none =>
      refine ⟨[.poll false, .poll true], { m with poll := .waiting, mutex := some .poll }, by simp, ?_, m1, m2, by rw [← hg, ← m3], .inl ⟨rfl, rfl⟩⟩
      simp [run, PyPoll.step, pollStep, m6, m4, hx, m5]
    | some x =>
      rcases owner x hx with rfl | ⟨u, rfl, hu⟩
      · exact absurd hx hnp
      · exact ⟨[], m, by simp, rfl, m1, m2, by rw [m3, hg], .inr ⟨u, m6, by rw [m1, hu], by rw [m4, hx]⟩⟩
  cases hq : s.poll with
  | absent => exact absurd hq hne.1
  | ended => exact absurd hq hne.2
  | waiting => exact ⟨[], s, by simp, rfl, rfl, hp, hg, .inl ⟨hq, hl.mpoll.mpr (by rw [hq]; simp)⟩⟩
  | callback => rw [hl.poll.mpr hq] at hg; cases hg
  | locked =>
    refine ⟨[.poll true], { s with poll := .waiting }, by simp, ?_, rfl, hp, hg, .inl ⟨rfl, hl.mpoll.mpr (by rw [hq]; simp)⟩⟩
    simp [run, PyPoll.step, pollStep, hq, hcb]
  | locking => exact fromLocking s rfl hp rfl rfl hcb hq (fun h => by have := hl.mpoll.mp h; rw [hq] at this; simp at this)
  | test =>
    obtain ⟨l, m, h1, h2, h3⟩ := fromLocking { s with poll := .locking } rfl hp rfl rfl hcb rfl (fun h => by have := hl.mpoll.mp h; rw [hq] at this; simp at this)
    refine ⟨.poll false :: l, m, ?_, ?_, h3⟩
    · intro a ha
      rcases List.mem_cons.mp ha with rfl | ha
      · exact ⟨_, rfl⟩
      · exact h1 a ha
    · simp only [run, PyPoll.step, pollStep, hq, hp, if_true, Option.bind_some]; simpa [hp] using h2
  | sleeping =>
    obtain ⟨l, m, h1, h2, h3⟩ := fromLocking { s with poll := .locking } rfl hp rfl rfl hcb rfl (fun h => by have := hl.mpoll.mp h; rw [hq] at this; simp at this)
    refine ⟨.poll false :: .poll false :: l, m, ?_, ?_, h3⟩
    · intro a ha
      rcases List.mem_cons.mp ha with rfl | ha
      · exact ⟨_, rfl⟩
      · rcases List.mem_cons.mp ha with rfl | ha
        · exact ⟨_, rfl⟩
        · exact h1 a ha
    · simp only [run, PyPoll.step, pollStep, hq, hp, if_true, Option.bind_some]; simpa [hp] using h2

/-- **C76 fails every time:** whenever a Python thread runs while the manager polls in its own thread, and there is a Python logger or factory, the polling thread can make such steps that a stop (also the one
of a second start), and any other call of the manager, hangs, and with it the whole interpreter. -/
theorem every_call_can_hang (s : State) (h : Reachable true s) (t : Nat) (ht : s.py t = .running) (hp : s.polling = true) :
    ∃ l : List Act, (∀ a ∈ l, ∃ b, a = .poll b) ∧ ∀ a : Act, (a = .stop t ∨ a = .start t ∨ ∃ c, a = .call t c) → ∃ s', run s (l ++ [a]) = some s' ∧ Hangs s' t ∧ InterpreterDead s' := by
  obtain ⟨l, m, h1, h2, h3, h4, h5, h6⟩ := poll_gets_stuck s h t ht hp
  have hl := Locks.reach h
  have other : ∀ u, u ≠ t → m.py u = .idle ∨ m.py u = .paused := by
    intro u hu
    have hm : Locks m := run_keeps (P := Locks) (fun _ _ _ h e => h.step e) l s m hl h2
    refine Classical.byContradiction fun hc => ?_
    have := (hm.gil u).mpr ⟨fun h => hc (.inl h), fun h => hc (.inr h)⟩
    rw [h5] at this
    simp only [Option.some.injEq, Tid.py.injEq] at this
    exact hu this.symm
  have htm : m.py t = .running := by rw [h3, ht]
  have set_other : ∀ (p : Pc) (u : Nat), u ≠ t → (m.set t p).py u = .idle ∨ (m.set t p).py u = .paused := by
    intro p u hu
    simp only [State.set, hu, if_false]
    exact other u hu
  refine ⟨l, h1, ?_⟩
  intro a ha
  have join : ∀ r, ∃ s', some { m.set t (.joining r) with polling := false } = some s' ∧ Hangs s' t ∧ InterpreterDead s' := by
    intro r
    refine ⟨_, rfl, ?_⟩
    rcases h6 with ⟨k1, k2⟩ | ⟨u, k1, k2, k3⟩
    · exact StopStuck.hangs ⟨h5, ⟨r, by simp [State.set]⟩, k1, set_other _⟩
    · have hut : u ≠ t := by rintro rfl; rw [htm] at k2; cases k2
      exact JoinStuck.hangs (u := u) ⟨h5, ⟨r, by simp [State.set]⟩, by simp [State.set, hut, k2], k3, k1, set_other _⟩
  have one : run s (l ++ [a]) = step m a := by
    rw [run_then l s [a], h2]
    simp [run]
  rw [one]
  rcases ha with rfl | rfl | ⟨c, rfl⟩
  · simp only [PyPoll.step, htm, h4, if_true]; exact join false
  · simp only [PyPoll.step, htm, h4, if_true]; exact join true
  · simp only [PyPoll.step, htm, if_true]
    refine ⟨_, rfl, ?_⟩
    rcases h6 with ⟨k1, k2⟩ | ⟨u, k1, k2, k3⟩
    · exact LockStuck.hangs ⟨h5, ⟨c, by simp [State.set]⟩, k1, k2, set_other _⟩
    · have hut : u ≠ t := by rintro rfl; rw [htm] at k2; cases k2
      exact CallStuck.hangs (u := u) ⟨h5, ⟨c, by simp [State.set]⟩, by simp [State.set, hut, k2], k3, by simp [State.set, k1], set_other _⟩

/-- Without the polling thread: whenever a Python thread runs while another is inside a callback of `manage()`, a call of the manager hangs. -/
theorem every_second_call_hangs (s : State) (h : Reachable true s) (t u : Nat) (ht : s.py t = .running) (hu : s.py u = .paused) (c : Call) :
    ∃ s', step s (.call t c) = some s' ∧ Hangs s' t ∧ InterpreterDead s' := by
  have hl := Locks.reach h
  have hg : s.gil = some (.py t) := (hl.gil t).mpr (by rw [ht]; simp)
  have hm := (hl.mutex u).mpr (.inr (.inr hu))
  have hut : u ≠ t := by rintro rfl; rw [ht] at hu; cases hu
  refine ⟨s.set t (.locking c), by simp [PyPoll.step, ht], CallStuck.hangs (u := u) ⟨hg, ⟨c, by simp [State.set]⟩, by simp [State.set, hut, hu], hm, ?_, ?_⟩⟩
  · have : s.mutex ≠ some .poll := by rw [hm]; simp
    exact ⟨fun e => this (hl.mpoll.mpr (.inl e)), fun e => this (hl.mpoll.mpr (.inr (.inl e))), fun e => this (hl.mpoll.mpr (.inr (.inr e)))⟩
  · intro v hv
    simp only [State.set, hv, if_false]
    refine Classical.byContradiction fun hc => ?_
    have := (hl.gil v).mpr ⟨fun h => hc (.inl h), fun h => hc (.inr h)⟩
    rw [hg] at this
    simp only [Option.some.injEq, Tid.py.injEq] at this
    exact hv this.symm

/-- A thread runs while the manager polls, and one while another is in a callback. -/
example : (∃ s, run { callbacks := true } [.acquire 0, .start 0, .poll false] = some s ∧ s.py 0 = .running ∧ s.polling = true) ∧
    ∃ s, run { callbacks := true } [.acquire 1, .call 1 .manage, .lock 1, .enterCallback 1, .release 1, .acquire 0] = some s ∧ s.py 0 = .running ∧ s.py 1 = .paused := ⟨⟨_, rfl, rfl, rfl⟩, _, rfl, rfl, rfl⟩

/-! ## Exactly when calls hang -/

/-- A call that waits, with the interpreter lock, for a thread that waits for the interpreter lock: for `mutex_`, or for the end of the polling thread. -/
def Blocked (s : State) (t : Nat) : Prop :=
  (∃ c, s.py t = .locking c) ∧ (s.poll = .waiting ∨ ∃ u, s.py u = .paused) ∨ (∃ r, s.py t = .joining r) ∧ (s.poll = .waiting ∨ s.poll = .locking ∧ ∃ u, s.py u = .paused)

theorem Blocked.step {t : Nat} {s s' : State} {a : Act} (hi : Locks s) (h : Blocked s t) (e : PyPoll.step s a = some s') : Blocked s' t ∧ ∀ u, s'.py u = s.py u := by
  have hne : s.py t ≠ .idle ∧ s.py t ≠ .paused := by
    rcases h with ⟨⟨c, h⟩, -⟩ | ⟨⟨c, h⟩, -⟩ <;> simp [h]
  have hgil := (hi.gil t).mpr hne
  have ho : ∀ u, u ≠ t → s.py u = .idle ∨ s.py u = .paused := fun u hu => Classical.byContradiction fun hc => by
    have h1 := (hi.gil u).mpr (by simpa using hc)
    rw [hgil] at h1
    simp only [Option.some.injEq, Tid.py.injEq] at h1
    exact hu h1.symm
  obtain ⟨h1, h2, h3, h4, h5, h6⟩ := hi
  unfold Blocked at h ⊢
  cases a <;> simp only [PyPoll.step, pollStep, State.set] at e
  all_goals
    repeat' (first | (simp only [Option.some.injEq] at e; subst e; first | grind | skip) | (cases e; done) | split at e)

/-- A thread that waits for the polling thread has told it to end, and it exists. -/
theorem joining_reach {cb : Bool} {s : State} (h : Reachable cb s) : ∀ t r, s.py t = .joining r → s.polling = false ∧ s.poll ≠ .absent := by
  obtain ⟨l, e⟩ := h
  refine (run_keeps (P := fun s => Locks s ∧ ∀ t r, s.py t = .joining r → s.polling = false ∧ s.poll ≠ .absent) (fun s a s' h e => ⟨h.1.step e, ?_⟩) l _ s ⟨by constructor <;> simp, by simp⟩ e).2
  obtain ⟨⟨h1, h2, h3, h4, h5, h6⟩, h7⟩ := h
  cases a <;> simp only [PyPoll.step, pollStep, State.set] at e
  all_goals
    repeat' (first | (simp only [Option.some.injEq] at e; subst e; first | grind | skip) | (cases e; done) | split at e)

/-- A call that has the interpreter lock and is not blocked returns, if the thread is left to itself and the polling thread. -/
theorem returns_of_not_blocked {s : State} (hi : Locks s) (hj : ∀ t r, s.py t = .joining r → s.polling = false ∧ s.poll ≠ .absent) {v : Nat} (hg : s.py v ≠ .idle ∧ s.py v ≠ .paused) (hb : ¬ Blocked s v) :
    ∃ l s', run s l = some s' ∧ s'.py v = .running ∧ ∀ u, u ≠ v → s'.py u = s.py u := by
  have hgil := (hi.gil v).mpr hg
  have hcb : s.poll ≠ .callback := fun h => by
    have := hi.poll.mpr h
    rw [hgil] at this
    cases this
  have mutex : (∀ u, s.py u ≠ .paused) → s.poll ≠ .locked → s.poll ≠ .waiting → (∀ c, s.py v ≠ .locked c) → s.py v ≠ .callback → s.mutex = none := fun h1 h2 h3 h4 h5 => by
    cases hm : s.mutex with
    | none => rfl
    | some x =>
      cases x with
      | poll => rcases hi.mpoll.mp hm with h | h | h <;> contradiction
      | py u =>
        have hu := (hi.mutex u).mp hm
        by_cases huv : u = v
        · subst huv
          rcases hu with ⟨c, h⟩ | h | h
          · exact absurd h (h4 c)
          · exact absurd h h5
          · exact absurd h (h1 u)
        · have hn : s.py u ≠ .idle ∧ s.py u ≠ .paused := ⟨by rcases hu with ⟨c, h⟩ | h | h <;> simp [h], h1 u⟩
          have := (hi.gil u).mpr hn
          rw [hgil] at this
          simp only [Option.some.injEq, Tid.py.injEq] at this
          exact absurd this.symm huv
  unfold Blocked at hb
  simp only [not_or, not_and, not_exists] at hb
  obtain ⟨hb1, hb2⟩ := hb
  cases hq : s.py v with
  | idle => exact absurd hq hg.1
  | paused => exact absurd hq hg.2
  | running => exact ⟨[], s, rfl, hq, fun _ _ => rfl⟩
  | locked c => exact ⟨[.unlock v], _, by simp [run, PyPoll.step, hq, State.set]; rfl, by simp, fun u hu => by simp [hu]⟩
  | callback => exact ⟨[.leaveCallback v, .unlock v], _, by simp [run, PyPoll.step, hq, State.set]; rfl, by simp, fun u hu => by simp [hu]⟩
  | locking c =>
    obtain ⟨h1, h2⟩ := hb1 ⟨c, hq⟩
    by_cases hl : s.poll = .locked
    · exact ⟨[.poll false, .lock v, .unlock v], _, by simp [run, PyPoll.step, pollStep, hl, hq, State.set]; rfl, by simp, fun u hu => by simp [hu]⟩
    · have hm := mutex h2 hl h1 (by simp [hq]) (by simp [hq])
      exact ⟨[.lock v, .unlock v], _, by simp [run, PyPoll.step, hm, hq, State.set]; rfl, by simp, fun u hu => by simp [hu]⟩
  | joining r =>
    obtain ⟨h1, h2⟩ := hb2 ⟨r, hq⟩
    obtain ⟨hp, ha⟩ := hj v r hq
    -- once the thread has ended
    have fin : ∀ m : State, m.py = s.py → m.poll = .ended → ∃ s', run m [.join v] = some s' ∧ s'.py v = .running ∧ ∀ u, u ≠ v → s'.py u = s.py u := by
      intro m e1 e2
      cases r with
      | true => exact ⟨{ m.set v .running with polling := true, poll := .test }, by simp [run, PyPoll.step, e1, hq, e2], by simp [State.set], fun u hu => by simp [State.set, hu, e1]⟩
      | false => exact ⟨{ m.set v .running with poll := .absent }, by simp [run, PyPoll.step, e1, hq, e2], by simp [State.set], fun u hu => by simp [State.set, hu, e1]⟩
    have go : ∀ (l : List Act) (m : State), run s l = some m → m.py = s.py → m.poll = .ended → ∃ l s', run s l = some s' ∧ s'.py v = .running ∧ ∀ u, u ≠ v → s'.py u = s.py u := by
      intro l m e e1 e2
      obtain ⟨s', e3, h⟩ := fin m e1 e2
      exact ⟨l ++ [.join v], s', run_append e e3, h⟩
    cases hw : s.poll with
    | absent => exact absurd hw ha
    | waiting => exact absurd hw h1
    | callback => exact absurd hw hcb
    | test => exact go [.poll false] { s with poll := .ended } (by simp [run, PyPoll.step, pollStep, hw, hp]) rfl rfl
    | sleeping => exact go [.poll false, .poll false] { s with poll := .ended } (by simp [run, PyPoll.step, pollStep, hw, hp]) rfl rfl
    | ended => exact go [] s rfl rfl hw
    | locked => exact go [.poll false, .poll false, .poll false] { s with poll := .ended, mutex := none } (by simp [run, PyPoll.step, pollStep, hw, hp]) rfl rfl
    | locking =>
      have hm := mutex (h2 hw) (by simp [hw]) (by simp [hw]) (by simp [hq]) (by simp [hq])
      exact go [.poll false, .poll false, .poll false, .poll false] { s with poll := .ended, mutex := none } (by simp [run, PyPoll.step, pollStep, hw, hp, hm]) rfl rfl

/-- **C76, exactly.** A call never returns if and only if it is blocked, or it was interrupted in a callback while another call is blocked. -/
theorem hangs_iff (cb : Bool) (s : State) (h : Reachable cb s) (t : Nat) (ht : InCall (s.py t)) : Hangs s t ↔ Blocked s t ∨ s.py t = .paused ∧ ∃ v, Blocked s v := by
  have hi := Locks.reach h
  have hj := joining_reach h
  have hne : s.py t ≠ .idle := fun e => by rw [e] at ht; exact ht
  constructor
  · intro hh
    have done : ∀ l s', run s l = some s' → s'.py t ≠ .running := fun l s' e h' => by
      have := hh l s' e
      rw [h'] at this
      exact this
    refine Classical.byContradiction fun hn => ?_
    simp only [not_or, not_and, not_exists] at hn
    obtain ⟨hn1, hn2⟩ := hn
    by_cases hq : s.py t = .paused
    · have key : ∀ (l : List Act) (m : State), run s l = some m → m.py t = .paused → m.gil = none → False := by
        intro l m e h1 h2
        refine done (l ++ [.acquire t, .leaveCallback t, .unlock t]) _ (run_append e (by simp [run, PyPoll.step, h1, h2, State.set]; rfl)) ?_
        simp
      cases hgil : s.gil with
      | none => exact key [] s rfl hq hgil
      | some x =>
        cases x with
        | poll =>
          have h1 := hi.mpoll.mpr (.inr (.inr (hi.poll.mp hgil)))
          rw [(hi.mutex t).mpr (.inr (.inr hq))] at h1
          cases h1
        | py v =>
          have hgv := (hi.gil v).mp hgil
          have hvt : t ≠ v := fun e => by subst e; exact hgv.2 hq
          obtain ⟨l, m, e, h1, h2⟩ := returns_of_not_blocked hi hj hgv (hn2 hq v)
          exact key (l ++ [.release v]) { m.set v .idle with gil := none } (run_append e (by simp [run, PyPoll.step, h1])) (by simp [State.set, hvt, h2 t hvt, hq]) rfl
    · obtain ⟨l, m, e, h1, _⟩ := returns_of_not_blocked hi hj ⟨hne, hq⟩ hn1
      exact done l m e h1
  · intro hb l s' e
    have stays : ∀ v, Blocked s v → s'.py t = s.py t := fun v hv =>
      (run_keeps (P := fun m => Locks m ∧ Blocked m v ∧ ∀ u, m.py u = s.py u) (fun _ _ _ h e => ⟨h.1.step e, (h.2.1.step h.1 e).1, fun u => ((h.2.1.step h.1 e).2 u).trans (h.2.2 u)⟩) l s s'
        ⟨hi, hv, fun _ => rfl⟩ e).2.2 t
    rcases hb with hb | ⟨-, v, hb⟩
    · rw [stays t hb]; exact ht
    · rw [stays v hb]; exact ht

/-- All cases occur: a thread is interrupted in a callback of `manage()`, and another calls `endpoints()`. -/
example : ∃ s, Reachable true s ∧ Blocked s 0 ∧ s.py 1 = .paused :=
  ⟨_, ⟨[.acquire 1, .call 1 .manage, .lock 1, .enterCallback 1, .release 1, .acquire 0, .call 0 .endpoints], rfl⟩, .inl ⟨⟨.endpoints, rfl⟩, .inr ⟨1, rfl⟩⟩, rfl⟩

end Scalopus.C76
