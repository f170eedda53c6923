import Verif.Model.PyServer

/-!
# C87: the server for the viewer, used from Python
-/

namespace Scalopus.C87

open PyServer

/-- The state can be reached by a program that has, or has not, set a logger from Python. -/
def Reachable (python : Bool) (s : State) : Prop := ∃ l, run { python := python } l = some s

/-- The destructor that thread `t` runs never returns, whatever happens from now on. -/
def Hangs (s : State) (t : Nat) : Prop := ∀ l s', run s l = some s' → s'.py t = .joining

/-- No thread ever runs Python code again. -/
def InterpreterDead (s : State) : Prop := ∀ l s', run s l = some s' → ∀ t, s'.py t ≠ .running

/-- **C87** in full: the destruction of the server can always still return, and Python objects are touched only with the interpreter lock. -/
def Safe : Prop := ∀ python s, Reachable python s → (∀ t, s.py t = .joining → ¬ Hangs s t) ∧ ∀ b ∈ s.touches, b = true

theorem run_cons {s s' : State} {a : Act} {l : List Act} (h : run s (a :: l) = some s') : ∃ m, step s a = some m ∧ run m l = some s' := by
  simp only [run, Option.bind_eq_some_iff] at h
  exact h

theorem run_keeps {P : State → Prop} (hp : ∀ s a s', P s → step s a = some s' → P s') : ∀ (l : List Act) (s s' : State), P s → run s l = some s' → P s' := by
  intro l
  induction l with
  | nil => intro s s' h e; simp only [run, Option.some.injEq] at e; exact e ▸ h
  | cons a l ih =>
    intro s s' h e
    obtain ⟨m, e1, e2⟩ := run_cons e
    exact ih m s' (hp s a m h e1) e2

/-- The destructor has the interpreter lock, for which the server's thread waits. -/
structure Stuck (t : Nat) (s : State) : Prop where
  gil : s.gil = some (.py t)
  pc : s.py t = .joining
  waiting : ∃ c, s.loop = .waiting c
  others : ∀ u, u ≠ t → s.py u = .idle

theorem Stuck.step {t : Nat} {s s' : State} {a : Act} (h : Stuck t s) (e : step s a = some s') : Stuck t s' := by
  obtain ⟨h1, h2, ⟨n, h3⟩, h4⟩ := h
  cases a <;> simp only [PyServer.step, serverStep, State.set] at e <;> grind

theorem Stuck.hangs {t : Nat} {s : State} (h : Stuck t s) : Hangs s t ∧ InterpreterDead s := by
  constructor
  · intro l s' e
    exact (run_keeps (P := Stuck t) (fun _ _ _ h e => h.step e) l s s' h e).pc
  · intro l s' e u
    have hs := run_keeps (P := Stuck t) (fun _ _ _ h e => h.step e) l s s' h e
    by_cases hu : u = t
    · rw [hu, hs.pc]; simp
    · rw [hs.others u hu]; simp

/-- What holds in every state that can be reached. -/
structure Inv (python : Bool) (s : State) : Prop where
  isPython : s.python = python
  gil : ∀ t, s.gil = some (.py t) ↔ s.py t ≠ .idle
  gil' : s.gil = some .server ↔ ∃ c, s.loop = .logging c
  native : python = false → (∀ c, s.loop ≠ .waiting c ∧ s.loop ≠ .logging c) ∧ s.touches = []
  ended : s.terminate = false → s.loop ≠ .ended ∧ s.loop ≠ .gone
  joining : ∀ t, s.py t = .joining → s.terminate = true ∧ s.loop ≠ .gone

theorem Inv.init (python : Bool) : Inv python { python := python } := by
  constructor <;> simp

theorem Inv.step {python : Bool} {s s' : State} {a : Act} (h : Inv python s) (e : step s a = some s') : Inv python s' := by
  obtain ⟨h1, h2, h3, h4, h5, h6⟩ := h
  cases a <;> simp only [PyServer.step, serverStep, State.set] at e
  all_goals
    repeat' (first | (simp only [Option.some.injEq] at e; subst e; constructor <;> first | grind | skip) | (cases e; done) | split at e)

theorem Inv.reach {python : Bool} {s : State} (h : Reachable python s) : Inv python s := by
  obtain ⟨l, e⟩ := h
  exact run_keeps (P := Inv python) (fun _ _ _ h e => h.step e) l _ s (.init python) e

theorem Inv.others {python : Bool} {s : State} (h : Inv python s) {t : Nat} (ht : s.py t ≠ .idle) {u : Nat} (hu : u ≠ t) : s.py u = .idle := by
  refine Classical.byContradiction fun hc => ?_
  have h1 := (h.gil u).mpr hc
  rw [(h.gil t).mpr ht] at h1
  simp only [Option.some.injEq, Tid.py.injEq] at h1
  exact hu h1.symm

/-- **C87 fails:** whenever the server's thread waits for the interpreter lock to log something, and the thread that has it drops the server, the destructor hangs, and with it the whole interpreter. -/
theorem destroy_hangs (s s' : State) (h : Reachable true s) (t : Nat) (c : Bool) (hw : s.loop = .waiting c) (e : step s (.destroy t) = some s') : Hangs s' t ∧ InterpreterDead s' := by
  have hi := Inv.reach h
  apply Stuck.hangs
  simp only [step] at e
  split at e
  · rename_i hc
    simp only [Option.some.injEq] at e
    subst e
    refine ⟨(hi.gil t).mpr (by simp [hc.1]), by simp [State.set], ⟨c, hw⟩, ?_⟩
    intro u hu
    simp only [State.set, hu, if_false]
    exact hi.others (t := t) (by simp [hc.1]) hu
  · cases e

/-- A connection opens while a Python thread has the interpreter lock. -/
def opened : List Act := [.acquire 0, .server false, .event .connect]

example : ∃ s s', run { python := true } opened = some s ∧ s.loop = .waiting true ∧ step s (.destroy 0) = some s' := ⟨_, _, rfl, rfl, rfl⟩

/-- **C87 fails:** every new connection makes the server's thread copy the Python logger without the interpreter lock. -/
theorem copied_without_lock (s : State) (h : Reachable true s) (hc : s.loop = .copying) : ∃ s', step s (.server false) = some s' ∧ s'.touches = s.touches ++ [false] := by
  have hi := Inv.reach h
  have hg : s.gil ≠ some .server := by
    intro hg
    obtain ⟨c, hc'⟩ := hi.gil'.mp hg
    rw [hc] at hc'
    cases hc'
  refine ⟨{ s with loop := .test, touches := s.touches ++ [false] }, ?_, rfl⟩
  simp [step, serverStep, hc, hi.isPython, hg]

example : ∃ s, run { python := true } [.server false, .event .connect, .server false, .server false] = some s ∧ s.loop = .copying := ⟨_, rfl, rfl⟩

theorem not_Safe : ¬ Safe := by
  intro h
  have h1 := (h true _ ⟨opened ++ [.destroy 0], rfl⟩).1 0 rfl
  exact h1 (destroy_hangs _ _ ⟨opened, rfl⟩ 0 true rfl rfl).1

/-! ## Without a logger from Python -/

/-- How many steps the server's thread takes at most to end, once it is told to. -/
def toEnd (s : State) : Nat :=
  match s.loop with
  | .test => 1
  | .polling => 2
  | .copying => 2
  | _ => 0

theorem joining_enabled {s : State} {t : Nat} (h : Inv false s) (hj : s.py t = .joining) :
    ∃ s', (step s (.server false) = some s' ∨ step s (.join t) = some s') ∧ (s'.py t = .running ∨ (s'.py t = .joining ∧ toEnd s' < toEnd s)) := by
  obtain ⟨ht, hp⟩ := h.joining t hj
  have hn := (h.native rfl).1
  cases hq : s.loop with
  | test => exact ⟨{ s with loop := .ended }, .inl (by simp [step, serverStep, hq, ht]), .inr ⟨hj, by simp [toEnd, hq]⟩⟩
  | polling => exact ⟨{ s with loop := .test }, .inl (by simp [step, serverStep, hq, ht]), .inr ⟨hj, by simp [toEnd, hq]⟩⟩
  | waiting c => exact absurd hq (hn c).1
  | logging c => exact absurd hq (hn c).2
  | copying => exact ⟨{ s with loop := .test }, .inl (by simp [step, serverStep, hq, h.isPython]), .inr ⟨hj, by simp [toEnd, hq]⟩⟩
  | ended => exact ⟨{ s.set t .running with loop := .gone }, .inr (by simp [step, hj, hq]), .inl (by simp [State.set])⟩
  | gone => exact absurd hq hp

/-- **C87, partial.** Without a logger from Python the destruction of the server can always still return, and the server's thread never touches a Python object. Missing: loggers set from Python,
    see `destroy_hangs` and `copied_without_lock`. -/
theorem safe_partial (s : State) (h : Reachable false s) : (∀ t, s.py t = .joining → ¬ Hangs s t) ∧ s.touches = [] := by
  refine ⟨?_, ((Inv.reach h).native rfl).2⟩
  intro t hj hh
  have key : ∀ n (s : State), Inv false s → s.py t = .joining → toEnd s = n → ∃ l s', run s l = some s' ∧ s'.py t = .running := by
    intro n
    induction n using Nat.strongRecOn with
    | _ n ih =>
      intro s hi hj hn
      obtain ⟨m, e, hm⟩ := joining_enabled hi hj
      obtain ⟨a, e⟩ : ∃ a, step s a = some m := e.elim (fun e => ⟨_, e⟩) (fun e => ⟨_, e⟩)
      rcases hm with h' | ⟨h', h''⟩
      · exact ⟨[a], m, by simp [run, e], h'⟩
      · obtain ⟨l, s', e', hr⟩ := ih (toEnd m) (hn ▸ h'') m (hi.step e) h' rfl
        exact ⟨a :: l, s', by simp [run, e, e'], hr⟩
  obtain ⟨l, s', e, hr⟩ := key _ s (Inv.reach h) hj rfl
  have := hh l s' e
  rw [hr] at this
  cases this

/-- The same connection and destruction without a Python logger. -/
example : ∃ s, run { python := false } (opened ++ [.destroy 0]) = some s ∧ s.py 0 = .joining ∧ ∃ s', run s [.server false, .server false, .join 0] = some s' ∧ s'.py 0 = .running := ⟨_, rfl, rfl, _, rfl, rfl⟩

/-- **C87, exactly.** The destruction never returns if and only if the logger was set from Python and the server's thread waits for the interpreter lock to call it. -/
theorem hangs_iff (python : Bool) (s : State) (h : Reachable python s) (t : Nat) (ht : s.py t = .joining) : Hangs s t ↔ python = true ∧ ∃ c, s.loop = .waiting c := by
  have hi := Inv.reach h
  obtain ⟨h1, h2⟩ := hi.joining t ht
  constructor
  · intro hh
    have done : ∀ l s', run s l = some s' → s'.py t ≠ .running := fun l s' e h' => by
      have := hh l s' e
      rw [h'] at this
      cases this
    cases python with
    | false => exact absurd hh ((safe_partial s h).1 t ht)
    | true =>
      refine ⟨rfl, ?_⟩
      cases hw : s.loop with
      | waiting c => exact ⟨c, rfl⟩
      | logging c =>
        have := hi.gil'.mpr ⟨c, hw⟩
        rw [(hi.gil t).mpr (by simp [ht])] at this
        cases this
      | gone => exact absurd hw h2
      | ended => exact (done [.join t] { s.set t .running with loop := .gone } (by simp [run, step, ht, hw]) (by simp [State.set])).elim
      | test => exact (done [.server false, .join t] _ (by simp [run, step, serverStep, ht, hw, h1, State.set]; rfl) (by simp)).elim
      | polling => exact (done [.server false, .server false, .join t] _ (by simp [run, step, serverStep, ht, hw, h1, State.set]; rfl) (by simp)).elim
      | copying => exact (done [.server false, .server false, .join t] _ (by simp [run, step, serverStep, ht, hw, h1, State.set]; rfl) (by simp)).elim
  · rintro ⟨rfl, c, hw⟩
    exact (Stuck.hangs ⟨(hi.gil t).mpr (by simp [ht]), ht, ⟨c, hw⟩, fun u hu => hi.others (t := t) (by simp [ht]) hu⟩).1

/-- With a logger from Python, a destruction that hangs and one that can return. -/
example : (∃ s, Reachable true s ∧ s.py 0 = .joining ∧ s.loop = .waiting true) ∧ ∃ s, Reachable true s ∧ s.py 0 = .joining ∧ s.loop = .polling :=
  ⟨⟨_, ⟨opened ++ [.destroy 0], rfl⟩, rfl, rfl⟩, ⟨_, ⟨[.acquire 0, .server false, .destroy 0], rfl⟩, rfl, rfl⟩⟩

end Scalopus.C87
