import Verif.Model.PyViewer

/-!
# C103: a server with providers written in Python is destroyed safely
-/

namespace Scalopus.C103

open PyViewer

def Reachable (python : Bool) (s : State) : Prop := ∃ l, run { python := python } l = some s

/-- The destructor that thread `t` runs never returns, whatever happens from now on. -/
def Hangs (s : State) (t : Nat) : Prop := ∀ l s', run s l = some s' → s'.py t = .joining

/-- No Python code runs again in any thread, whatever happens from now on. -/
def InterpreterDead (s : State) : Prop :=
  ∀ l s', run s l = some s' → (∀ u, s'.py u ≠ .running) ∧ (∀ x ∈ s'.sessions, x.pc ≠ .method) ∧ s'.loop ≠ .inMake ∧ ∀ n c, s'.loop ≠ .inRelease n c

/-- **C103** in full: the destruction of the server from Python can always still return. -/
def Safe : Prop := ∀ python s, Reachable python s → ∀ t, s.py t = .joining → ¬ Hangs s t

theorem run_cons {s s' : State} {a : Act} {l : List Act} (h : run s (a :: l) = some s') : ∃ m, step s a = some m ∧ run m l = some s' := by
  simp only [run, Option.bind_eq_some_iff] at h
  exact h

theorem run_append {s m s' : State} {l k : List Act} (h : run s l = some m) (h' : run m k = some s') : run s (l ++ k) = some s' := by
  induction l generalizing s with
  | nil => simp only [run, Option.some.injEq] at h; exact h ▸ h'
  | cons a l ih =>
    obtain ⟨n, e1, e2⟩ := run_cons h
    simp only [List.cons_append, run, e1, Option.bind_some]
    exact ih e2

theorem run_keeps {P : State → Prop} (hp : ∀ s a s', P s → step s a = some s' → P s') : ∀ (l : List Act) (s s' : State), P s → run s l = some s' → P s' := by
  intro l
  induction l with
  | nil => intro s s' h e; simp only [run, Option.some.injEq] at e; exact e ▸ h
  | cons a l ih =>
    intro s s' h e
    obtain ⟨m, e1, e2⟩ := run_cons e
    exact ih m s' (hp s a m h e1) e2

/-- What the server's thread needs while it destroys a session. -/
def Destroying (s : State) (n : Nat) : Prop := (∃ x ∈ s.sessions, x.id = n) ∧ ∀ x ∈ s.sessions, x.id = n → x.stop = true

structure Inv (s : State) : Prop where
  gilPy : ∀ t, s.gil = some (.py t) ↔ s.py t ≠ .idle
  gilServer : s.gil = some .server ↔ (s.loop = .inMake ∨ ∃ n c, s.loop = .inRelease n c)
  gilSession : ∀ x ∈ s.sessions, x.pc = .method → s.gil = some (.session x.id)
  stopping : ∀ n c, s.loop = .stopping n c ∨ s.loop = .releasing n c ∨ s.loop = .inRelease n c → Destroying s n
  native : s.python = false → s.loop ≠ .making ∧ s.loop ≠ .inMake ∧ (∀ n c, s.loop ≠ .releasing n c ∧ s.loop ≠ .inRelease n c) ∧ ∀ x ∈ s.sessions, x.pc = .loop ∨ x.pc = .ended
  joining : ∀ t, s.py t = .joining → s.terminate = true ∧ s.loop ≠ .gone
  going : s.terminate = false → s.loop ≠ .ended ∧ s.loop ≠ .gone ∧ s.loop ≠ .closing ∧ ∀ n, s.loop ≠ .stopping n true ∧ s.loop ≠ .releasing n true ∧ s.loop ≠ .inRelease n true
  ended : s.loop = .ended ∨ s.loop = .gone → s.sessions = []

theorem Inv.init (python : Bool) : Inv { python := python } := by
  constructor <;> simp

/-- Membership in the list of sessions after one of them has changed. -/
theorem mem_upd {l : List Session} {n : Nat} {f : Session → Session} {x : Session} : x ∈ l.map (fun y => if y.id = n then f y else y) ↔ (∃ y ∈ l, y.id = n ∧ x = f y) ∨ (x ∈ l ∧ x.id ≠ n) := by
  simp only [List.mem_map]
  constructor
  · rintro ⟨y, hy, rfl⟩
    by_cases h : y.id = n
    · rw [if_pos h]; exact Or.inl ⟨y, hy, h, rfl⟩
    · rw [if_neg h]; exact Or.inr ⟨hy, h⟩
  · rintro (⟨y, hy, h, rfl⟩ | ⟨hx, h⟩)
    · exact ⟨y, hy, if_pos h⟩
    · exact ⟨x, hx, if_neg h⟩

theorem mem_drop {l : List Session} {n : Nat} {x : Session} : x ∈ l.filter (fun y => y.id ≠ n) ↔ x ∈ l ∧ x.id ≠ n := by simp

theorem Inv.step {s s' : State} {a : Act} (h : Inv s) (e : step s a = some s') : Inv s' := by
  obtain ⟨h1, h2, h3, h5, h6, h7, h8, h9⟩ := h
  unfold Destroying at h5
  cases a with
  | acquire t =>
    simp only [PyViewer.step, State.set] at e
    split at e
    · simp only [Option.some.injEq] at e; subst e
      constructor <;> (try unfold Destroying) <;> grind
    · cases e
  | release t =>
    simp only [PyViewer.step, State.set] at e
    split at e
    · simp only [Option.some.injEq] at e; subst e
      constructor <;> (try unfold Destroying) <;> grind
    · cases e
  | destroy t =>
    simp only [PyViewer.step, State.set] at e
    split at e
    · simp only [Option.some.injEq] at e; subst e
      constructor <;> (try unfold Destroying) <;> grind
    · cases e
  | join t =>
    simp only [PyViewer.step, State.set] at e
    split at e
    · simp only [Option.some.injEq] at e; subst e
      constructor <;> (try unfold Destroying) <;> grind
    · cases e
  | connect =>
    simp only [PyViewer.step, State.open] at e
    split at e
    · split at e
      · simp only [Option.some.injEq] at e; subst e
        constructor <;> (try unfold Destroying) <;> grind
      · simp only [Option.some.injEq] at e; subst e
        constructor <;> (try unfold Destroying) <;> grind
    · cases e
  | disconnect n =>
    simp only [PyViewer.step, State.stop] at e
    split at e
    · simp only [Option.some.injEq] at e; subst e
      constructor <;> (try unfold Destroying) <;> simp only [mem_upd, List.map_eq_nil_iff] <;> grind
    · cases e
  | message n =>
    simp only [PyViewer.step, State.session] at e
    split at e
    · simp only [Option.some.injEq] at e; subst e
      constructor <;> (try unfold Destroying) <;> simp only [mem_upd, List.map_eq_nil_iff] <;> grind
    · cases e
  | session n b =>
    simp only [PyViewer.step] at e
    split at e
    · rename_i x hx
      have hmem := List.mem_of_find?_eq_some hx
      simp only [sessionStep, State.session] at e
      split at e
      · split at e
        · simp only [Option.some.injEq] at e; subst e
          constructor <;> (try unfold Destroying) <;> simp only [mem_upd, List.map_eq_nil_iff] <;> grind
        · cases e
      · split at e
        · simp only [Option.some.injEq] at e; subst e
          constructor <;> (try unfold Destroying) <;> simp only [mem_upd, List.map_eq_nil_iff] <;> grind
        · cases e
      · split at e
        · simp only [Option.some.injEq] at e; subst e
          constructor <;> (try unfold Destroying) <;> simp only [mem_upd, List.map_eq_nil_iff] <;> grind
        · simp only [Option.some.injEq] at e; subst e
          constructor <;> (try unfold Destroying) <;> simp only [mem_upd, List.map_eq_nil_iff] <;> grind
      · cases e
    · cases e
  | server b =>
    simp only [PyViewer.step, serverStep, State.open, State.drop, State.stop, after] at e
    split at e
    · simp only [Option.some.injEq] at e; subst e
      constructor <;> (try unfold Destroying) <;> grind
    · split at e
      · simp only [Option.some.injEq] at e; subst e
        constructor <;> (try unfold Destroying) <;> grind
      · cases e
    · split at e
      · simp only [Option.some.injEq] at e; subst e
        constructor <;> (try unfold Destroying) <;> grind
      · cases e
    · split at e
      · simp only [Option.some.injEq] at e; subst e
        constructor <;> (try unfold Destroying) <;> grind
      · simp only [Option.some.injEq] at e; subst e
        constructor <;> (try unfold Destroying) <;> grind
    · split at e
      · simp only [Option.some.injEq] at e; subst e
        constructor <;> (try unfold Destroying) <;> grind
      · simp only [Option.some.injEq] at e; subst e
        constructor <;> (try unfold Destroying) <;> simp only [mem_upd, List.map_eq_nil_iff] <;> grind
    · split at e
      · split at e
        · simp only [Option.some.injEq] at e; subst e
          constructor <;> (try unfold Destroying) <;> grind
        · simp only [Option.some.injEq] at e; subst e
          constructor <;> (try unfold Destroying) <;> simp only [mem_drop] <;> grind
      · cases e
    · split at e
      · simp only [Option.some.injEq] at e; subst e
        constructor <;> (try unfold Destroying) <;> grind
      · cases e
    · split at e
      · simp only [Option.some.injEq] at e; subst e
        constructor <;> (try unfold Destroying) <;> grind
      · simp only [Option.some.injEq] at e; subst e
        constructor <;> (try unfold Destroying) <;> simp only [mem_drop] <;> grind
    · cases e
    · cases e

theorem keeps_python {s s' : State} {a : Act} (e : step s a = some s') : s'.python = s.python := by
  cases a <;> simp only [PyViewer.step, serverStep, sessionStep, State.set, State.session, State.stop, State.drop, State.open] at e
  all_goals
    repeat' (first | (simp only [Option.some.injEq] at e; subst e; rfl) | (cases e; done) | split at e)

theorem Inv.reach {python : Bool} {s : State} (h : Reachable python s) : Inv s ∧ s.python = python := by
  obtain ⟨l, e⟩ := h
  exact run_keeps (P := fun s => Inv s ∧ s.python = python) (fun _ _ _ h e => ⟨h.1.step e, (keeps_python e).trans h.2⟩) l _ s ⟨.init _, rfl⟩ e

theorem ex_upd {l : List Session} {n : Nat} {f : Session → Session} {P : Session → Prop} :
    (∃ x, x ∈ l.map (fun y => if y.id = n then f y else y) ∧ P x) ↔ (∃ y, y ∈ l ∧ y.id = n ∧ P (f y)) ∨ ∃ y, y ∈ l ∧ y.id ≠ n ∧ P y := by
  constructor
  · rintro ⟨x, hx, hp⟩
    rcases mem_upd.1 hx with ⟨y, hy, hn, rfl⟩ | ⟨hx, hn⟩
    · exact .inl ⟨y, hy, hn, hp⟩
    · exact .inr ⟨x, hx, hn, hp⟩
  · rintro (⟨y, hy, hn, hp⟩ | ⟨y, hy, hn, hp⟩)
    · exact ⟨f y, mem_upd.2 (.inl ⟨y, hy, hn, rfl⟩), hp⟩
    · exact ⟨y, mem_upd.2 (.inr ⟨hy, hn⟩), hp⟩

/-- Sessions have their own numbers, and the thread that has the interpreter lock uses it. -/
structure Held (s : State) : Prop where
  ids : ∀ x ∈ s.sessions, x.id < s.next
  uniq : ∀ x ∈ s.sessions, ∀ y ∈ s.sessions, x.id = y.id → x = y
  held : ∀ n, s.gil = some (.session n) → ∃ x ∈ s.sessions, x.id = n ∧ x.pc = .method
  ended : ∀ n c, s.loop = .releasing n c ∨ s.loop = .inRelease n c → ∃ x ∈ s.sessions, x.id = n ∧ x.pc = .ended

theorem Held.init (python : Bool) : Held { python := python } := by
  constructor <;> simp

theorem Held.step {s s' : State} {a : Act} (h : Held s) (e : step s a = some s') : Held s' := by
  obtain ⟨h1, h2, h3, h4⟩ := h
  cases a with
  | session n b =>
    simp only [PyViewer.step] at e
    split at e
    · rename_i x hx
      have hmem := List.mem_of_find?_eq_some hx
      simp only [sessionStep, State.session] at e
      repeat' split at e
      all_goals first
        | (cases e; done)
        | (simp only [Option.some.injEq] at e; subst e; constructor <;> (try simp only [ex_upd]) <;> (try simp only [mem_upd]) <;> grind)
    · cases e
  | server b =>
    simp only [PyViewer.step, serverStep, State.open, State.drop, State.stop, after] at e
    repeat' split at e
    all_goals first
      | (cases e; done)
      | (simp only [Option.some.injEq] at e; subst e; constructor <;> (try simp only [ex_upd]) <;> (try simp only [mem_upd, mem_drop]) <;> grind)
  | _ =>
    simp only [PyViewer.step, State.set, State.open, State.stop, State.session] at e
    repeat' split at e
    all_goals first
      | (cases e; done)
      | (simp only [Option.some.injEq] at e; subst e; constructor <;> (try simp only [ex_upd]) <;> (try simp only [mem_upd, mem_drop]) <;> grind)

/-- **C103, the interpreter lock is not left behind:** in every reachable state the thread that has it is one that runs Python, calls `makeSource`, releases the sources of a session or is in a method of a source. -/
theorem lock_used (python : Bool) (s : State) (h : Reachable python s) :
    (∀ t, s.gil = some (.py t) → s.py t ≠ .idle) ∧ (s.gil = some .server → s.loop = .inMake ∨ ∃ n c, s.loop = .inRelease n c) ∧
    ∀ n, s.gil = some (.session n) → ∃ x ∈ s.sessions, x.id = n ∧ x.pc = .method := by
  obtain ⟨hi, _⟩ := Inv.reach h
  obtain ⟨l, e⟩ := h
  exact ⟨fun t => (hi.gilPy t).1, hi.gilServer.1, (run_keeps (P := Held) (fun _ _ _ h e => h.step e) l _ s (.init _) e).held⟩

/-- A session that calls a source of a provider in Python, and the interpreter that takes the lock away from it. -/
example : ∃ s, Reachable true s ∧ s.gil = some (.session 0) := ⟨_, ⟨[.server false, .connect, .server false, .server false, .server false, .message 0, .session 0 false], rfl⟩, rfl⟩

/-! ### Where it fails -/

/-- The destructor has the interpreter lock, for which the server's thread has to wait before it can end. -/
structure Stuck (t : Nat) (s : State) : Prop where
  inv : Inv s
  pc : s.py t = .joining
  python : s.python = true
  why : s.sessions ≠ [] ∨ s.loop = .making

theorem Stuck.step {t : Nat} {s s' : State} {a : Act} (h : Stuck t s) (e : step s a = some s') : Stuck t s' := by
  have hi' := h.inv.step e
  have hp' := (keeps_python e).trans h.python
  obtain ⟨hi, h2, h3, h4⟩ := h
  have hg := (hi.gilPy t).mpr (by simp [h2])
  have hs := hi.gilServer
  have hend := hi.ended
  have hdes := hi.stopping
  unfold Destroying at hdes
  have ho : ∀ u, u ≠ t → s.py u = .idle := fun u hu => Classical.byContradiction fun hc => by
    have h1 := (hi.gilPy u).mpr hc
    rw [hg] at h1
    simp only [Option.some.injEq, Tid.py.injEq] at h1
    exact hu h1.symm
  refine ⟨hi', ?_, hp', ?_⟩
  · clear hi'
    cases a <;> simp only [PyViewer.step, serverStep, sessionStep, State.set, State.session, State.stop, State.drop, State.open, after] at e
    all_goals
      repeat' (first | (simp only [Option.some.injEq] at e; subst e; first | grind [List.map_eq_nil_iff, List.mem_map, List.append_eq_nil_iff] | skip) | (cases e; done) | split at e)
  · clear hi'
    cases a <;> simp only [PyViewer.step, serverStep, sessionStep, State.set, State.session, State.stop, State.drop, State.open, after] at e
    all_goals
      repeat' (first | (simp only [Option.some.injEq] at e; subst e; first | grind [List.map_eq_nil_iff, List.mem_map, List.append_eq_nil_iff] | skip) | (cases e; done) | split at e)

theorem Stuck.hangs {t : Nat} {s : State} (h : Stuck t s) : Hangs s t ∧ InterpreterDead s := by
  have key : ∀ l s', run s l = some s' → Stuck t s' := fun l s' e => run_keeps (P := Stuck t) (fun _ _ _ h e => h.step e) l s s' h e
  refine ⟨fun l s' e => (key l s' e).pc, fun l s' e => ?_⟩
  have hs := key l s' e
  have hg := (hs.inv.gilPy t).mpr (by simp [hs.pc])
  refine ⟨fun u hu => ?_, fun x hx hm => ?_, fun hm => ?_, fun n c hm => ?_⟩
  · have h1 := (hs.inv.gilPy u).mpr (by simp [hu])
    rw [hg] at h1
    simp only [Option.some.injEq, Tid.py.injEq] at h1
    rw [← h1, hs.pc] at hu
    cases hu
  · have h1 := hs.inv.gilSession x hx hm
    rw [hg] at h1
    cases h1
  · have h1 := hs.inv.gilServer.mpr (Or.inl hm)
    rw [hg] at h1
    cases h1
  · have h1 := hs.inv.gilServer.mpr (Or.inr ⟨n, c, hm⟩)
    rw [hg] at h1
    cases h1

theorem destroy_eq {s s' : State} {t : Nat} (e : step s (.destroy t) = some s') : s.py t = .running ∧ s.terminate = false ∧ s' = { s.set t .joining with terminate := true } := by
  simp only [step] at e
  split at e
  · rename_i h
    simp only [Option.some.injEq] at e
    exact ⟨h.1, h.2, e.symm⟩
  · cases e

/-- **C103 fails, always, if a viewer is connected:** when the provider is written in Python and Python drops the server while a viewer is connected, the destructor hangs, and with it the interpreter. -/
theorem destroy_with_viewer_hangs (s s' : State) (h : Reachable true s) (t : Nat) (hv : s.sessions ≠ []) (e : step s (.destroy t) = some s') : Hangs s' t ∧ InterpreterDead s' := by
  obtain ⟨hi, hp⟩ := Inv.reach h
  have hi' := hi.step e
  obtain ⟨_, _, rfl⟩ := destroy_eq e
  exact Stuck.hangs ⟨hi', by simp [State.set], hp, Or.inl hv⟩

/-- **C103, exactly when it fails:** with a provider written in Python the destructor hangs if and only if, when Python drops the server, a viewer is connected or just connecting. -/
theorem destroy_hangs_iff (s s' : State) (h : Reachable true s) (t : Nat) (e : step s (.destroy t) = some s') : Hangs s' t ↔ s.sessions ≠ [] ∨ s.loop = .making := by
  obtain ⟨hi, hp⟩ := Inv.reach h
  have hi' := hi.step e
  obtain ⟨h1, h2, rfl⟩ := destroy_eq e
  constructor
  · intro hh
    refine Classical.byContradiction fun hc => ?_
    obtain ⟨hc1, hc2⟩ := not_or.1 hc
    have hs : s.sessions = [] := Classical.byContradiction hc1
    have hg := (hi.gilPy t).mpr (by simp [h1])
    have fin : ∀ l m, run { s.set t .joining with terminate := true } l = some m → m.py t = .running → False := fun l m e hm => by
      have := hh l m e
      rw [hm] at this
      cases this
    cases hl : s.loop with
    | test =>
      exact fin [.server false, .server false, .join t] _ (by simp only [run, step, serverStep, State.set, hl, hs, Option.bind_some, if_true]; simp; rfl) (by simp [State.set])
    | polling =>
      exact fin [.server false, .server false, .server false, .join t] _ (by simp only [run, step, serverStep, State.set, hl, hs, Option.bind_some, if_true]; simp; rfl) (by simp [State.set])
    | making => exact hc2 hl
    | inMake =>
      have := hi.gilServer.mpr (Or.inl hl)
      rw [hg] at this
      cases this
    | closing => exact (hi.going h2).2.2.1 hl
    | stopping n c =>
      obtain ⟨⟨x, hx, _⟩, _⟩ := hi.stopping n c (Or.inl hl)
      rw [hs] at hx
      cases hx
    | releasing n c =>
      obtain ⟨⟨x, hx, _⟩, _⟩ := hi.stopping n c (Or.inr (Or.inl hl))
      rw [hs] at hx
      cases hx
    | inRelease n c =>
      obtain ⟨⟨x, hx, _⟩, _⟩ := hi.stopping n c (Or.inr (Or.inr hl))
      rw [hs] at hx
      cases hx
    | ended => exact (hi.going h2).1 hl
    | gone => exact (hi.going h2).2.1 hl
  · intro hc
    exact (Stuck.hangs ⟨hi', by simp [State.set], hp, hc⟩).1

/-- A viewer is connected and idle. Python drops the server. -/
example : ∃ s s', Reachable true s ∧ s.sessions = [{ id := 0 }] ∧ s.loop = .polling ∧ step s (.destroy 0) = some s' :=
  ⟨_, _, ⟨[.server false, .connect, .server false, .server false, .server false, .acquire 0], rfl⟩, rfl, rfl, rfl⟩

theorem not_Safe : ¬ Safe := by
  intro h
  have hr : Reachable true _ := ⟨[.server false, .connect, .server false, .server false, .server false, .acquire 0], rfl⟩
  have hh := (destroy_with_viewer_hangs _ _ hr 0 (fun hc => nomatch (hc : [({ id := 0 } : Session)] = [])) rfl).1
  exact h true _ ⟨[.server false, .connect, .server false, .server false, .server false, .acquire 0, .destroy 0], rfl⟩ 0 rfl hh

/-! ### Where it holds -/

/-- What the server's thread still has to do before it ends, once it has been told to. -/
def toEnd (s : State) : Nat :=
  4 * s.sessions.length +
    match s.loop with
    | .closing => 1
    | .test => 2
    | .polling => 3
    | _ => 0

theorem find_id {l : List Session} {n : Nat} (h : ∃ x ∈ l, x.id = n) : ∃ x, l.find? (fun x => x.id = n) = some x ∧ x ∈ l ∧ x.id = n := by
  obtain ⟨x, hx, hn⟩ := h
  cases hf : l.find? (fun x => x.id = n) with
  | none =>
    rw [List.find?_eq_none] at hf
    exact absurd (by simpa using hn) (hf x hx)
  | some y => exact ⟨y, rfl, List.mem_of_find?_eq_some hf, by simpa using List.find?_some hf⟩

theorem drop_shorter {l : List Session} {n : Nat} (h : ∃ x ∈ l, x.id = n) : (l.filter fun x => x.id ≠ n).length < l.length := by
  obtain ⟨x, hx, hn⟩ := h
  refine Nat.lt_of_le_of_ne (List.length_filter_le _ _) fun e => ?_
  rw [List.length_filter_eq_length_iff] at e
  have := e x hx
  simp [hn] at this

theorem joining_run {t : Nat} : ∀ (k : Nat) (s : State), toEnd s = k → Inv s → s.python = false → s.py t = .joining → ∃ l s', run s l = some s' ∧ s'.py t = .running := by
  intro k
  induction k using Nat.strongRecOn with
  | _ k ih =>
    intro s hk hi hp hj
    have hr := hi.joining t hj
    have go : ∀ (l : List Act) (m : State), run s l = some m → m.py t = .joining → toEnd m < k → ∃ l s', run s l = some s' ∧ s'.py t = .running := by
      intro l m e h1 h2
      have := run_keeps (P := fun s => Inv s ∧ s.python = false) (fun _ _ _ h e => ⟨h.1.step e, (keeps_python e).trans h.2⟩) l s m ⟨hi, hp⟩ e
      obtain ⟨l', s', e', h3⟩ := ih _ h2 m rfl this.1 this.2 h1
      exact ⟨l ++ l', s', run_append e e', h3⟩
    have hn := hi.native hp
    cases hl : s.loop with
    | test => exact go [.server false] { s with loop := .closing } (by simp [run, step, serverStep, hl, hr.1]) hj (by rw [← hk]; simp [toEnd, hl])
    | polling => exact go [.server false] { s with loop := .test } (by simp [run, step, serverStep, hl, hr.1]) hj (by rw [← hk]; simp [toEnd, hl])
    | making => exact absurd hl hn.1
    | inMake => exact absurd hl hn.2.1
    | closing =>
      cases hs : s.sessions with
      | nil => exact go [.server false] { s with loop := .ended } (by simp [run, step, serverStep, hl, hs]) hj (by rw [← hk]; simp [toEnd, hl, hs])
      | cons x r => exact go [.server false] { s.stop x.id with loop := .stopping x.id true } (by simp [run, step, serverStep, hl, hs]) hj (by rw [← hk]; simp [toEnd, hl, State.stop])
    | stopping n c =>
      obtain ⟨hex, hall⟩ := hi.stopping n c (Or.inl hl)
      have fin : ∀ (m : State), m.loop = .stopping n c → m.python = false → (∃ x ∈ m.sessions, x.id = n ∧ x.pc = .ended) → run m [.server false] = some { m.drop n with loop := after c } := fun m h1 h2 h3 => by
        simp only [run, step, serverStep, h1, if_pos h3, h2]
        simp
      have small : ∀ (m : State), (∃ x ∈ m.sessions, x.id = n) → m.sessions.length = s.sessions.length → toEnd { m.drop n with loop := after c } < k := fun m h1 h2 => by
        have := drop_shorter h1
        rw [← hk]
        simp only [toEnd, State.drop, hl, after]
        cases c <;> simp only [Bool.false_eq_true, if_false, if_true] <;> omega
      obtain ⟨x, hf, hx, hxn⟩ := find_id hex
      rcases hn.2.2.2 x hx with hpc | hpc
      · have e1 : run s [.session n false] = some (s.session x.id .ended) := by
          simp only [run, step, hf, sessionStep, hpc, hall x hx hxn]
          simp
        have hm : ∃ y ∈ (s.session x.id .ended).sessions, y.id = n ∧ y.pc = .ended := by
          refine ⟨{ x with pc := .ended }, ?_, hxn, rfl⟩
          rw [State.session, mem_upd]
          exact Or.inl ⟨x, hx, rfl, rfl⟩
        refine go ([.session n false] ++ [.server false]) { (s.session x.id .ended).drop n with loop := after c } (run_append e1 (fin (s.session x.id .ended) hl hp hm)) (show s.py t = .joining from hj) (small (s.session x.id .ended) ?_ (by simp [State.session]))
        obtain ⟨y, hy, h1, _⟩ := hm
        exact ⟨y, hy, h1⟩
      · exact go [.server false] _ (fin s hl hp ⟨x, hx, hxn, hpc⟩) hj (small s hex rfl)
    | releasing n c => exact absurd hl (hn.2.2.1 n c).1
    | inRelease n c => exact absurd hl (hn.2.2.1 n c).2
    | ended => exact ⟨[.join t], { s.set t .running with loop := .gone }, by simp [run, step, hj, hl], by simp [State.set]⟩
    | gone => exact absurd hl hr.2

/-- **C103, partial.** If the provider is not written in Python, the destruction of the server can always still return, whatever viewers are connected. Missing: providers written in Python, see
    `destroy_hangs_iff`. -/
theorem safe_partial (s : State) (h : Reachable false s) (t : Nat) (hj : s.py t = .joining) : ¬ Hangs s t := by
  intro hh
  obtain ⟨hi, hp⟩ := Inv.reach h
  obtain ⟨l, s', e, hr⟩ := joining_run _ s rfl hi hp hj
  have := hh l s' e
  rw [hr] at this
  cases this

/-- With two viewers and no Python provider, the server is destroyed. -/
example : ∃ s, Reachable false s ∧ s.py 0 = .joining ∧ s.sessions.length = 2 :=
  ⟨_, ⟨[.server false, .connect, .server false, .connect, .acquire 0, .destroy 0], rfl⟩, rfl, rfl⟩

end Scalopus.C103
