import Verif.Model.ProgramEnd

/-!
# C122: a program that traces may end at any time

Returning from `main` is safe for a program that traces, whatever its other threads and the destructors of its global objects do. The code keeps this if the other threads have ended and the destructors of
global objects do not trace; threads that a global object joins may go on as long as what they use was first used before the object was made. Destructors of global objects that trace are undefined in
every program whose main thread has traced.
-/

namespace Scalopus.C122

open ProgramEnd

/-! ## Specification -/

/-- The state after some history. -/
def Reach (s : State) : Prop := ∃ acts, run {} acts = .ok s

/-- The full property: no history of a program is undefined. -/
def NeverUndefined : Prop := ∀ acts, run {} acts ≠ .ub

/-- The static objects of the library that a call may use. -/
def uses : Call → List Static
  | .event k (some _) => [.strings, .cfgInst, .cfgPtr k, .colInst, .procState k]
  | .event k none => [.cfgInst, .cfgPtr k, .colInst, .procState k]
  | .nameThread | .info => [.names]
  | .threadSwitch | .processSwitch | .switches => [.cfgInst]
  | .mapping => [.strings]
  | .sender => [.colInst]

/-- The thread-local objects that a call may use. -/
def keeps : Call → List Local
  | .event k _ => [.colPtr k, .buf k, .colCleanup, .thrState k, .cfgCleanup]
  | .nameThread => [.nameCleanup]
  | .threadSwitch => [.cfgCleanup]
  | _ => []

/-- `main` returns only when no other thread is there, and destructors of global objects neither trace nor start threads. -/
def Orderly (s : State) : Act → Prop
  | .ret => ∀ t, t ≠ 0 → s.mode t = .absent ∨ s.mode t = .over
  | .call t _ => s.mode t = .run
  | .start u _ _ => s.mode u = .run
  | _ => True

/-- States of programs in which `main` returns only after all other threads have ended, and in which the destructors of global objects do not trace. -/
inductive Tidy : State → Prop
  | init : Tidy {}
  | step {s s' : State} {a : Act} (h : Tidy s) (ho : Orderly s a) (hs : step s a = .ok s') : Tidy s'

/-! ## Calls that find what they use -/

/-- None of the static objects `A` and of the thread-local objects `B` of `t` has been destroyed. -/
def Avail (A : List Static) (B : List Local) (t : Nat) (s : State) : Prop := (∀ x ∈ A, s.stat x ≠ .gone) ∧ ∀ y ∈ B, s.loc t y ≠ .gone

theorem avail_pushS {A : List Static} {B : List Local} {t : Nat} {s : State} (h : Avail A B t s) (x : Static) : Avail A B t (pushS s x) := by
  refine ⟨fun y hy => ?_, h.2⟩
  simp only [pushS]
  split
  · simp
  · exact h.1 y hy

theorem avail_pushL {A : List Static} {B : List Local} {t : Nat} {s : State} (h : Avail A B t s) (x : Local) : Avail A B t (pushL s t x) := by
  refine ⟨h.1, fun y hy => ?_⟩
  simp only [pushL]
  split
  · simp
  · exact h.2 y hy

/-- The function returns and leaves available what was. -/
def Works (A : List Static) (B : List Local) (t : Nat) (f : State → Option State) : Prop := ∀ s, Avail A B t s → ∃ s', f s = some s' ∧ Avail A B t s'

theorem works_some {A : List Static} {B : List Local} {t : Nat} : Works A B t some := fun s h => ⟨s, rfl, h⟩

theorem works_passS {A : List Static} {B : List Local} {t : Nat} {x : Static} {f : State → Option State} (hx : x ∈ A) (hf : Works A B t f) : Works A B t (passS x f) := by
  intro s h
  have hg := h.1 x hx
  simp only [passS]
  cases hl : s.stat x with
  | alive => exact ⟨s, rfl, h⟩
  | gone => exact absurd hl hg
  | fresh =>
    obtain ⟨s', e, h'⟩ := hf s h
    exact ⟨pushS s' x, by simp [e], avail_pushS h' x⟩

theorem works_passL {A : List Static} {B : List Local} {t : Nat} {x : Local} {f : State → Option State} (hx : x ∈ B) (hf : Works A B t f) : Works A B t (passL t x f) := by
  intro s h
  have hg := h.2 x hx
  simp only [passL]
  cases hl : s.loc t x with
  | alive => exact ⟨s, rfl, h⟩
  | gone => exact absurd hl hg
  | fresh =>
    obtain ⟨s', e, h'⟩ := hf s h
    exact ⟨pushL s' t x, by simp [e], avail_pushL h' x⟩

theorem works_bind {A : List Static} {B : List Local} {t : Nat} {f g : State → Option State} (hf : Works A B t f) (hg : Works A B t g) : Works A B t (fun s => (f s).bind g) := by
  intro s h
  obtain ⟨s1, e1, h1⟩ := hf s h
  obtain ⟨s2, e2, h2⟩ := hg s1 h1
  exact ⟨s2, by simp [e1, e2], h2⟩

theorem works_tracepoint {A : List Static} {B : List Local} {t : Nat} {k : Kind} (ha : ∀ x ∈ uses (.event k none), x ∈ A) (hb : ∀ y ∈ keeps (.event k none), y ∈ B) :
    Works A B t (tracepoint t k) := by
  have hcfg : Works A B t getCfg := works_passS (ha _ (by simp [uses])) works_some
  have hcol : Works A B t getCol := works_passS (ha _ (by simp [uses])) works_some
  have hbuf : Works A B t (getBuffer t) := works_bind hcol (works_passL (hb _ (by simp [keeps])) works_some)
  have hthr : Works A B t (getThreadState t) := works_bind hcfg (works_passL (hb _ (by simp [keeps])) works_some)
  refine works_bind (works_passS (ha _ (by simp [uses])) hcfg) ?_
  refine works_bind (works_passL (hb _ (by simp [keeps])) hcol) ?_
  refine works_bind (works_passL (hb _ (by simp [keeps])) hbuf) ?_
  refine works_bind (works_passS (ha _ (by simp [uses])) works_some) ?_
  exact works_passL (hb _ (by simp [keeps])) hthr

/-- A call returns if nothing it may use has been destroyed. In particular the first tracepoint of a program may be in the destructor of a global object. -/
theorem call_ok {t : Nat} {c : Call} {s : State} (hs : ∀ x ∈ uses c, s.stat x ≠ .gone) (hl : ∀ y ∈ keeps c, s.loc t y ≠ .gone) : ∃ s', doCall t c s = some s' := by
  have h : Avail (uses c) (keeps c) t s := ⟨hs, hl⟩
  have fin : ∀ f, Works (uses c) (keeps c) t f → ∃ s', f s = some s' := fun f hf => (hf s h).imp fun _ h => h.1
  cases c with
  | event k p =>
    cases p with
    | none => exact fin _ (works_tracepoint (fun _ h => h) (fun _ h => h))
    | some l =>
      refine fin _ (works_bind ?_ (works_tracepoint (fun x hx => ?_) (fun y hy => ?_)))
      · intro s h
        simp only [registerOnce]
        split
        · exact ⟨s, rfl, h⟩
        · exact works_passS (by simp [uses]) works_some _ h
      · simp only [uses] at hx ⊢; exact List.mem_cons_of_mem _ hx
      · exact hy
  | nameThread => exact fin _ (works_bind (works_passS (by simp [uses]) works_some) (works_passL (by simp [keeps]) works_some))
  | threadSwitch =>
    have hcfg : Works (uses .threadSwitch) (keeps .threadSwitch) t getCfg := works_passS (by simp [uses]) works_some
    exact fin _ (works_bind hcfg (works_bind hcfg (works_passL (by simp [keeps]) works_some)))
  | processSwitch => exact fin _ (works_passS (by simp [uses]) works_some)
  | mapping => exact fin _ (works_passS (by simp [uses]) works_some)
  | info => exact fin _ (works_passS (by simp [uses]) works_some)
  | switches => exact fin _ (works_passS (by simp [uses]) works_some)
  | sender => exact fin _ (works_passS (by simp [uses]) works_some)

/-! ## What holds in every state -/

/-- The lists of due destructors match the objects. -/
structure Inv (s : State) : Prop where
  nodup : s.stack.Nodup
  alive : ∀ x ∈ s.stack, s.stat x = .alive
  due : ∀ x, s.stat x = .alive → x ∈ s.stack ∨ ∃ i, x = .user i ∧ s.mode 0 = .dtor i
  apart : ∀ i, s.mode 0 = .dtor i → .user i ∉ s.stack ∧ s.stat (.user i) = .alive
  locals : ∀ t x, s.loc t x = .alive ↔ x ∈ s.tstack t
  lnodup : ∀ t, (s.tstack t).Nodup
  main : ∀ t, (s.mode t = .statics ∨ ∃ i, s.mode t = .dtor i) → t = 0
  kept : (s.mode 0 = .run ∨ s.mode 0 = .ending) → ∀ x, s.stat x ≠ .gone
  mine : ∀ t, (s.mode t = .run ∨ s.mode t = .absent) → ∀ y, s.loc t y ≠ .gone
  listed : ∀ t, t ≠ 0 → s.mode t ≠ .absent → t ∈ s.threads
  begun : s.mode 0 ≠ .absent

/-- What a call changes: it makes objects. -/
structure Grows (t : Nat) (s s' : State) : Prop where
  mode : s'.mode = s.mode
  threads : s'.threads = s.threads
  owner : s'.owner = s.owner
  stack : ∃ l, s'.stack = l ++ s.stack ∧ ∀ x ∈ l, s.stat x = .fresh ∧ ∀ i, x ≠ .user i
  gone : ∀ x, s'.stat x = .gone ↔ s.stat x = .gone
  alive : ∀ x, s.stat x = .alive → s'.stat x = .alive
  others : ∀ u, u ≠ t → s'.loc u = s.loc u ∧ s'.tstack u = s.tstack u
  lgone : ∀ y, s'.loc t y = .gone ↔ s.loc t y = .gone
  lalive : ∀ y, s.loc t y = .alive → s'.loc t y = .alive

theorem Grows.refl (t : Nat) (s : State) : Grows t s s :=
  ⟨rfl, rfl, rfl, ⟨[], rfl, by simp⟩, fun _ => Iff.rfl, fun _ h => h, fun _ _ => ⟨rfl, rfl⟩, fun _ => Iff.rfl, fun _ h => h⟩

theorem Grows.trans {t : Nat} {s s1 s2 : State} (h1 : Grows t s s1) (h2 : Grows t s1 s2) : Grows t s s2 := by
  refine ⟨h2.mode.trans h1.mode, h2.threads.trans h1.threads, h2.owner.trans h1.owner, ?_, fun x => (h2.gone x).trans (h1.gone x), fun x h => h2.alive x (h1.alive x h), ?_,
    fun y => (h2.lgone y).trans (h1.lgone y), fun y h => h2.lalive y (h1.lalive y h)⟩
  · obtain ⟨l1, e1, f1⟩ := h1.stack
    obtain ⟨l2, e2, f2⟩ := h2.stack
    refine ⟨l2 ++ l1, by rw [e2, e1, List.append_assoc], fun x hx => ?_⟩
    rcases List.mem_append.1 hx with hx | hx
    · refine ⟨?_, (f2 x hx).2⟩
      have := (f2 x hx).1
      cases h : s.stat x with
      | fresh => rfl
      | alive => rw [h1.alive x h] at this; cases this
      | gone => rw [(h1.gone x).2 h] at this; cases this
    · exact f1 x hx
  · intro u hu
    exact ⟨(h2.others u hu).1.trans (h1.others u hu).1, (h2.others u hu).2.trans (h1.others u hu).2⟩

/-- A function that keeps the invariant, makes objects only, and does not touch those that are not in the lists. -/
def Makes (t : Nat) (A : List Static) (B : List Local) (f : State → Option State) : Prop :=
  ∀ s s', f s = some s' → Inv s → Inv s' ∧ Grows t s s' ∧ (∀ x, x ∉ A → s'.stat x = s.stat x) ∧ ∀ y, y ∉ B → s'.loc t y = s.loc t y

theorem makes_some {t : Nat} : Makes t [] [] some := by
  intro s s' e h
  cases e
  exact ⟨h, Grows.refl t s, fun _ _ => rfl, fun _ _ => rfl⟩

theorem inv_pushS {s : State} {x : Static} (h : Inv s) (hf : s.stat x = .fresh) : Inv (pushS s x) := by
  have hx : x ∉ s.stack := fun hm => by have := h.alive x hm; rw [hf] at this; cases this
  constructor
  · exact List.nodup_cons.2 ⟨hx, h.nodup⟩
  · intro y hy
    simp only [pushS]
    split
    · rfl
    · rename_i hne
      rcases List.mem_cons.1 hy with e | hy
      · exact absurd e hne
      · exact h.alive y hy
  · intro y hy
    simp only [pushS] at hy ⊢
    split at hy
    · rename_i e; subst e; exact .inl (by simp)
    · rcases h.due y hy with hm | hd
      · exact .inl (List.mem_cons_of_mem _ hm)
      · exact .inr hd
  · intro i hi
    have := h.apart i hi
    have hne : Static.user i ≠ x := fun e => by rw [e, hf] at this; cases this.2
    simp only [pushS]
    exact ⟨by simp [hne, this.1], by simp [hne, this.2]⟩
  · exact h.locals
  · exact h.lnodup
  · exact h.main
  · intro hm y
    simp only [pushS]
    split
    · simp
    · exact h.kept hm y
  · exact h.mine
  · exact h.listed
  · exact h.begun

theorem inv_pushL {s : State} {t : Nat} {x : Local} (h : Inv s) (hf : s.loc t x = .fresh) : Inv (pushL s t x) := by
  have hx : x ∉ s.tstack t := fun hm => by have := (h.locals t x).2 hm; rw [hf] at this; cases this
  refine ⟨h.nodup, h.alive, h.due, h.apart, ?_, ?_, h.main, h.kept, ?_, h.listed, h.begun⟩
  · intro u y
    simp only [pushL]
    by_cases hu : u = t
    · subst hu
      by_cases hy : y = x
      · subst hy; simp
      · simp [hy, h.locals u y]
    · simp [hu, h.locals u y]
  · intro u
    simp only [pushL]
    split
    · exact List.nodup_cons.2 ⟨hx, h.lnodup t⟩
    · exact h.lnodup u
  · intro u hu y
    simp only [pushL]
    split
    · simp
    · exact h.mine u hu y

theorem grows_pushS {s : State} {t : Nat} {x : Static} (hf : s.stat x = .fresh) (hu : ∀ i, x ≠ .user i) : Grows t s (pushS s x) := by
  refine ⟨rfl, rfl, rfl, ⟨[x], rfl, by simp [hf, hu]⟩, fun y => ?_, fun y hy => ?_, fun _ _ => ⟨rfl, rfl⟩, fun _ => Iff.rfl, fun _ h => h⟩
  · simp only [pushS]; split
    · rename_i e; subst e; simp [hf]
    · exact Iff.rfl
  · simp only [pushS]; split
    · rfl
    · exact hy

theorem grows_pushL {s : State} {t : Nat} {x : Local} (hf : s.loc t x = .fresh) : Grows t s (pushL s t x) := by
  refine ⟨rfl, rfl, rfl, ⟨[], rfl, by simp⟩, fun _ => Iff.rfl, fun _ h => h, fun u hu => ?_, fun y => ?_, fun y hy => ?_⟩
  · exact ⟨by funext y; simp [pushL, hu], by simp [pushL, hu]⟩
  · simp only [pushL]; split
    · rename_i e; obtain ⟨_, rfl⟩ := e; simp [hf]
    · exact Iff.rfl
  · simp only [pushL]; split
    · rfl
    · exact hy

theorem makes_passS {t : Nat} {x : Static} {A : List Static} {B : List Local} {f : State → Option State} (hf : Makes t A B f) (hx : x ∉ A) (hu : ∀ i, x ≠ .user i) :
    Makes t (x :: A) B (passS x f) := by
  intro s s' e h
  simp only [passS] at e
  cases hl : s.stat x with
  | alive => rw [hl] at e; cases e; exact ⟨h, Grows.refl t s, fun _ _ => rfl, fun _ _ => rfl⟩
  | gone => rw [hl] at e; cases e
  | fresh =>
    rw [hl] at e
    simp only [Option.map_eq_some_iff] at e
    obtain ⟨s1, e1, e2⟩ := e
    subst e2
    obtain ⟨h1, g1, a1, b1⟩ := hf s s1 e1 h
    have hfr : s1.stat x = .fresh := (a1 x hx).trans hl
    refine ⟨inv_pushS h1 hfr, g1.trans (grows_pushS hfr hu), fun y hy => ?_, fun y hy => b1 y hy⟩
    simp only [List.mem_cons, not_or] at hy
    simp only [pushS, if_neg hy.1]
    exact a1 y hy.2

theorem makes_passL {t : Nat} {x : Local} {A : List Static} {B : List Local} {f : State → Option State} (hf : Makes t A B f) (hx : x ∉ B) : Makes t A (x :: B) (passL t x f) := by
  intro s s' e h
  simp only [passL] at e
  cases hl : s.loc t x with
  | alive => rw [hl] at e; cases e; exact ⟨h, Grows.refl t s, fun _ _ => rfl, fun _ _ => rfl⟩
  | gone => rw [hl] at e; cases e
  | fresh =>
    rw [hl] at e
    simp only [Option.map_eq_some_iff] at e
    obtain ⟨s1, e1, e2⟩ := e
    subst e2
    obtain ⟨h1, g1, a1, b1⟩ := hf s s1 e1 h
    have hfr : s1.loc t x = .fresh := (b1 x hx).trans hl
    refine ⟨inv_pushL h1 hfr, g1.trans (grows_pushL hfr), fun y hy => a1 y hy, fun y hy => ?_⟩
    simp only [List.mem_cons, not_or] at hy
    simp only [pushL]
    rw [if_neg (fun hh => hy.1 hh.2)]
    exact b1 y hy.2

theorem makes_bind {t : Nat} {A A' : List Static} {B B' : List Local} {f g : State → Option State} (hf : Makes t A B f) (hg : Makes t A' B' g) :
    Makes t (A ++ A') (B ++ B') (fun s => (f s).bind g) := by
  intro s s' e h
  simp only [Option.bind_eq_some_iff] at e
  obtain ⟨s1, e1, e2⟩ := e
  obtain ⟨h1, g1, a1, b1⟩ := hf s s1 e1 h
  obtain ⟨h2, g2, a2, b2⟩ := hg s1 s' e2 h1
  refine ⟨h2, g1.trans g2, fun y hy => ?_, fun y hy => ?_⟩
  · simp only [List.mem_append, not_or] at hy
    rw [a2 y hy.2, a1 y hy.1]
  · simp only [List.mem_append, not_or] at hy
    rw [b2 y hy.2, b1 y hy.1]

theorem makes_getCfg {t : Nat} : Makes t [.cfgInst] [] getCfg := makes_passS makes_some (by simp) (by simp)
theorem makes_getCol {t : Nat} : Makes t [.colInst] [] getCol := makes_passS makes_some (by simp) (by simp)
theorem makes_getBuffer {t : Nat} : Makes t [.colInst] [.colCleanup] (getBuffer t) := makes_bind makes_getCol (makes_passL makes_some (by simp))
theorem makes_getThreadState {t : Nat} : Makes t [.cfgInst] [.cfgCleanup] (getThreadState t) := makes_bind makes_getCfg (makes_passL makes_some (by simp))

theorem makes_tracepoint (t : Nat) (k : Kind) : ∃ A B, .nameCleanup ∉ B ∧ Makes t A B (tracepoint t k) :=
  ⟨_, _, by simp, makes_bind (makes_passS makes_getCfg (by simp) (by simp)) <| makes_bind (makes_passL makes_getCol (by simp)) <|
    makes_bind (makes_passL makes_getBuffer (by simp)) <| makes_bind (makes_passS makes_some (by simp) (by simp)) <| makes_passL makes_getThreadState (by simp)⟩

theorem inv_done {s : State} (h : Inv s) (d : Nat → Bool) : Inv { s with done := d } :=
  ⟨h.nodup, h.alive, h.due, h.apart, h.locals, h.lnodup, h.main, h.kept, h.mine, h.listed, h.begun⟩

theorem passS_alive {x : Static} {f : State → Option State} {s s' : State} (e : passS x f s = some s') : s'.stat x = .alive := by
  simp only [passS] at e
  cases hl : s.stat x with
  | alive => rw [hl] at e; cases e; exact hl
  | gone => rw [hl] at e; cases e
  | fresh =>
    rw [hl] at e
    simp only [Option.map_eq_some_iff] at e
    obtain ⟨s1, _, e2⟩ := e
    subst e2
    simp [pushS]

/-- A call keeps the invariant and makes objects only. -/
theorem call_makes {t : Nat} {c : Call} {s s' : State} (e : doCall t c s = some s') (h : Inv s) :
    Inv s' ∧ Grows t s s' ∧ (s'.loc t .nameCleanup = s.loc t .nameCleanup ∨ s'.stat .names = .alive) := by
  have fin : ∀ {A B f}, Makes t A B f → .nameCleanup ∉ B → f s = some s' → Inv s' ∧ Grows t s s' ∧ (s'.loc t .nameCleanup = s.loc t .nameCleanup ∨ s'.stat .names = .alive) :=
    fun hf hn e => ⟨(hf s s' e h).1, (hf s s' e h).2.1, .inl ((hf s s' e h).2.2.2 _ hn)⟩
  cases c with
  | event k p =>
    obtain ⟨A, B, hn, hm⟩ := makes_tracepoint t k
    cases p with
    | none => exact fin hm hn e
    | some l =>
      have hr : Makes t [.strings] [] (registerOnce l) := by
        intro s s' e h
        simp only [registerOnce] at e
        split at e
        · cases e; exact ⟨h, Grows.refl t s, fun _ _ => rfl, fun _ _ => rfl⟩
        · have hp : Makes t [.strings] [] (passS .strings some) := makes_passS makes_some (by simp) (by simp)
          obtain ⟨h1, g1, a1, b1⟩ := hp _ _ e (inv_done h _)
          exact ⟨h1, ⟨g1.mode, g1.threads, g1.owner, g1.stack, g1.gone, g1.alive, g1.others, g1.lgone, g1.lalive⟩, a1, b1⟩
      exact fin (makes_bind hr hm) (by simpa using hn) e
  | nameThread =>
    have hp : Makes t [.names] [] (passS .names some) := makes_passS makes_some (by simp) (by simp)
    have hq : Makes t [] [.nameCleanup] (passL t .nameCleanup some) := makes_passL makes_some (by simp)
    simp only [doCall, Option.bind_eq_some_iff] at e
    obtain ⟨s1, e1, e2⟩ := e
    obtain ⟨h1, g1, a1, b1⟩ := hp s s1 e1 h
    obtain ⟨h2, g2, a2, b2⟩ := hq s1 s' e2 h1
    exact ⟨h2, g1.trans g2, .inr (g2.alive _ (passS_alive e1))⟩
  | threadSwitch => exact fin (makes_bind makes_getCfg makes_getThreadState) (by simp) e
  | processSwitch => exact fin makes_getCfg (by simp) e
  | mapping => exact fin (makes_passS makes_some (by simp) (by simp) : Makes t [.strings] [] _) (by simp) e
  | info => exact fin (makes_passS makes_some (by simp) (by simp) : Makes t [.names] [] _) (by simp) e
  | switches => exact fin makes_getCfg (by simp) e
  | sender => exact fin makes_getCol (by simp) e

theorem inv_grows_ok {t : Nat} {c : Call} {s s' : State} (e : doCall t c s = some s') (h : Inv s) : Inv s' := (call_makes e h).1

theorem inv_init : Inv {} := by
  constructor <;> simp
  intro t h
  by_cases ht : t = 0
  · exact ht
  · simp [ht] at h

theorem inv_step {s s' : State} {a : Act} (h : Inv s) (e : step s a = .ok s') : Inv s' := by
  simp only [step] at e
  split at e
  · cases e
  rename_i hov
  cases a with
  | start u t o =>
    simp only at e
    split at e <;> cases e
    rename_i hc
    obtain ⟨h1, h2, -⟩ := hc
    have ht0 : t ≠ 0 := by rintro rfl; exact h.begun h2
    have hm0 : (setMode s t .run).mode 0 = s.mode 0 := by simp [setMode, Ne.symm ht0]
    refine ⟨h.nodup, h.alive, ?_, ?_, h.locals, h.lnodup, ?_, ?_, ?_, ?_, ?_⟩
    · intro x hx; show x ∈ s.stack ∨ ∃ i, x = .user i ∧ (setMode s t .run).mode 0 = .dtor i; rw [hm0]; exact h.due x hx
    · intro i hi; change (setMode s t .run).mode 0 = .dtor i at hi; rw [hm0] at hi; exact h.apart i hi
    · intro v hv
      simp only [setMode] at hv
      split at hv
      · simp at hv
      · exact h.main v hv
    · intro hk; change (setMode s t .run).mode 0 = .run ∨ (setMode s t .run).mode 0 = .ending at hk; rw [hm0] at hk; exact h.kept hk
    · intro v hv
      simp only [setMode] at hv
      split at hv
      · rename_i e; subst e; exact h.mine v (.inr h2)
      · exact h.mine v hv
    · intro v hv0 hv
      simp only [setMode] at hv
      split at hv
      · rename_i e; subst e; exact List.mem_cons_self
      · exact List.mem_cons_of_mem _ (h.listed v hv0 hv)
    · show (setMode s t .run).mode 0 ≠ .absent; rw [hm0]; exact h.begun
  | call t c =>
    simp only at e
    split at e
    · split at e
      · rename_i e'; cases e; exact inv_grows_ok e' h
      · cases e
    · cases e
  | made t i =>
    simp only at e
    split at e <;> cases e
    rename_i hc
    exact inv_pushS h hc.2
  | finish t =>
    simp only at e
    split at e <;> cases e
    rename_i hc
    have hm0 : (setMode s t .ending).mode 0 = s.mode 0 := by simp [setMode, Ne.symm hc.1]
    refine ⟨h.nodup, h.alive, ?_, ?_, h.locals, h.lnodup, ?_, ?_, ?_, ?_, ?_⟩
    · rw [hm0]; exact h.due
    · rw [hm0]; exact h.apart
    · intro v hv; simp only [setMode] at hv; split at hv
      · simp at hv
      · exact h.main v hv
    · rw [hm0]; exact h.kept
    · intro v hv; simp only [setMode] at hv; split at hv
      · simp at hv
      · exact h.mine v hv
    · intro v hv0 hv; simp only [setMode] at hv; split at hv
      · rename_i e; subst e; exact h.listed v hv0 (by rw [hc.2]; simp)
      · exact h.listed v hv0 hv
    · rw [hm0]; exact h.begun
  | ret =>
    simp only at e
    split at e <;> cases e
    rename_i hc
    refine ⟨h.nodup, h.alive, ?_, ?_, h.locals, h.lnodup, ?_, ?_, ?_, ?_, ?_⟩
    · intro x hx
      rcases h.due x hx with hd | ⟨i, _, hd⟩
      · exact .inl hd
      · rw [hc] at hd; cases hd
    · intro i hi; simp [setMode] at hi
    · intro v hv; simp only [setMode] at hv; split at hv
      · simp at hv
      · exact h.main v hv
    · intro _; exact h.kept (.inl hc)
    · intro v hv; simp only [setMode] at hv; split at hv
      · simp at hv
      · exact h.mine v hv
    · intro v hv0 hv; simp only [setMode, if_neg hv0] at hv; exact h.listed v hv0 hv
    · simp [setMode]
  | dropLocal t =>
    simp only at e
    split at e
    · rename_i hc
      split at e
      · rename_i hst
        cases e
        by_cases ht : t = 0
        · subst ht
          simp only [if_true]
          refine ⟨h.nodup, h.alive, ?_, ?_, h.locals, h.lnodup, ?_, ?_, ?_, ?_, ?_⟩
          · intro x hx
            rcases h.due x hx with hd | ⟨i, _, hd⟩
            · exact .inl hd
            · rw [hc] at hd; cases hd
          · intro i hi; simp [setMode] at hi
          · intro v hv; simp only [setMode] at hv; split at hv
            · assumption
            · exact h.main v hv
          · simp [setMode]
          · intro v hv; simp only [setMode] at hv; split at hv
            · simp at hv
            · exact h.mine v hv
          · intro v hv0 hv; simp only [setMode, if_neg hv0] at hv; exact h.listed v hv0 hv
          · simp [setMode]
        · simp only [if_neg ht]
          have hm0 : (setMode s t .over).mode 0 = s.mode 0 := by simp [setMode, Ne.symm ht]
          refine ⟨h.nodup, h.alive, ?_, ?_, h.locals, h.lnodup, ?_, ?_, ?_, ?_, ?_⟩
          · rw [hm0]; exact h.due
          · rw [hm0]; exact h.apart
          · intro v hv; simp only [setMode] at hv; split at hv
            · simp at hv
            · exact h.main v hv
          · rw [hm0]; exact h.kept
          · intro v hv; simp only [setMode] at hv; split at hv
            · simp at hv
            · exact h.mine v hv
          · intro v hv0 hv; simp only [setMode] at hv; split at hv
            · rename_i e; subst e; exact h.listed v hv0 (by rw [hc]; simp)
            · exact h.listed v hv0 hv
          · rw [hm0]; exact h.begun
      · rename_i x r hst
        split at e <;> cases e
        refine ⟨h.nodup, h.alive, h.due, h.apart, ?_, ?_, h.main, h.kept, ?_, h.listed, h.begun⟩
        · intro u y
          by_cases hu : u = t
          · subst hu
            have hn := h.lnodup u
            rw [hst] at hn
            have hl := h.locals u y
            rw [hst] at hl
            by_cases hy : y = x
            · subst hy; simp [(List.nodup_cons.1 hn).1]
            · simp [hy, hl]
          · simp [hu, h.locals u y]
        · intro u
          simp only
          split
          · rename_i hu; subst hu
            have hn := h.lnodup u
            rw [hst] at hn
            exact (List.nodup_cons.1 hn).2
          · exact h.lnodup u
        · intro u hu y
          simp only
          split
          · rename_i hh; obtain ⟨rfl, _⟩ := hh; simp only [hc] at hu; simp at hu
          · exact h.mine u hu y
    · cases e
  | dropStatic =>
    simp only at e
    split at e
    · rename_i hc
      split at e
      · cases e
        refine ⟨h.nodup, h.alive, ?_, ?_, h.locals, h.lnodup, ?_, ?_, ?_, ?_, ?_⟩
        · intro x hx
          rcases h.due x hx with hd | ⟨i, _, hd⟩
          · exact .inl hd
          · rw [hc] at hd; cases hd
        · intro i hi; simp [setMode] at hi
        · intro v hv; simp only [setMode] at hv; split at hv
          · assumption
          · exact h.main v hv
        · simp [setMode]
        · intro v hv; simp only [setMode] at hv; split at hv
          · simp at hv
          · exact h.mine v hv
        · intro v hv0 hv; simp only [setMode, if_neg hv0] at hv; exact h.listed v hv0 hv
        · simp [setMode]
      · rename_i i r hst
        cases e
        have hn := h.nodup
        rw [hst] at hn
        refine ⟨(List.nodup_cons.1 hn).2, fun x hx => h.alive x (by rw [hst]; exact List.mem_cons_of_mem _ hx), ?_, ?_, h.locals, h.lnodup, ?_, ?_, ?_, ?_, ?_⟩
        · intro x hx
          rcases h.due x hx with hd | ⟨j, _, hd⟩
          · rw [hst] at hd
            rcases List.mem_cons.1 hd with rfl | hd
            · exact .inr ⟨i, rfl, by simp [setMode]⟩
            · exact .inl hd
          · rw [hc] at hd; cases hd
        · intro j hj
          simp only [setMode, if_true, Mode.dtor.injEq] at hj
          subst hj
          exact ⟨(List.nodup_cons.1 hn).1, h.alive _ (by rw [hst]; exact List.mem_cons_self)⟩
        · intro v hv; simp only [setMode] at hv; split at hv
          · assumption
          · exact h.main v hv
        · simp [setMode]
        · intro v hv; simp only [setMode] at hv; split at hv
          · simp at hv
          · exact h.mine v hv
        · intro v hv0 hv; simp only [setMode, if_neg hv0] at hv; exact h.listed v hv0 hv
        · simp [setMode]
      · rename_i x r hnu hst
        cases e
        have hn := h.nodup
        rw [hst] at hn
        refine ⟨(List.nodup_cons.1 hn).2, ?_, ?_, ?_, h.locals, h.lnodup, h.main, ?_, h.mine, h.listed, h.begun⟩
        · intro y hy
          have hne : y ≠ x := by rintro rfl; exact (List.nodup_cons.1 hn).1 hy
          simp only [if_neg hne]
          exact h.alive y (by rw [hst]; exact List.mem_cons_of_mem _ hy)
        · intro y hy
          simp only at hy
          split at hy
          · cases hy
          · rename_i hne
            rcases h.due y hy with hd | hd
            · rw [hst] at hd
              rcases List.mem_cons.1 hd with e | hd
              · exact absurd e hne
              · exact .inl hd
            · exact .inr hd
        · intro i hi; simp only [hc] at hi; cases hi
        · intro hk; simp only [hc] at hk; simp at hk
    · cases e
  | endDtor =>
    simp only at e
    split at e
    · rename_i i hc
      split at e <;> cases e
      refine ⟨h.nodup, ?_, ?_, ?_, h.locals, h.lnodup, ?_, ?_, ?_, ?_, ?_⟩
      · intro y hy
        have hne : y ≠ .user i := by rintro rfl; exact (h.apart i hc).1 hy
        simp only [if_neg hne]
        exact h.alive y hy
      · intro y hy
        simp only at hy
        split at hy
        · cases hy
        · rename_i hne
          rcases h.due y hy with hd | ⟨j, rfl, hd⟩
          · exact .inl hd
          · rw [hc] at hd; cases hd; exact absurd rfl hne
      · intro j hj; simp [setMode] at hj
      · intro v hv; simp only [setMode] at hv; split at hv
        · assumption
        · exact h.main v hv
      · simp [setMode]
      · intro v hv; simp only [setMode] at hv; split at hv
        · simp at hv
        · exact h.mine v hv
      · intro v hv0 hv; simp only [setMode, if_neg hv0] at hv; exact h.listed v hv0 hv
      · simp [setMode]
    · cases e

theorem run_append {s : State} {as bs : List Act} : run s (as ++ bs) = match run s as with | .ok s' => run s' bs | o => o := by
  induction as generalizing s with
  | nil => rfl
  | cons a as ih =>
    simp only [List.cons_append, run]
    cases step s a with
    | ok s1 => exact ih
    | no => rfl
    | ub => rfl

/-- Induction along a history. -/
theorem run_induct {P : State → Prop} (hp : ∀ s a s', P s → step s a = .ok s' → P s') {s s' : State} {acts : List Act} (h : P s) (e : run s acts = .ok s') : P s' := by
  induction acts generalizing s with
  | nil => cases e; exact h
  | cons a as ih =>
    simp only [run] at e
    cases hs : step s a with
    | ok s1 => rw [hs] at e; exact ih (hp s a s1 h hs) e
    | no => rw [hs] at e; cases e
    | ub => rw [hs] at e; cases e

/-- Threads that are listed have been started; who has named its thread has made the map of the names. -/
structure More (s : State) : Prop where
  inv : Inv s
  present : ∀ t ∈ s.threads, t ≠ 0 ∧ s.mode t ≠ .absent
  named : ∀ t, s.loc t .nameCleanup ≠ .fresh → s.stat .names ≠ .fresh

theorem more_init : More {} := ⟨inv_init, by simp, by simp⟩

theorem more_step {s s' : State} {a : Act} (h : More s) (e : step s a = .ok s') : More s' := by
  refine ⟨inv_step h.inv e, ?_, ?_⟩
  · have hb := h.inv.begun
    have hp := h.present
    simp only [step] at e
    split at e
    · cases e
    cases a <;> simp only at e
    case call t c =>
      split at e
      · split at e
        · rename_i e'; cases e
          have g := (call_makes e' h.inv).2.1
          rw [g.mode, g.threads]; exact hp
        · cases e
      · cases e
    all_goals (repeat' split at e)
    all_goals first | (cases e; done) | (cases e; simp only [setMode, pushS]; grind)
  · have hn := h.named
    simp only [step] at e
    split at e
    · cases e
    cases a <;> simp only at e
    case call t c =>
      split at e
      · split at e
        · rename_i e'; cases e
          obtain ⟨-, g, hc⟩ := call_makes e' h.inv
          intro u hu
          rcases hc with hc | hc
          · have hloc : s'.loc u .nameCleanup = s.loc u .nameCleanup := by
              by_cases hut : u = t
              · subst hut; exact hc
              · rw [(g.others u hut).1]
            have hf := hn u (by rw [← hloc]; exact hu)
            cases hs : s.stat .names with
            | fresh => exact absurd hs hf
            | alive => rw [g.alive _ hs]; simp
            | gone => rw [(g.gone _).2 hs]; simp
          · rw [hc]; simp
        · cases e
      · cases e
    case dropLocal t =>
      have hl : ∀ x r, s.tstack t = x :: r → s.loc t x = .alive := fun x r hr => (h.inv.locals t x).2 (by rw [hr]; exact List.mem_cons_self)
      repeat' split at e
      all_goals first | (cases e; done) | (cases e; simp only [setMode, pushS]; grind)
    all_goals (repeat' split at e)
    all_goals first | (cases e; done) | (cases e; simp only [setMode, pushS]; grind)

theorem more_reach {s : State} (h : Reach s) : More s := by
  obtain ⟨acts, e⟩ := h
  exact run_induct (fun s a s' => more_step) more_init e

theorem reach_step {s s' : State} {a : Act} (h : Reach s) (e : step s a = .ok s') : Reach s' := by
  obtain ⟨acts, hr⟩ := h
  exact ⟨acts ++ [a], by rw [run_append, hr]; simp [run, e]⟩

theorem tidy_reach {s : State} (h : Tidy s) : Reach s := by
  induction h with
  | init => exact ⟨[], rfl⟩
  | step _ _ hs ih => exact reach_step ih hs

/-- In such programs the other threads are gone when the main thread has returned. -/
theorem tidy_alone {s : State} (h : Tidy s) : s.mode 0 ≠ .run → ∀ t, t ≠ 0 → s.mode t = .absent ∨ s.mode t = .over := by
  induction h with
  | init => intro h0; simp at h0
  | @step s s' a h ho hs ih =>
    have hi := (more_reach (tidy_reach h)).inv
    have hb := hi.begun
    have hm := hi.main
    simp only [step] at hs
    split at hs
    · cases hs
    cases a <;> simp only at hs
    case call t c =>
      split at hs
      · split at hs
        · rename_i e'; cases hs
          rw [(call_makes e' hi).2.1.mode]; exact ih
        · cases hs
      · cases hs
    all_goals (repeat' split at hs)
    all_goals first | (cases hs; done) | (cases hs; simp only [setMode, pushS, Orderly] at *; grind)

/-! ## Orderly ends -/

/-- A program whose other threads have ended when `main` returns, and whose global objects do not trace in their destructors, is never undefined. -/
theorem ends_well_partial {s : State} {a : Act} (h : Tidy s) (ho : Orderly s a) : step s a ≠ .ub := by
  have hm := more_reach (tidy_reach h)
  have hal := tidy_alone h
  have hkept : ∀ t, t ≠ 0 → (s.mode t = .run ∨ s.mode t = .ending) → s.mode 0 = .run := by
    intro t h0 ht
    by_cases h1 : s.mode 0 = .run
    · exact h1
    · rcases hal h1 t h0 with e | e <;> rw [e] at ht <;> simp at ht
  have hno : ∀ t, (s.mode t = .run ∨ s.mode t = .ending) → ∀ x, s.stat x ≠ .gone := by
    intro t ht
    by_cases h0 : t = 0
    · subst h0; exact hm.inv.kept ht
    · exact hm.inv.kept (.inl (hkept t h0 ht))
  intro e
  simp only [step] at e
  split at e
  · cases e
  cases a <;> simp only at e
  case call t c =>
    split at e
    · have ht : s.mode t = .run := ho
      obtain ⟨s', es⟩ := call_ok (t := t) (c := c) (s := s) (fun x _ => hno t (.inl ht) x) (fun y _ => hm.inv.mine t (.inl ht) y)
      rw [es] at e; cases e
    · cases e
  case dropLocal t =>
    split at e
    · rename_i ht
      split at e
      · cases e
      · rename_i x r hst
        split at e
        · cases e
        · rename_i hd
          apply hd
          cases x <;> simp only [dtorOk, decide_eq_true_eq]
          have hl : s.loc t .nameCleanup = .alive := (hm.inv.locals t _).2 (by rw [hst]; exact List.mem_cons_self)
          have hf := hm.named t (by rw [hl]; simp)
          have hg := hno t (.inr ht) .names
          cases hs : s.stat .names with
          | fresh => exact absurd hs hf
          | alive => rfl
          | gone => exact absurd hs hg
    · cases e
  all_goals (repeat' split at e)
  all_goals cases e

/-- In such a program the process can end, from every point after the return of `main`. -/
theorem can_end {s : State} (h : Tidy s) (h0 : s.mode 0 ≠ .run) : ∃ acts s', run s acts = .ok s' ∧ s'.mode 0 = .over := by
  have ed : ∀ s i, Tidy s → s.mode 0 = .dtor i → ∃ s1, step s .endDtor = .ok s1 ∧ s1.mode 0 = .statics ∧ s1.stack = s.stack := by
    intro s i h hm
    have hal := tidy_alone h (by rw [hm]; simp)
    have hp := (more_reach (tidy_reach h)).present
    have e1 : step s .endDtor = .ok { setMode s 0 .statics with stat := fun y => if y = .user i then .gone else s.stat y } := by
      have : s.threads.all (fun t => s.owner t != some i || s.mode t == .over) = true := by
        rw [List.all_eq_true]
        intro t ht
        obtain ⟨ht0, hta⟩ := hp t ht
        rcases hal t ht0 with e | e
        · exact absurd e hta
        · simp [e]
      simp only [step, hm]
      rw [if_neg (by simp), if_pos this]
    exact ⟨_, e1, by simp [setMode], rfl⟩
  have st : ∀ n s, Tidy s → s.mode 0 = .statics → s.stack.length ≤ n → ∃ acts s', run s acts = .ok s' ∧ s'.mode 0 = .over := by
    intro n
    induction n with
    | zero =>
      intro s _ hm hn
      have hs : s.stack = [] := List.length_eq_zero_iff.1 (Nat.le_zero.1 hn)
      exact ⟨[.dropStatic], setMode s 0 .over, by simp [run, step, hm, hs], by simp [setMode]⟩
    | succ n ih =>
      intro s h hm hn
      cases hs : s.stack with
      | nil => exact ⟨[.dropStatic], setMode s 0 .over, by simp [run, step, hm, hs], by simp [setMode]⟩
      | cons x r =>
        have hlen : r.length ≤ n := by rw [hs] at hn; simpa using hn
        have next : ∀ acts s1, run s acts = .ok s1 → Tidy s1 → s1.mode 0 = .statics → s1.stack = r → ∃ acts s', run s acts = .ok s' ∧ s'.mode 0 = .over := by
          intro acts s1 e1 h1 hm1 hr
          obtain ⟨as, s2, e2, h2⟩ := ih s1 h1 hm1 (by rw [hr]; exact hlen)
          exact ⟨acts ++ as, s2, by rw [run_append, e1]; exact e2, h2⟩
        have plain : (∀ i, x ≠ .user i) → ∃ acts s', run s acts = .ok s' ∧ s'.mode 0 = .over := by
          intro hx
          have e1 : step s .dropStatic = .ok { s with stat := fun y => if y = x then .gone else s.stat y, stack := r } := by
            simp only [step, hm, hs]
            cases x <;> simp_all
          exact next [.dropStatic] _ (by simp only [run]; rw [e1]) (h.step (a := .dropStatic) trivial e1) hm rfl
        cases x with
        | user i =>
          have e1 : step s .dropStatic = .ok { setMode s 0 (.dtor i) with stack := r } := by simp [step, hm, hs]
          have h1 := h.step (a := .dropStatic) trivial e1
          obtain ⟨s2, e2, hm2, hs2⟩ := ed _ i h1 (by simp [setMode])
          exact next [.dropStatic, .endDtor] s2 (by simp only [run]; rw [e1]; simp only []; rw [e2]) (h1.step (a := .endDtor) trivial e2) hm2 hs2
        | cfgInst => exact plain (by simp)
        | colInst => exact plain (by simp)
        | cfgPtr k => exact plain (by simp)
        | procState k => exact plain (by simp)
        | strings => exact plain (by simp)
        | names => exact plain (by simp)
  have en : ∀ n s, Tidy s → s.mode 0 = .ending → (s.tstack 0).length ≤ n → ∃ acts s', run s acts = .ok s' ∧ s'.mode 0 = .over := by
    have last : ∀ s, Tidy s → s.mode 0 = .ending → s.tstack 0 = [] → ∃ acts s', run s acts = .ok s' ∧ s'.mode 0 = .over := by
      intro s h hm ht
      have e1 : step s (.dropLocal 0) = .ok (setMode s 0 .statics) := by simp [step, hm, ht]
      obtain ⟨as, s2, e2, h2⟩ := st _ _ (h.step (a := .dropLocal 0) trivial e1) (by simp [setMode]) (Nat.le_refl _)
      exact ⟨.dropLocal 0 :: as, s2, by simp only [run]; rw [e1]; exact e2, h2⟩
    intro n
    induction n with
    | zero => intro s h hm hn; exact last s h hm (List.length_eq_zero_iff.1 (Nat.le_zero.1 hn))
    | succ n ih =>
      intro s h hm hn
      cases ht : s.tstack 0 with
      | nil => exact last s h hm ht
      | cons x r =>
        have hnu := ends_well_partial h (a := .dropLocal 0) trivial
        have e1 : step s (.dropLocal 0) = .ok { s with loc := fun u y => if u = 0 ∧ y = x then .gone else s.loc u y, tstack := fun u => if u = 0 then r else s.tstack u } := by
          by_cases hd : dtorOk s x = true
          · simp [step, hm, ht, hd]
          · exact absurd (by simp [step, hm, ht, hd]) hnu
        have hlen : r.length ≤ n := by rw [ht] at hn; simpa using hn
        obtain ⟨as, s2, e2, h2⟩ := ih _ (h.step (a := .dropLocal 0) trivial e1) hm (by simpa using hlen)
        exact ⟨.dropLocal 0 :: as, s2, by simp only [run]; rw [e1]; exact e2, h2⟩
  have dt : ∀ s i, Tidy s → s.mode 0 = .dtor i → ∃ acts s', run s acts = .ok s' ∧ s'.mode 0 = .over := by
    intro s i h hm
    obtain ⟨s1, e1, hm1, -⟩ := ed s i h hm
    obtain ⟨as, s2, e2, h2⟩ := st _ _ (h.step (a := .endDtor) trivial e1) hm1 (Nat.le_refl _)
    exact ⟨.endDtor :: as, s2, by simp only [run]; rw [e1]; exact e2, h2⟩
  cases hm : s.mode 0 with
  | run => exact absurd hm h0
  | absent => exact absurd hm (more_reach (tidy_reach h)).inv.begun
  | ending => exact en _ s h hm (Nat.le_refl _)
  | statics => exact st _ s h hm (Nat.le_refl _)
  | dtor i => exact dt s i h hm
  | over => exact ⟨[], s, rfl, hm⟩

/-! ## Threads that a global object joins -/

/-- The global object `i` was made after the static objects `xs`: these are still there while it is not destroyed. -/
def After (i : Nat) (xs : List Static) (s : State) : Prop :=
  (∃ l r, s.stack = l ++ .user i :: r ∧ ∀ x ∈ xs, x ∈ r) ∨ (s.mode 0 = .dtor i ∧ ∀ x ∈ xs, x ∈ s.stack) ∨ s.stat (.user i) = .gone

theorem after_step {i : Nat} {xs : List Static} {s s' : State} {a : Act} (hi : Inv s) (h : After i xs s) (e : step s a = .ok s') : After i xs s' := by
  have grow : ∀ l' : List Static, s'.stack = l' ++ s.stack → (s.mode 0 = .dtor i → s'.mode 0 = .dtor i) → (s.stat (.user i) = .gone → s'.stat (.user i) = .gone) → After i xs s' := by
    intro l' hl hm hg
    rcases h with ⟨l, r, hs, hx⟩ | ⟨h1, h2⟩ | h
    · exact .inl ⟨l' ++ l, r, by rw [hl, hs, List.append_assoc], hx⟩
    · exact .inr (.inl ⟨hm h1, fun x hx => by rw [hl]; exact List.mem_append_right _ (h2 x hx)⟩)
    · exact .inr (.inr (hg h))
  have hb := hi.begun
  simp only [step] at e
  split at e
  · cases e
  cases a <;> simp only at e
  case start u t o =>
    split at e <;> cases e
    rename_i hc
    have ht0 : t ≠ 0 := by rintro rfl; exact hb hc.2.1
    exact grow [] rfl (by simp [setMode, Ne.symm ht0]) (by simp [setMode])
  case call t c =>
    split at e
    · split at e
      · rename_i e'; cases e
        have g := (call_makes e' hi).2.1
        obtain ⟨l, hl, _⟩ := g.stack
        exact grow l hl (by rw [g.mode]; exact id) (g.gone _).2
      · cases e
    · cases e
  case made t j =>
    split at e <;> cases e
    rename_i hc
    refine grow [.user j] rfl id (fun hg => ?_)
    have hne : i ≠ j := by rintro rfl; rw [hc.2] at hg; cases hg
    simp [pushS, hne, hg]
  case finish t =>
    split at e <;> cases e
    rename_i hc
    exact grow [] rfl (by simp [setMode, Ne.symm hc.1]) id
  case ret =>
    split at e <;> cases e
    rename_i hc
    exact grow [] rfl (by rw [hc]; intro h; cases h) id
  case dropLocal t =>
    split at e
    · rename_i hc
      split at e
      · cases e
        refine grow [] rfl (fun hd => ?_) id
        have : t ≠ 0 := by rintro rfl; rw [hc] at hd; cases hd
        simp [setMode, Ne.symm this, hd]
      · split at e <;> cases e
        exact grow [] rfl id id
    · cases e
  case dropStatic =>
    split at e
    · rename_i hc
      rcases h with ⟨l, r, hs, hx⟩ | ⟨h1, h2⟩ | h
      · cases l with
        | nil =>
          simp only [List.nil_append] at hs
          rw [hs] at e
          simp only at e
          cases e
          exact .inr (.inl ⟨by simp [setMode], hx⟩)
        | cons y l =>
          simp only [List.cons_append] at hs
          rw [hs] at e
          have hl : s'.stack = l ++ .user i :: r := by
            split at e
            · rename_i heq; cases heq
            · rename_i heq; cases heq; cases e; rfl
            · rename_i heq; cases heq; cases e; rfl
          exact .inl ⟨l, r, hl, hx⟩
      · rw [hc] at h1; cases h1
      · refine .inr (.inr ?_)
        split at e <;> cases e
        · exact h
        · exact h
        · simp only; split
          · rfl
          · exact h
    · cases e
  case endDtor =>
    split at e
    · rename_i j hc
      split at e <;> cases e
      rcases h with ⟨l, r, hs, hx⟩ | ⟨h1, h2⟩ | h
      · exact .inl ⟨l, r, hs, hx⟩
      · rw [hc] at h1; cases h1; exact .inr (.inr (by simp))
      · exact .inr (.inr (by simp only; split <;> simp [h]))
    · cases e

/-- What was there when a global object was made is there until the object has been destroyed. -/
theorem outlives {s1 s2 s3 : State} {t0 i : Nat} {acts : List Act} {x : Static} (h1 : Reach s1) (hx : s1.stat x = .alive) (hlib : ∀ j, x ≠ .user j)
    (hm : step s1 (.made t0 i) = .ok s2) (hr : run s2 acts = .ok s3) (hi : s3.stat (.user i) ≠ .gone) : s3.stat x = .alive := by
  have hinv1 := (more_reach h1).inv
  have hinv2 := inv_step hinv1 hm
  have hs2 : s2.stack = .user i :: s1.stack := by
    simp only [step] at hm
    split at hm
    · cases hm
    · split at hm <;> cases hm
      rfl
  have hmem : x ∈ s1.stack := by
    rcases hinv1.due x hx with h | ⟨j, e, _⟩
    · exact h
    · exact absurd e (hlib j)
  have h2 : Inv s2 ∧ After i [x] s2 := ⟨hinv2, .inl ⟨[], s1.stack, by simpa using hs2, by simpa using hmem⟩⟩
  obtain ⟨hinv3, ha⟩ := run_induct (P := fun s => Inv s ∧ After i [x] s) (fun s a s' h e => ⟨inv_step h.1 e, after_step h.1 h.2 e⟩) h2 hr
  rcases ha with ⟨l, r, hs, hxs⟩ | ⟨_, hxs⟩ | hg
  · exact hinv3.alive x (by rw [hs]; exact List.mem_append_right _ (List.mem_cons_of_mem _ (hxs x (by simp))))
  · exact hinv3.alive x (hxs x (by simp))
  · exact absurd hg hi

theorem uses_lib {c : Call} {x : Static} (h : x ∈ uses c) (j : Nat) : x ≠ .user j := by
  cases c with
  | event k p => cases p <;> simp only [uses, List.mem_cons, List.not_mem_nil, or_false] at h <;> (rcases h with rfl | rfl | rfl | rfl | rfl) <;> simp
  | _ => simp only [uses, List.mem_singleton] at h; subst h; simp

/-- A global object is not destroyed before the threads that it joins have ended. -/
theorem joins {s : State} (h : Reach s) : ∀ t i, s.owner t = some i → s.mode t = .run ∨ s.mode t = .ending → s.stat (.user i) ≠ .gone := by
  obtain ⟨acts, hr⟩ := h
  refine (run_induct (P := fun s => More s ∧ s.owner 0 = none ∧ ∀ t i, s.owner t = some i → s.mode t = .run ∨ s.mode t = .ending → s.stat (.user i) ≠ .gone) ?_ ⟨more_init, rfl, by simp⟩ hr).2.2
  intro s a s' ⟨hm, ho, hp⟩ e
  refine ⟨more_step hm e, ?_⟩
  have hb := hm.inv.begun
  have hl := hm.inv.listed
  simp only [step] at e
  split at e
  · cases e
  cases a <;> simp only at e
  case call t c =>
    split at e
    · split at e
      · rename_i e'; cases e
        have g := (call_makes e' hm.inv).2.1
        rw [g.mode, g.owner]
        exact ⟨ho, fun t i h1 h2 h3 => hp t i h1 h2 ((g.gone _).1 h3)⟩
      · cases e
    · cases e
  case endDtor =>
    split at e
    · rename_i j hj
      split at e <;> cases e
      rename_i hall
      rw [List.all_eq_true] at hall
      refine ⟨ho, fun t i h1 h2 => ?_⟩
      have ht0 : t ≠ 0 := by rintro rfl; change s.owner 0 = some i at h1; rw [ho] at h1; cases h1
      change s.owner t = some i at h1
      simp only [setMode, if_neg ht0] at h2
      by_cases hij : i = j
      · subst hij
        have := hall t (hl t ht0 (by rcases h2 with h2 | h2 <;> rw [h2] <;> simp))
        simp only [h1, bne_self_eq_false, Bool.false_or, beq_iff_eq] at this
        rw [this] at h2
        simp at h2
      · simp [hij, hp t i h1 h2]
    · cases e
  all_goals (repeat' split at e)
  all_goals first | (cases e; done) | (cases e; simp only [setMode, pushS] at *; grind)

/-- If all that a call uses was there when the global object `i` was made, the threads that its destructor joins may make the call as long as they run, also while the program ends. -/
theorem threads_of_global_partial {s1 s2 s3 : State} {t0 i t : Nat} {c : Call} {acts : List Act} (h1 : Reach s1) (hc : ∀ x ∈ uses c, s1.stat x = .alive)
    (hm : step s1 (.made t0 i) = .ok s2) (hr : run s2 acts = .ok s3) (ht : s3.mode t = .run) (ho : s3.owner t = some i) : step s3 (.call t c) ≠ .ub := by
  have h2 := reach_step h1 hm
  have h3 : Reach s3 := by
    obtain ⟨as, e⟩ := h2
    exact ⟨as ++ acts, by rw [run_append, e]; exact hr⟩
  have hi := joins h3 t i ho (.inl ht)
  obtain ⟨s', e'⟩ := call_ok (t := t) (c := c) (s := s3) (fun x hx => by rw [outlives h1 (hc x hx) (uses_lib hx) hm hr hi]; simp) (fun y _ => (more_reach h3).inv.mine t (.inl ht) y)
  intro e
  simp only [step] at e
  split at e
  · cases e
  · split at e
    · rw [e'] at e; cases e
    · cases e

/-- A thread of a global object that has named itself may end, if the names were there when the object was made. -/
theorem end_of_named_partial {s1 s2 s3 : State} {t0 i t : Nat} {acts : List Act} (h1 : Reach s1) (hc : s1.stat .names = .alive)
    (hm : step s1 (.made t0 i) = .ok s2) (hr : run s2 acts = .ok s3) (ho : s3.owner t = some i) : step s3 (.dropLocal t) ≠ .ub := by
  have h3 : Reach s3 := by
    obtain ⟨as, e⟩ := reach_step h1 hm
    exact ⟨as ++ acts, by rw [run_append, e]; exact hr⟩
  intro e
  simp only [step] at e
  split at e
  · cases e
  · split at e
    · rename_i ht
      have hn := outlives h1 hc (by simp) hm hr (joins h3 t i ho (.inr ht))
      split at e
      · cases e
      · rename_i x r _
        split at e
        · cases e
        · rename_i hd
          apply hd
          cases x <;> simp [dtorOk, hn]
    · cases e

/-! ## Where the end is undefined -/

theorem passS_gone {x : Static} {f : State → Option State} {s : State} (h : s.stat x = .gone) : passS x f s = none := by simp [passS, h]
theorem passL_gone {t : Nat} {x : Local} {f : State → Option State} {s : State} (h : s.loc t x = .gone) : passL t x f s = none := by simp [passL, h]

/-- An answer of a server is undefined exactly if what it uses has been destroyed. -/
theorem answer_ub_iff {s : State} {t : Nat} (h0 : s.mode 0 ≠ .over) (ht : s.mode t = .run) :
    (step s (.call t .mapping) = .ub ↔ s.stat .strings = .gone) ∧ (step s (.call t .info) = .ub ↔ s.stat .names = .gone) ∧
    (step s (.call t .switches) = .ub ↔ s.stat .cfgInst = .gone) := by
  refine ⟨?_, ?_, ?_⟩ <;> simp only [step, ht, Mode.runs, if_neg h0, doCall, getCfg, passS] <;> simp only [if_true]
  · cases s.stat .strings <;> simp
  · cases s.stat .names <;> simp
  · cases s.stat .cfgInst <;> simp

/-- A tracepoint in any thread is undefined once the static objects of its function have been destroyed. -/
theorem late_tracepoint {s : State} {t : Nat} {k : Kind} (p : Option Nat) (h : Reach s) (h0 : s.mode 0 ≠ .over) (ht : (s.mode t).runs = true) (hg : s.stat (.cfgPtr k) = .gone ∨ s.stat (.procState k) = .gone) :
    step s (.call t (.event k p)) = .ub := by
  have hi := (more_reach h).inv
  have tp : ∀ s : State, Inv s → (s.stat (.cfgPtr k) = .gone ∨ s.stat (.procState k) = .gone) → tracepoint t k s = none := by
    intro s hi hg
    simp only [tracepoint]
    rcases hg with hg | hg
    · rw [passS_gone hg]; rfl
    · cases e1 : passS (.cfgPtr k) getCfg s with
      | none => rfl
      | some s1 =>
        obtain ⟨i1, g1, -⟩ := (makes_passS makes_getCfg (by simp) (by simp) : Makes t [.cfgPtr k, .cfgInst] [] _) _ _ e1 hi
        simp only [Option.bind_some]
        cases e2 : passL t (.colPtr k) getCol s1 with
        | none => rfl
        | some s2 =>
          obtain ⟨i2, g2, -⟩ := (makes_passL makes_getCol (by simp) : Makes t [.colInst] [.colPtr k] _) _ _ e2 i1
          simp only [Option.bind_some]
          cases e3 : passL t (.buf k) (getBuffer t) s2 with
          | none => rfl
          | some s3 =>
            obtain ⟨i3, g3, -⟩ := (makes_passL makes_getBuffer (by simp) : Makes t [.colInst] [.buf k, .colCleanup] _) _ _ e3 i2
            simp only [Option.bind_some]
            rw [passS_gone ((g3.gone _).2 ((g2.gone _).2 ((g1.gone _).2 hg)))]
            rfl
  have hd : doCall t (.event k p) s = none := by
    cases p with
    | none => exact tp s hi hg
    | some l =>
      simp only [doCall]
      cases e : registerOnce l s with
      | none => rfl
      | some s1 =>
        simp only [Option.bind_some]
        simp only [registerOnce] at e
        split at e
        · cases e; exact tp _ hi hg
        · obtain ⟨i1, g1, -⟩ := (makes_passS makes_some (by simp) (by simp) : Makes t [.strings] [] _) _ _ e (inv_done hi _)
          exact tp _ i1 (hg.imp (g1.gone _).2 (g1.gone _).2)
  simp only [step, if_neg h0, ht, if_true, hd]

/-- The thread-local objects of the main thread that were made before it returned are gone when the static objects are destroyed. -/
theorem main_locals {s1 s2 : State} {acts : List Act} {y : Local} (h1 : Reach s1) (h0 : s1.mode 0 = .run) (hy : s1.loc 0 y = .alive) (hr : run s1 acts = .ok s2)
    (hd : s2.mode 0 = .statics ∨ ∃ i, s2.mode 0 = .dtor i) : s2.loc 0 y = .gone := by
  have key := run_induct (P := fun s => Inv s ∧ (s.loc 0 y = .gone ∨ (s.loc 0 y = .alive ∧ (s.mode 0 = .run ∨ s.mode 0 = .ending)))) ?_ ⟨(more_reach h1).inv, .inr ⟨hy, .inl h0⟩⟩ hr
  · rcases key.2 with h | ⟨_, h⟩
    · exact h
    · rcases hd with hd | ⟨i, hd⟩ <;> rw [hd] at h <;> simp at h
  · intro s a s' ⟨hi, hp⟩ e
    refine ⟨inv_step hi e, ?_⟩
    have hb := hi.begun
    have hl := hi.locals 0 y
    simp only [step] at e
    split at e
    · cases e
    cases a <;> simp only at e
    case call t c =>
      split at e
      · split at e
        · rename_i e'; cases e
          have g := (call_makes e' hi).2.1
          rw [g.mode]
          by_cases ht : 0 = t
          · subst ht
            rcases hp with hp | ⟨hp, hm⟩
            · exact .inl ((g.lgone y).2 hp)
            · exact .inr ⟨g.lalive y hp, hm⟩
          · rw [(g.others 0 ht).1]; exact hp
        · cases e
      · cases e
    all_goals (repeat' split at e)
    all_goals first | (cases e; done) | (cases e; simp only [setMode, pushS] at *; grind)

/-- If the main thread passed a tracepoint before `main` returned, a tracepoint of the same function in the destructor of a global object is always undefined. -/
theorem traced_destructor {s1 s1' s2 : State} {acts : List Act} {k : Kind} {p : Option Nat} (q : Option Nat) {i : Nat} (h1 : Reach s1) (h0 : s1.mode 0 = .run)
    (hc : step s1 (.call 0 (.event k p)) = .ok s1') (hr : run s1' acts = .ok s2) (hd : s2.mode 0 = .dtor i) : step s2 (.call 0 (.event k q)) = .ub := by
  have hr1 := reach_step h1 hc
  have hmade : s1'.loc 0 (.colPtr k) = .alive ∧ s1'.mode 0 = .run := by
    have hi := (more_reach h1).inv
    have tp : ∀ s s' : State, Inv s → tracepoint 0 k s = some s' → s'.loc 0 (.colPtr k) = .alive := by
      intro s s' hi e
      simp only [tracepoint, Option.bind_eq_some_iff] at e
      obtain ⟨a1, e1, a2, e2, a3, e3, a4, e4, e5⟩ := e
      obtain ⟨i1, -⟩ := (makes_passS makes_getCfg (by simp) (by simp) : Makes 0 [.cfgPtr k, .cfgInst] [] _) _ _ e1 hi
      obtain ⟨i2, -⟩ := (makes_passL makes_getCol (by simp) : Makes 0 [.colInst] [.colPtr k] _) _ _ e2 i1
      obtain ⟨i3, g3, -⟩ := (makes_passL makes_getBuffer (by simp) : Makes 0 [.colInst] [.buf k, .colCleanup] _) _ _ e3 i2
      obtain ⟨i4, g4, -⟩ := (makes_passS makes_some (by simp) (by simp) : Makes 0 [.procState k] [] _) _ _ e4 i3
      obtain ⟨i5, g5, -⟩ := (makes_passL makes_getThreadState (by simp) : Makes 0 [.cfgInst] [.thrState k, .cfgCleanup] _) _ _ e5 i4
      refine g5.lalive _ (g4.lalive _ (g3.lalive _ ?_))
      simp only [passL] at e2
      cases hl : a1.loc 0 (.colPtr k) with
      | alive => rw [hl] at e2; cases e2; exact hl
      | gone => rw [hl] at e2; cases e2
      | fresh =>
        rw [hl] at e2
        simp only [Option.map_eq_some_iff] at e2
        obtain ⟨b, _, e2⟩ := e2
        subst e2
        simp [pushL]
    simp only [step, h0, Mode.runs, if_true] at hc
    rw [if_neg (by simp)] at hc
    split at hc
    · rename_i e'
      cases hc
      refine ⟨?_, by rw [(call_makes e' hi).2.1.mode]; exact h0⟩
      cases p with
      | none => exact tp _ _ hi e'
      | some l =>
        simp only [doCall, Option.bind_eq_some_iff] at e'
        obtain ⟨a, e1, e2⟩ := e'
        refine tp _ _ ?_ e2
        simp only [registerOnce] at e1
        split at e1
        · cases e1; exact hi
        · exact ((makes_passS makes_some (by simp) (by simp) : Makes 0 [.strings] [] _) _ _ e1 (inv_done hi _)).1
    · cases hc
  have hg := main_locals hr1 hmade.2 hmade.1 hr (.inr ⟨i, hd⟩)
  have hr2 : Reach s2 := by
    obtain ⟨as, e⟩ := hr1
    exact ⟨as ++ acts, by rw [run_append, e]; exact hr⟩
  have hi2 := (more_reach hr2).inv
  have tp : ∀ s : State, Inv s → s.loc 0 (.colPtr k) = .gone → tracepoint 0 k s = none := by
    intro s hi hg
    simp only [tracepoint]
    cases e1 : passS (.cfgPtr k) getCfg s with
    | none => rfl
    | some s1 =>
      obtain ⟨i1, g1, -⟩ := (makes_passS makes_getCfg (by simp) (by simp) : Makes 0 [.cfgPtr k, .cfgInst] [] _) _ _ e1 hi
      simp only [Option.bind_some]
      rw [passL_gone ((g1.lgone _).2 hg)]
      rfl
  have hdc : doCall 0 (.event k q) s2 = none := by
    cases q with
    | none => exact tp s2 hi2 hg
    | some l =>
      simp only [doCall]
      cases e : registerOnce l s2 with
      | none => rfl
      | some s1 =>
        simp only [Option.bind_some]
        simp only [registerOnce] at e
        split at e
        · cases e; exact tp _ hi2 hg
        · obtain ⟨i1, g1, -⟩ := (makes_passS makes_some (by simp) (by simp) : Makes 0 [.strings] [] _) _ _ e (inv_done hi2 _)
          exact tp _ i1 ((g1.lgone _).2 hg)
  simp [step, hd, Mode.runs, hdc]

/-- A thread that has named itself and ends after the names have been destroyed. -/
theorem named_end {s : State} {t : Nat} {r : List Local} (h0 : s.mode 0 ≠ .over) (ht : s.mode t = .ending) (hl : s.tstack t = .nameCleanup :: r) (hg : s.stat .names = .gone) : step s (.dropLocal t) = .ub := by
  simp [step, h0, ht, hl, dtorOk, hg]

/-- Thread `t`, which nobody joins, is the only other thread, and the main thread has this mode. -/
structure Left (t : Nat) (m : Mode) (s : State) : Prop where
  reach : Reach s
  main : s.mode 0 = m
  runs : s.mode t = .run
  free : s.owner t = none
  only : ∀ u, u ≠ 0 → u ≠ t → s.mode u = .absent ∨ s.mode u = .over

/-- A program with a thread that nobody joins and that may still trace when `main` has returned can always end undefined, if the function of the tracepoint was used before. -/
theorem detached_thread {s : State} {t : Nat} {k : Kind} (h : Left t .run s) (ht : t ≠ 0) (hk : s.stat (.procState k) = .alive) : ∃ acts, run s acts = .ub := by
  have drop : ∀ n s, Left t .statics s → s.stat (.procState k) = .alive → s.stack.length ≤ n → ∃ acts, run s acts = .ub := by
    intro n
    induction n with
    | zero =>
      intro s h hk hn
      rcases (more_reach h.reach).inv.due _ hk with hm | ⟨i, e, _⟩
      · rw [List.length_eq_zero_iff.1 (Nat.le_zero.1 hn)] at hm; cases hm
      · cases e
    | succ n ih =>
      intro s h hk hn
      cases hs : s.stack with
      | nil =>
        rcases (more_reach h.reach).inv.due _ hk with hm | ⟨i, e, _⟩
        · rw [hs] at hm; cases hm
        · cases e
      | cons x r =>
        have hlen : r.length ≤ n := by rw [hs] at hn; simpa using hn
        have plain : (∀ i, x ≠ .user i) → ∃ acts, run s acts = .ub := by
          intro hx
          have e1 : step s .dropStatic = .ok { s with stat := fun y => if y = x then .gone else s.stat y, stack := r } := by
            simp only [step, h.main, hs]
            cases x <;> simp_all
          by_cases hxk : x = .procState k
          · have hub := late_tracepoint (t := t) (k := k) none (reach_step h.reach e1) (by simp [h.main]) (by simp [h.runs, Mode.runs]) (.inr (by simp [hxk]))
            exact ⟨[.dropStatic, .call t (.event k none)], by simp only [run]; rw [e1]; simp only []; rw [hub]⟩
          · obtain ⟨as, e2⟩ := ih _ ⟨reach_step h.reach e1, h.main, h.runs, h.free, h.only⟩ (by simp [Ne.symm hxk, hk]) hlen
            exact ⟨.dropStatic :: as, by simp only [run]; rw [e1]; exact e2⟩
        cases x with
        | user i =>
          have e1 : step s .dropStatic = .ok { setMode s 0 (.dtor i) with stack := r } := by simp [step, h.main, hs]
          have hr1 := reach_step h.reach e1
          have hp := (more_reach hr1).present
          have hall : (State.threads { setMode s 0 (.dtor i) with stack := r }).all (fun t => (State.owner { setMode s 0 (.dtor i) with stack := r }) t != some i
              || (State.mode { setMode s 0 (.dtor i) with stack := r }) t == .over) = true := by
            rw [List.all_eq_true]
            intro u hu
            obtain ⟨hu0, hua⟩ := hp u hu
            by_cases hut : u = t
            · subst hut; have := h.free; simp [setMode, this]
            · simp only [setMode, if_neg hu0] at hua ⊢
              rcases h.only u hu0 hut with e | e
              · exact absurd e hua
              · simp [e]
          have e2 : ∃ s2, step { setMode s 0 (.dtor i) with stack := r } .endDtor = .ok s2 ∧ Left t .statics s2 ∧ s2.stat (.procState k) = .alive ∧ s2.stack = r := by
            have hm : (State.mode { setMode s 0 (.dtor i) with stack := r }) 0 = .dtor i := by simp [setMode]
            have e : step { setMode s 0 (.dtor i) with stack := r } .endDtor = .ok { setMode { setMode s 0 (.dtor i) with stack := r } 0 .statics with
                stat := fun y => if y = .user i then .gone else s.stat y } := by
              generalize hg : ({ setMode s 0 (.dtor i) with stack := r } : State) = g at hall hm
              have hst : g.stat = s.stat := by subst hg; rfl
              simp only [step, hm]
              rw [if_neg (by simp), if_pos hall, hst]
            refine ⟨_, e, ⟨reach_step hr1 e, by simp [setMode], by simp [setMode, ht, h.runs], h.free, fun u hu0 hut => ?_⟩, by simp [hk], rfl⟩
            simp only [setMode, if_neg hu0]
            exact h.only u hu0 hut
          obtain ⟨s2, e2, hl2, hk2, hs2⟩ := e2
          obtain ⟨as, e3⟩ := ih s2 hl2 hk2 (by rw [hs2]; exact hlen)
          exact ⟨.dropStatic :: .endDtor :: as, by simp only [run]; rw [e1]; simp only []; rw [e2]; exact e3⟩
        | cfgInst => exact plain (by simp)
        | colInst => exact plain (by simp)
        | cfgPtr k => exact plain (by simp)
        | procState k => exact plain (by simp)
        | strings => exact plain (by simp)
        | names => exact plain (by simp)
  have en : ∀ n s, Left t .ending s → s.stat (.procState k) = .alive → (s.tstack 0).length ≤ n → ∃ acts, run s acts = .ub := by
    have last : ∀ s, Left t .ending s → s.stat (.procState k) = .alive → s.tstack 0 = [] → ∃ acts, run s acts = .ub := by
      intro s h hk hst
      have e1 : step s (.dropLocal 0) = .ok (setMode s 0 .statics) := by simp [step, h.main, hst]
      obtain ⟨as, e2⟩ := drop _ (setMode s 0 .statics) ⟨reach_step h.reach e1, by simp [setMode], by simp [setMode, ht, h.runs], h.free,
        fun u hu0 hut => by simp only [setMode, if_neg hu0]; exact h.only u hu0 hut⟩ hk (Nat.le_refl _)
      exact ⟨.dropLocal 0 :: as, by simp only [run]; rw [e1]; exact e2⟩
    intro n
    induction n with
    | zero => intro s h hk hn; exact last s h hk (List.length_eq_zero_iff.1 (Nat.le_zero.1 hn))
    | succ n ih =>
      intro s h hk hn
      cases hst : s.tstack 0 with
      | nil => exact last s h hk hst
      | cons x r =>
        by_cases hd : dtorOk s x = true
        · have e1 : step s (.dropLocal 0) = .ok { s with loc := fun u y => if u = 0 ∧ y = x then .gone else s.loc u y, tstack := fun u => if u = 0 then r else s.tstack u } := by
            simp [step, h.main, hst, hd]
          have hlen : r.length ≤ n := by rw [hst] at hn; simpa using hn
          obtain ⟨as, e2⟩ := ih _ ⟨reach_step h.reach e1, h.main, h.runs, h.free, h.only⟩ hk (by simpa using hlen)
          exact ⟨.dropLocal 0 :: as, by simp only [run]; rw [e1]; exact e2⟩
        · exact ⟨[.dropLocal 0], by simp [run, step, h.main, hst, hd]⟩
  have e1 : step s .ret = .ok (setMode s 0 .ending) := by simp [step, h.main]
  obtain ⟨as, e2⟩ := en _ (setMode s 0 .ending) ⟨reach_step h.reach e1, by simp [setMode], by simp [setMode, ht, h.runs], h.free,
    fun u hu0 hut => by simp only [setMode, if_neg hu0]; exact h.only u hu0 hut⟩ hk (Nat.le_refl _)
  exact ⟨.ret :: as, by simp only [run]; rw [e1]; exact e2⟩

/-- A global object that was made before the first tracepoint: its thread answers a request while the program ends. -/
def exposer : List Act := [.start 0 1 (some 7), .made 0 7, .call 0 (.event .mark (some 3)), .ret, .dropLocal 0, .dropLocal 0, .dropLocal 0, .dropLocal 0, .dropLocal 0, .dropLocal 0,
  .dropStatic, .dropStatic, .dropStatic, .dropStatic, .dropStatic, .call 1 .mapping]

def isUb : Out → Bool
  | .ub => true
  | _ => false

theorem exposer_ub : run {} exposer = .ub := by
  have h : isUb (run {} exposer) = true := by decide +kernel
  revert h
  cases run {} exposer <;> simp [isUb]

theorem not_NeverUndefined : ¬ NeverUndefined := fun h => h _ exposer_ub

/-! ## Cases -/

/-- Does the run succeed, and what does it leave? -/
def view {α : Type} (f : State → α) : Out → Option α
  | .ok s => some (f s)
  | _ => none

theorem view_ok {α : Type} {f : State → α} {o : Out} {a : α} (h : view f o = some a) : ∃ s, o = .ok s ∧ f s = a := by
  cases o <;> simp [view] at h
  exact ⟨_, rfl, h⟩

/-- A thread that is named, traces and is joined before `main` returns. -/
def joined : List Act := [.start 0 1 none, .call 1 .nameThread, .call 1 (.event .entry (some 3)), .call 1 (.event .exit none), .finish 1, .dropLocal 1]

example : view (fun s => (s.mode 0, s.mode 1, (s.tstack 1).length)) (run {} joined) = some (.run, .ending, 8) := by decide +kernel

/-- The first tracepoint of a program in the destructor of a global object. -/
example : view (fun s => (s.mode 0, s.stack.length)) (run {} [.made 0 7, .ret, .dropLocal 0, .dropStatic, .call 0 (.event .mark (some 3))]) = some (.dtor 7, 5) := by decide +kernel

/-- `traced_destructor`: the hypotheses are met. -/
example : view (fun s => s.mode 0) (run {} [.made 0 7, .call 0 (.event .mark (some 3)), .ret, .dropLocal 0, .dropLocal 0, .dropLocal 0, .dropLocal 0, .dropLocal 0, .dropLocal 0,
    .dropStatic, .dropStatic, .dropStatic, .dropStatic, .dropStatic, .dropStatic]) = some (.dtor 7) := by decide +kernel

/-- `threads_of_global_partial`: a sender and an answer of a global object that was made after the first tracepoint, while its destructor runs. -/
example : view (fun s => (s.mode 0, s.mode 1, s.owner 1, s.stat (.user 7))) (run {} [.call 0 (.event .mark (some 3)), .start 0 1 (some 7), .made 0 7, .ret, .dropLocal 0, .dropLocal 0, .dropLocal 0,
    .dropLocal 0, .dropLocal 0, .dropLocal 0, .dropStatic, .call 1 .mapping, .call 1 (.event .mark (some 4))]) = some (.dtor 7, .run, some 7, .alive) := by decide +kernel

/-- `ends_well_partial` and `can_end`: a program that traces, returns and ends. -/
example : view (fun s => s.mode 0) (run {} (joined ++ List.replicate 9 (.dropLocal 1) ++ [.made 0 7, .ret, .dropLocal 0, .dropStatic, .endDtor] ++ List.replicate 9 .dropStatic)) = some .over := by decide +kernel

/-! ### Places that have registered their name -/

/-- The function does not register places. -/
def SameDone (f : State → Option State) : Prop := ∀ s s', f s = some s' → s'.done = s.done

theorem same_some : SameDone some := by
  intro s s' h
  injection h with h
  rw [h]

theorem same_passS {x : Static} {f : State → Option State} (hf : SameDone f) : SameDone (passS x f) := by
  intro s s' h
  simp only [passS] at h
  split at h
  · injection h with h; rw [h]
  · cases h
  · rw [Option.map_eq_some_iff] at h
    obtain ⟨s1, e1, rfl⟩ := h
    exact hf s s1 e1

theorem same_passL {t : Nat} {x : Local} {f : State → Option State} (hf : SameDone f) : SameDone (passL t x f) := by
  intro s s' h
  simp only [passL] at h
  split at h
  · injection h with h; rw [h]
  · cases h
  · rw [Option.map_eq_some_iff] at h
    obtain ⟨s1, e1, rfl⟩ := h
    exact hf s s1 e1

theorem same_bind {f g : State → Option State} (hf : SameDone f) (hg : SameDone g) : SameDone (fun s => (f s).bind g) := by
  intro s s' h
  rw [Option.bind_eq_some_iff] at h
  obtain ⟨s1, e1, e2⟩ := h
  rw [hg s1 s' e2, hf s s1 e1]

theorem same_tracepoint (t : Nat) (k : Kind) : SameDone (tracepoint t k) :=
  same_bind (same_passS (same_passS same_some)) (same_bind (same_passL (same_passS same_some)) (same_bind (same_passL (same_bind (same_passS same_some) (same_passL same_some)))
    (same_bind (same_passS same_some) (same_passL (same_bind (same_passS same_some) (same_passL same_some))))))

/-- Does the step trace at place `l`? -/
def traces (l : Nat) : Act → Bool
  | .call _ (.event _ (some m)) => decide (m = l)
  | _ => false

theorem done_step {s s' : State} {a : Act} (h : step s a = .ok s') (l : Nat) : s'.done l = (s.done l || traces l a) := by
  have same : ∀ f : State → Option State, SameDone f → ∀ s s', f s = some s' → s'.done l = (s.done l || false) := by
    intro f hf s s' e
    rw [hf s s' e, Bool.or_false]
  simp only [step] at h
  split at h
  · cases h
  · cases a with
    | call t c =>
      simp only at h
      split at h
      · cases hc : doCall t c s with
        | none => rw [hc] at h; cases h
        | some s1 =>
          rw [hc] at h
          injection h with h
          subst h
          cases c with
          | event k p =>
            cases p with
            | none => exact same _ (same_tracepoint t k) _ _ hc
            | some m =>
              simp only [doCall] at hc
              rw [Option.bind_eq_some_iff] at hc
              obtain ⟨s2, e1, e2⟩ := hc
              rw [same_tracepoint t k s2 s1 e2]
              simp only [registerOnce] at e1
              split at e1
              · rename_i hd
                injection e1 with e1
                subst e1
                by_cases e : m = l
                · subst e; simp [hd]
                · simp [traces, e]
              · rename_i hd
                rw [same_passS same_some _ _ e1]
                by_cases e : m = l
                · subst e; simp [traces]
                · have : ¬ l = m := fun x => e x.symm
                  simp [traces, e, this]
          | nameThread => exact same _ (same_bind (same_passS same_some) (same_passL same_some)) _ _ hc
          | threadSwitch => exact same _ (same_bind (same_passS same_some) (same_bind (same_passS same_some) (same_passL same_some))) _ _ hc
          | processSwitch => exact same _ (same_passS same_some) _ _ hc
          | mapping => exact same _ (same_passS same_some) _ _ hc
          | info => exact same _ (same_passS same_some) _ _ hc
          | switches => exact same _ (same_passS same_some) _ _ hc
          | sender => exact same _ (same_passS same_some) _ _ hc
      · cases h
    | _ =>
      simp only at h
      repeat' split at h
      all_goals first
        | (cases h; done)
        | (injection h with h; subst h; simp [setMode, pushS, traces])

/-- A place has registered its name exactly if it has traced. -/
theorem place_registered (acts : List Act) (s : State) (h : run {} acts = .ok s) (l : Nat) : s.done l = acts.any (traces l) := by
  have key : ∀ (acts : List Act) (s0 s : State), run s0 acts = .ok s → s.done l = (s0.done l || acts.any (traces l)) := by
    intro acts
    induction acts with
    | nil => intro s0 s h; simp only [run, Out.ok.injEq] at h; subst h; simp
    | cons a acts ih =>
      intro s0 s h
      simp only [run] at h
      cases h1 : step s0 a with
      | no => rw [h1] at h; cases h
      | ub => rw [h1] at h; cases h
      | ok s1 =>
        rw [h1] at h
        rw [ih s1 s h, done_step h1 l, List.any_cons, Bool.or_assoc]
  simpa using key acts {} s h

/-- **C122, late tracepoints.** When the names are destroyed, a place that has traced before needs them no more: its event is like one without a name. A place that has not traced before cannot. -/
theorem late_place (acts : List Act) (s : State) (h : run {} acts = .ok s) (hg : s.stat .strings = .gone) (h0 : s.mode 0 ≠ .over) (t : Nat) (ht : (s.mode t).runs = true) (k : Kind) (l : Nat) :
    step s (.call t (.event k (some l))) = if acts.any (traces l) then step s (.call t (.event k none)) else .ub := by
  have hd := place_registered acts s h l
  cases e : acts.any (traces l) with
  | true =>
    rw [e] at hd
    simp [step, h0, ht, doCall, registerOnce, hd]
  | false =>
    rw [e] at hd
    simp [step, h0, ht, doCall, registerOnce, hd, passS, hg]

/-- The names are gone in the destructor of a global object; a place has traced, another not. -/
example : view (fun s => (s.mode 0, s.stat .strings, (s.mode 0).runs)) (run {} [.made 0 7, .call 0 (.event .mark (some 3)), .ret, .dropLocal 0, .dropLocal 0, .dropLocal 0, .dropLocal 0, .dropLocal 0, .dropLocal 0,
    .dropStatic, .dropStatic, .dropStatic, .dropStatic, .dropStatic, .dropStatic]) = some (.dtor 7, .gone, true) := by decide +kernel

/-- A thread that does not exist, has ended, or destroys its thread-local objects calls nothing of the library of its own, starts no thread and makes no object. -/
theorem only_running_act (s : State) (t : Nat) (h : s.mode t ≠ .run) (hd : ∀ d, s.mode t ≠ .dtor d) (c : Call) (u i : Nat) (o : Option Nat) : step s (.call t c) = .no ∧ step s (.start t u o) = .no ∧ step s (.made t i) = .no := by
  have hr : (s.mode t).runs = false := by
    cases hm : s.mode t with
    | run => exact absurd hm h
    | dtor d => exact absurd hm (hd d)
    | _ => rfl
  simp [step, hr]

example : (∀ d, ({} : State).mode 1 ≠ .dtor d) ∧ ({} : State).mode 1 ≠ .run := ⟨(fun _ e => by cases e), (fun e => by cases e)⟩

end Scalopus.C122
