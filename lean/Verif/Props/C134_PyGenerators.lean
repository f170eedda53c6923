import Verif.Model.PyGenerators

/-!
# C134: sections in generators and coroutines

A decorated function is one section from its call to its return, and a suppressed one records nothing. For a function that pauses this is false: the decorators only surround the making of the generator. Its body records the same
events, at the same times, whatever the decorators. The `with` statements in a body are recorded, each entry once and each exit once when the body has ended or has been closed; but a body that pauses inside of a section
leaves the events of the thread not nested, and one that pauses inside of a switcher leaves the rest of the thread unrecorded. If bodies pause outside of `with` statements only, the events of the thread are nested and its
state is the one that the rest of the program made.
-/

namespace Scalopus.C134
open Scalopus.PyGenerators

/-! ## Specification -/

/-- What a body records if it is recorded at all: entries and exits around the parts, in the order of the text. -/
def evs : Stmt → List (Kind × Nat)
  | .skip => []
  | .pause => []
  | .mark id => [(.mark, id)]
  | .seq a b => evs a ++ evs b
  | .trace id b => (.enter, id) :: (evs b ++ [(.exit, id)])
  | .off _ b => evs b

/-- The events nest: an exit is that of the section that was entered last and has not been left. The result are the sections that are open, the innermost first. -/
def nest : List Nat → List Ev → Option (List Nat)
  | st, [] => some st
  | st, ⟨_, .mark, _⟩ :: es => nest st es
  | st, ⟨_, .enter, id⟩ :: es => nest (id :: st) es
  | t :: st, ⟨_, .exit, id⟩ :: es => if t = id then nest st es else none
  | [], ⟨_, .exit, _⟩ :: _ => none

/-- The events are nested. -/
def Nested (l : List Ev) : Prop := ∃ st, nest [] l = some st

/-- The body never pauses. -/
def Straight : Stmt → Prop
  | .pause => False
  | .seq a b => Straight a ∧ Straight b
  | .trace _ b => Straight b
  | .off _ b => Straight b
  | _ => True

/-- The body pauses outside of `with` statements only. -/
def Outside : Stmt → Prop
  | .seq a b => Outside a ∧ Outside b
  | .trace _ b => Straight b
  | .off _ b => Straight b
  | _ => True

/-- No switcher is used in itself, and none of `used` is. -/
def Tidy (used : List Nat) : Stmt → Prop
  | .seq a b => Tidy used a ∧ Tidy used b
  | .trace _ b => Tidy used b
  | .off k b => k ∉ used ∧ Tidy (k :: used) b
  | _ => True

/-- The body has no switcher. -/
def NoSwitch : Stmt → Prop
  | .seq a b => NoSwitch a ∧ NoSwitch b
  | .trace _ b => NoSwitch b
  | .off _ _ => False
  | _ => True

/-- The switchers of decorators. -/
def switches : List Dec → List Nat
  | [] => []
  | .traced _ :: ds => switches ds
  | .suppressed k :: ds => k :: switches ds

/-- The sections of decorators that are not inside of a `suppressed`. -/
def shown : List Dec → List Nat
  | .traced id :: ds => id :: shown ds
  | _ => []

def entries (ids : List Nat) : List Ev := ids.map fun id => ⟨none, .enter, id⟩
def exits (ids : List Nat) : List Ev := ids.reverse.map fun id => ⟨none, .exit, id⟩

/-- The bodies of the generators that were made, in order. -/
def bodies : List Act → List Stmt
  | [] => []
  | .call _ b :: as => b :: bodies as
  | _ :: as => bodies as

/-- What a generator has recorded. -/
def own (g : Nat) (l : List Ev) : List (Kind × Nat) :=
  (l.filter fun e => e.owner == some g).map fun e => (e.kind, e.id)

/-- There is no switcher among the `with` statements. -/
def allOn : List Frame → Bool
  | [] => true
  | .section _ :: st => allOn st
  | .switch _ :: _ => false

/-! ## Events at the places of the code -/

theorem nest_append (a b : List Ev) : ∀ st, nest st (a ++ b) = (nest st a).bind (fun st' => nest st' b) := by
  induction a with
  | nil => intro st; rfl
  | cons e es ih =>
    intro st
    obtain ⟨o, k, id⟩ := e
    cases k with
    | mark => simp [nest, ih]
    | enter => simp [nest, ih]
    | exit =>
      cases st with
      | nil => simp [nest]
      | cons t st =>
        simp only [List.cons_append, nest]
        split
        · exact ih st
        · rfl

theorem emit_on {s : State} (h : s.thread = true) (e : Ev) : emit s e = { s with events := s.events ++ [e] } := by
  simp [emit, h]

theorem emit_off {s : State} (h : s.thread = false) (e : Ev) : emit s e = s := by
  simp [emit, h]

/-- What a body that does not pause does, by its structure. -/
def runP (o : Option Nat) : State → Stmt → State
  | s, .skip => s
  | s, .pause => s
  | s, .mark id => emit s ⟨o, .mark, id⟩
  | s, .seq a b => runP o (runP o s a) b
  | s, .trace id b => leave (runP o (enter s o (.section id)) b) o (.section id)
  | s, .off k b => leave (runP o (enter s o (.switch k)) b) o (.switch k)

theorem resume_straight (o : Option Nat) : ∀ (b : Stmt) (s : State) (c : List Instr) (st : List Frame), Straight b →
    resume o s (compile b ++ c) st = resume o (runP o s b) c st := by
  intro b
  induction b with
  | skip => intro s c st _; rfl
  | mark id => intro s c st _; rfl
  | pause => intro s c st h; exact h.elim
  | seq a b iha ihb =>
    intro s c st h
    simp only [compile, List.append_assoc, runP]
    rw [iha _ _ _ h.1, ihb _ _ _ h.2]
  | trace id b ih =>
    intro s c st h
    simp only [compile, List.cons_append, List.append_assoc, List.nil_append, runP, resume]
    rw [ih _ _ _ h]
    rfl
  | off k b ih =>
    intro s c st h
    simp only [compile, List.cons_append, List.append_assoc, List.nil_append, runP, resume]
    rw [ih _ _ _ h]
    rfl

/-! ## The decorators surround the making of the generator -/

theorem call_off (body : Stmt) : ∀ (ds : List Dec) (s : State), s.thread = false → (switches ds).Nodup →
    (call s body ds).gens = s.gens ++ [{ code := compile body }] ∧ (call s body ds).thread = false ∧
      (call s body ds).main = s.main ∧ (call s body ds).events = s.events ∧
      ∀ j, j ∉ switches ds → (call s body ds).old j = s.old j := by
  intro ds
  induction ds with
  | nil => intro s h _; exact ⟨rfl, h, rfl, rfl, fun _ _ => rfl⟩
  | cons d ds ih =>
    intro s h hn
    cases d with
    | traced id =>
      have he : enter s none (frameOf (.traced id)) = s := emit_off h _
      obtain ⟨a, b, c, d, e⟩ := ih s h hn
      have hl : leave (call s body ds) none (frameOf (.traced id)) = call s body ds := emit_off b _
      simp only [call, he, hl]
      exact ⟨a, b, c, d, e⟩
    | suppressed k =>
      obtain ⟨hk, hn⟩ := List.nodup_cons.1 hn
      obtain ⟨a, b, c, d, e⟩ := ih (enter s none (.switch k)) rfl hn
      refine ⟨a, ?_, c, d, ?_⟩
      · show (call (enter s none (.switch k)) body ds).old k = false
        rw [e k hk]
        simp [enter, h]
      · intro j hj
        simp only [switches, List.mem_cons, not_or] at hj
        show (call (enter s none (.switch k)) body ds).old j = s.old j
        rw [e j hj.2]
        simp [enter, hj.1]

theorem call_on (body : Stmt) : ∀ (ds : List Dec) (s : State), s.thread = true → (switches ds).Nodup →
    (call s body ds).gens = s.gens ++ [{ code := compile body }] ∧ (call s body ds).thread = true ∧
      (call s body ds).main = s.main ∧ (call s body ds).events = s.events ++ entries (shown ds) ++ exits (shown ds) ∧
      ∀ j, j ∉ switches ds → (call s body ds).old j = s.old j := by
  intro ds
  induction ds with
  | nil => intro s h _; exact ⟨rfl, h, rfl, by simp [call, shown, entries, exits], fun _ _ => rfl⟩
  | cons d ds ih =>
    intro s h hn
    cases d with
    | traced id =>
      have he : enter s none (frameOf (.traced id)) = { s with events := s.events ++ [⟨none, .enter, id⟩] } := emit_on h _
      obtain ⟨a, b, c, d, e⟩ := ih { s with events := s.events ++ [⟨none, .enter, id⟩] } h hn
      have hl := emit_on b ⟨none, .exit, id⟩
      have hc : call s body (.traced id :: ds) = emit (call { s with events := s.events ++ [⟨none, .enter, id⟩] } body ds) ⟨none, .exit, id⟩ := by
        simp only [call, he]
        rfl
      rw [hc, hl]
      refine ⟨a, b, c, ?_, e⟩
      show _ ++ [_] = _
      rw [d]
      simp [entries, exits, shown]
    | suppressed k =>
      obtain ⟨hk, hn⟩ := List.nodup_cons.1 hn
      obtain ⟨a, b, c, d, e⟩ := call_off body ds (enter s none (.switch k)) rfl hn
      refine ⟨a, ?_, c, ?_, ?_⟩
      · show (call (enter s none (.switch k)) body ds).old k = true
        rw [e k hk]
        simp [enter, h]
      · show (call (enter s none (.switch k)) body ds).events = _
        rw [d]
        simp [enter, shown, entries, exits]
      · intro j hj
        simp only [switches, List.mem_cons, not_or] at hj
        show (call (enter s none (.switch k)) body ds).old j = s.old j
        rw [e j hj.2]
        simp [enter, hj.1]

/-- **A call of a decorated generator function** in a thread that records makes the same generator as without decorators, leaves the thread's state, and records the decorators' sections with nothing in them. -/
theorem decorated_call (s : State) (body : Stmt) (ds : List Dec) (h : s.thread = true) (hn : (switches ds).Nodup) :
    (step s (.call ds body)).gens = (step s (.call [] body)).gens ∧ (step s (.call ds body)).thread = true ∧
      (step s (.call ds body)).events = s.events ++ entries (shown ds) ++ exits (shown ds) := by
  obtain ⟨a, b, _, d, _⟩ := call_on body ds s h hn
  exact ⟨a, b, d⟩

/-- Two decorators, one on top of the other: there are such calls, and each of them shows a section around nothing. -/
example : (step {} (.call [.traced 3, .suppressed 0, .traced 4] (.seq (.mark 7) .pause))).events =
    [⟨none, .enter, 3⟩, ⟨none, .exit, 3⟩] := by decide

theorem runP_events (o : Option Nat) : ∀ (b : Stmt) (s : State), NoSwitch b → s.thread = true →
    runP o s b = { s with events := s.events ++ (evs b).map fun p => ⟨o, p.1, p.2⟩ } := by
  intro b
  induction b with
  | skip => intro s _ _; simp [runP, evs]
  | pause => intro s _ _; simp [runP, evs]
  | mark id => intro s _ h; simp [runP, evs, emit, h]
  | seq a b iha ihb =>
    intro s hn h
    simp only [runP]
    rw [iha s hn.1 h, ihb _ hn.2 (by exact h)]
    simp [evs]
  | trace id b ih =>
    intro s hn h
    simp only [runP, enter]
    rw [emit_on h, ih _ hn (by exact h)]
    simp [leave, emit, h, evs]
  | off k b ih => intro s hn _; exact hn.elim

/-- The events of the resumption of generator `g`, the last one that was made, if its body does not pause. -/
theorem resume_last (s : State) (b : Stmt) (hb : Straight b) (hs : NoSwitch b) (ht : s.thread = true) (l : List Gen)
    (hg : s.gens = l ++ [{ code := compile b }]) :
    (step s (.resume l.length)).events = s.events ++ (evs b).map fun p => ⟨some l.length, p.1, p.2⟩ := by
  have h1 : s.gens[l.length]? = some { code := compile b } := by rw [hg]; simp
  have h2 := resume_straight (some l.length) b s [] [] hb
  rw [List.append_nil, runP_events _ b s hs ht] at h2
  simp only [step, h1, h2, resume]

/-- **A suppressed generator records everything**: whatever its body, with the thread on, the first resumption records all that the body would record without the decorator. -/
theorem suppressed_is_recorded (s : State) (b : Stmt) (k : Nat) (hb : Straight b) (hs : NoSwitch b) (ht : s.thread = true) :
    (run s [.call [.suppressed k] b, .resume s.gens.length]).events =
      s.events ++ (evs b).map fun p => ⟨some s.gens.length, p.1, p.2⟩ := by
  obtain ⟨a, c, _, d, _⟩ := call_on b [.suppressed k] s ht (by simp [switches])
  have := resume_last (call s b [.suppressed k]) b hb hs c s.gens a
  simpa [run, step, d, shown, entries, exits] using this

/-- **A traced generator does its work outside of its section**: the section ends before the body begins. -/
theorem traced_is_outside (s : State) (b : Stmt) (id : Nat) (hb : Straight b) (hs : NoSwitch b) (ht : s.thread = true) :
    (run s [.call [.traced id] b, .resume s.gens.length]).events =
      s.events ++ [⟨none, .enter, id⟩, ⟨none, .exit, id⟩] ++ (evs b).map fun p => ⟨some s.gens.length, p.1, p.2⟩ := by
  obtain ⟨a, c, _, d, _⟩ := call_on b [.traced id] s ht (by simp [switches])
  have := resume_last (call s b [.traced id]) b hb hs c s.gens a
  simpa [run, step, d, shown, entries, exits] using this

example : (run {} [.call [.traced 1, .suppressed 0] (.trace 2 (.mark 3)), .resume 0]).events =
    [⟨none, .enter, 1⟩, ⟨none, .exit, 1⟩, ⟨some 0, .enter, 2⟩, ⟨some 0, .mark, 3⟩, ⟨some 0, .exit, 2⟩] := by decide

/-! ## Nothing later depends on the decorators -/

/-- The frame is of no switcher in `D`. -/
def Free (D : List Nat) : Frame → Prop
  | .section _ => True
  | .switch k => k ∉ D

/-- The instruction uses no switcher in `D`. -/
def FreeI (D : List Nat) : Instr → Prop
  | .enter f => Free D f
  | _ => True

/-- The body uses no switcher in `D`. -/
def FreeS (D : List Nat) : Stmt → Prop
  | .seq a b => FreeS D a ∧ FreeS D b
  | .trace _ b => FreeS D b
  | .off k b => k ∉ D ∧ FreeS D b
  | _ => True

/-- The action uses no switcher in `D`. -/
def FreeA (D : List Nat) : Act → Prop
  | .call ds b => FreeS D b ∧ ∀ k ∈ switches ds, k ∉ D
  | .enter f => Free D f
  | _ => True

theorem compile_free {D : List Nat} : ∀ {b : Stmt}, FreeS D b → ∀ i ∈ compile b, FreeI D i := by
  intro b
  induction b with
  | skip => intro _ i hi; simp [compile] at hi
  | mark id => intro _ i hi; simp [compile] at hi; subst hi; trivial
  | pause => intro _ i hi; simp [compile] at hi; subst hi; trivial
  | seq a b iha ihb =>
    intro h i hi
    rcases List.mem_append.1 hi with hi | hi
    · exact iha h.1 i hi
    · exact ihb h.2 i hi
  | trace id b ih =>
    intro h i hi
    simp only [compile, List.mem_cons, List.mem_append, List.not_mem_nil, or_false] at hi
    rcases hi with hi | hi | hi
    · subst hi; trivial
    · exact ih h i hi
    · subst hi; trivial
  | off k b ih =>
    intro h i hi
    simp only [compile, List.mem_cons, List.mem_append, List.not_mem_nil, or_false] at hi
    rcases hi with hi | hi | hi
    · subst hi; exact h.1
    · exact ih h.2 i hi
    · subst hi; trivial

/-- Two threads that differ in what was recorded before and in the memory of the switchers in `D`. -/
structure Like (D : List Nat) (p q : List Ev) (s t : State) : Prop where
  gens : s.gens = t.gens
  main : s.main = t.main
  thread : s.thread = t.thread
  old : ∀ k, k ∉ D → s.old k = t.old k
  events : ∃ l, s.events = p ++ l ∧ t.events = q ++ l
  freeG : ∀ x ∈ t.gens, (∀ i ∈ x.code, FreeI D i) ∧ ∀ f ∈ x.stack, Free D f
  freeM : ∀ f ∈ t.main, Free D f

variable {D : List Nat} {p q : List Ev}

theorem like_emit {s t : State} (h : Like D p q s t) (e : Ev) : Like D p q (emit s e) (emit t e) := by
  obtain ⟨l, h1, h2⟩ := h.events
  cases ht : t.thread with
  | false => rw [emit_off ht, emit_off (h.thread.trans ht)]; exact h
  | true =>
    rw [emit_on ht, emit_on (h.thread.trans ht)]
    exact ⟨h.gens, h.main, h.thread, h.old, ⟨l ++ [e], by simp [h1], by simp [h2]⟩, h.freeG, h.freeM⟩

theorem like_enter {s t : State} (h : Like D p q s t) (o : Option Nat) (f : Frame) :
    Like D p q (enter s o f) (enter t o f) := by
  cases f with
  | «section» id => exact like_emit h _
  | switch k =>
    refine ⟨h.gens, h.main, rfl, ?_, h.events, h.freeG, h.freeM⟩
    intro j hj
    simp only [enter]
    split
    · exact h.thread
    · exact h.old j hj

theorem like_leave {s t : State} (h : Like D p q s t) (o : Option Nat) (f : Frame) (hf : Free D f) :
    Like D p q (leave s o f) (leave t o f) := by
  cases f with
  | «section» id => exact like_emit h _
  | switch k => exact ⟨h.gens, h.main, h.old k hf, h.old, h.events, h.freeG, h.freeM⟩

theorem like_resume (o : Option Nat) : ∀ (c : List Instr) (s t : State) (st : List Frame), Like D p q s t →
    (∀ i ∈ c, FreeI D i) → (∀ f ∈ st, Free D f) →
    Like D p q (resume o s c st).1 (resume o t c st).1 ∧ (resume o s c st).2 = (resume o t c st).2 ∧
      (∀ i ∈ (resume o t c st).2.1, FreeI D i) ∧ ∀ f ∈ (resume o t c st).2.2, Free D f := by
  intro c
  induction c with
  | nil => intro s t st h hc hf; exact ⟨h, rfl, hc, hf⟩
  | cons i c ih =>
    intro s t st h hc hf
    have hc' : ∀ i ∈ c, FreeI D i := fun j hj => hc j (List.mem_cons_of_mem _ hj)
    cases i with
    | pause => exact ⟨h, rfl, hc', hf⟩
    | mark id => exact ih _ _ _ (like_emit h _) hc' hf
    | enter f =>
      refine ih _ _ _ (like_enter h o f) hc' ?_
      intro g hg
      rcases List.mem_cons.1 hg with hg | hg
      · subst hg; exact hc (.enter g) (List.mem_cons_self ..)
      · exact hf g hg
    | leave =>
      cases st with
      | nil => exact ih _ _ _ h hc' hf
      | cons f st =>
        exact ih _ _ _ (like_leave h o f (hf f (List.mem_cons_self ..))) hc' (fun g hg => hf g (List.mem_cons_of_mem _ hg))

theorem like_unwind (o : Option Nat) : ∀ (st : List Frame) (s t : State), Like D p q s t → (∀ f ∈ st, Free D f) →
    Like D p q (unwind o s st) (unwind o t st) := by
  intro st
  induction st with
  | nil => intro s t h _; exact h
  | cons f st ih =>
    intro s t h hf
    exact ih _ _ (like_leave h o f (hf f (List.mem_cons_self ..))) (fun g hg => hf g (List.mem_cons_of_mem _ hg))

theorem like_set {s t : State} (h : Like D p q s t) (g : Nat) (x : Gen)
    (hx : (∀ i ∈ x.code, FreeI D i) ∧ ∀ f ∈ x.stack, Free D f) :
    Like D p q { s with gens := s.gens.set g x } { t with gens := t.gens.set g x } := by
  refine ⟨by simp [h.gens], h.main, h.thread, h.old, h.events, ?_, h.freeM⟩
  intro y hy
  rcases List.mem_or_eq_of_mem_set hy with hy | hy
  · exact h.freeG y hy
  · subst hy; exact hx

theorem like_call (b : Stmt) (hb : FreeS D b) : ∀ (ds : List Dec) (s t : State), Like D p q s t →
    (∀ k ∈ switches ds, k ∉ D) → Like D p q (call s b ds) (call t b ds) := by
  intro ds
  induction ds with
  | nil =>
    intro s t h _
    refine ⟨by simp [call, h.gens], h.main, h.thread, h.old, h.events, ?_, h.freeM⟩
    intro x hx
    rcases List.mem_append.1 hx with hx | hx
    · exact h.freeG x hx
    · simp only [List.mem_singleton] at hx
      subst hx
      exact ⟨compile_free hb, by simp⟩
  | cons d ds ih =>
    intro s t h hk
    cases d with
    | traced id => exact like_leave (ih _ _ (like_enter h _ _) hk) _ _ trivial
    | suppressed k =>
      exact like_leave (ih _ _ (like_enter h _ _) (fun j hj => hk j (List.mem_cons_of_mem _ hj))) _ _
        (hk k (List.mem_cons_self ..))

theorem like_step {s t : State} (h : Like D p q s t) (a : Act) (ha : FreeA D a) : Like D p q (step s a) (step t a) := by
  cases a with
  | call ds b => exact like_call b ha.1 ds s t h ha.2
  | resume g =>
    simp only [step, h.gens]
    cases hg : t.gens[g]? with
    | none => exact h
    | some x =>
      have hx := h.freeG x (List.mem_of_getElem? hg)
      obtain ⟨h1, h2, h3, h4⟩ := like_resume (some g) x.code s t x.stack h hx.1 hx.2
      have := like_set h1 g { code := (resume (some g) t x.code x.stack).2.1, stack := (resume (some g) t x.code x.stack).2.2 } ⟨h3, h4⟩
      rw [← h2] at this
      rw [h2] at this
      simpa [h2] using this
  | close g =>
    simp only [step, h.gens]
    cases hg : t.gens[g]? with
    | none => exact h
    | some x =>
      have hx := h.freeG x (List.mem_of_getElem? hg)
      exact like_set (like_unwind (some g) x.stack s t h hx.2) g { code := [], stack := [] } ⟨by simp, by simp⟩
  | enter f =>
    have := like_enter h none f
    refine ⟨this.gens, by simp [step, h.main], this.thread, this.old, this.events, this.freeG, ?_⟩
    intro f' hf'
    simp only [step, List.mem_cons] at hf'
    rcases hf' with hf' | hf'
    · subst hf'; exact ha
    · exact h.freeM f' hf'
  | leave =>
    simp only [step, h.main]
    cases hm : t.main with
    | nil => exact h
    | cons f st =>
      have := like_leave h none f (h.freeM f (by rw [hm]; exact List.mem_cons_self ..))
      exact ⟨this.gens, rfl, this.thread, this.old, this.events, this.freeG,
        fun f' hf' => h.freeM f' (by rw [hm]; exact List.mem_cons_of_mem _ hf')⟩
  | mark id => exact like_emit h _

theorem like_run : ∀ (as : List Act) (s t : State), Like D p q s t → (∀ a ∈ as, FreeA D a) →
    Like D p q (run s as) (run t as) := by
  intro as
  induction as with
  | nil => intro s t h _; exact h
  | cons a as ih =>
    intro s t h ha
    exact ih _ _ (like_step h a (ha a (List.mem_cons_self ..))) (fun b hb => ha b (List.mem_cons_of_mem _ hb))

/-- **The decorators of a generator function reach nothing but the call**: whatever the program does afterwards, with this generator and all others, records the same events as if the function had no decorators, and leaves the thread
in the same state. -/
theorem decorators_reach_the_call_only (s : State) (body : Stmt) (ds : List Dec) (as : List Act) (h : s.thread = true)
    (hn : (switches ds).Nodup)
    (hg : ∀ x ∈ s.gens, (∀ i ∈ x.code, FreeI (switches ds) i) ∧ ∀ f ∈ x.stack, Free (switches ds) f)
    (hm : ∀ f ∈ s.main, Free (switches ds) f) (hb : FreeS (switches ds) body) (ha : ∀ a ∈ as, FreeA (switches ds) a) :
    ∃ l, (run s (.call ds body :: as)).events = s.events ++ entries (shown ds) ++ exits (shown ds) ++ l ∧
      (run s (.call [] body :: as)).events = s.events ++ l ∧
      (run s (.call ds body :: as)).thread = (run s (.call [] body :: as)).thread := by
  obtain ⟨a, b, c, d, e⟩ := call_on body ds s h hn
  have hl : Like (switches ds) (s.events ++ entries (shown ds) ++ exits (shown ds)) s.events (call s body ds) (call s body []) := by
    refine ⟨a, c, b.trans h.symm, e, ⟨[], by simp [d], by simp [call]⟩, ?_, hm⟩
    intro x hx
    rcases List.mem_append.1 hx with hx | hx
    · exact hg x hx
    · simp only [List.mem_singleton] at hx
      subst hx
      exact ⟨compile_free hb, by simp⟩
  have := like_run as _ _ hl ha
  obtain ⟨l, h1, h2⟩ := this.events
  exact ⟨l, h1, h2, this.thread⟩

/-- The hypotheses are met in a program that goes on for long: the generator of a decorated function is resumed inside of another section, and another one is made. -/
example : ∃ l, (run {} [.call [.traced 1, .suppressed 9] (.trace 2 (.seq (.mark 3) (.seq .pause (.off 4 (.mark 5))))),
      .enter (.section 6), .resume 0, .call [.suppressed 8] (.mark 7), .leave, .resume 1, .close 0]).events = [⟨none, .enter, 1⟩, ⟨none, .exit, 1⟩] ++ l ∧ l.length = 6 := by
  refine ⟨_, rfl, ?_⟩
  decide

/-! ## What a body records -/

/-- What the rest of the code would record with these `with` statements entered. -/
def rest : List Instr → List Frame → List (Kind × Nat)
  | [], _ => []
  | .pause :: c, st => rest c st
  | .mark id :: c, st => (.mark, id) :: rest c st
  | .enter (.section id) :: c, st => (.enter, id) :: rest c (.section id :: st)
  | .enter f :: c, st => rest c (f :: st)
  | .leave :: c, .section id :: st => (.exit, id) :: rest c st
  | .leave :: c, _ :: st => rest c st
  | .leave :: c, [] => rest c []

theorem rest_compile : ∀ (b : Stmt) (c : List Instr) (st : List Frame), rest (compile b ++ c) st = evs b ++ rest c st := by
  intro b
  induction b with
  | skip => intro c st; rfl
  | mark id => intro c st; rfl
  | pause => intro c st; rfl
  | seq a b iha ihb => intro c st; simp [compile, evs, iha, ihb]
  | trace id b ih => intro c st; simp [compile, evs, rest, ih]
  | off k b ih => intro c st; simp [compile, evs, rest, ih]

/-- The code leaves as many `with` statements as it enters, and `n` more. -/
def closes : Nat → List Instr → Prop
  | n, [] => n = 0
  | n, .pause :: c => closes n c
  | n, .mark _ :: c => closes n c
  | n, .enter _ :: c => closes (n + 1) c
  | 0, .leave :: _ => False
  | n + 1, .leave :: c => closes n c

theorem closes_compile : ∀ (b : Stmt) (c : List Instr) (n : Nat), closes n (compile b ++ c) ↔ closes n c := by
  intro b
  induction b with
  | skip => intro c n; exact Iff.rfl
  | mark id => intro c n; exact Iff.rfl
  | pause => intro c n; exact Iff.rfl
  | seq a b iha ihb => intro c n; simp [compile, iha, ihb]
  | trace id b ih => intro c n; simp [compile, closes, ih]
  | off k b ih => intro c n; simp [compile, closes, ih]

def isSection : Frame → Prop
  | .section _ => True
  | .switch _ => False

def plainI : Instr → Prop
  | .enter f => isSection f
  | _ => True

/-- The program has no switchers. -/
def PlainA : Act → Prop
  | .call ds b => switches ds = [] ∧ NoSwitch b
  | .enter f => isSection f
  | _ => True

theorem compile_plain : ∀ {b : Stmt}, NoSwitch b → ∀ i ∈ compile b, plainI i := by
  intro b
  induction b with
  | skip => intro _ i hi; simp [compile] at hi
  | mark id => intro _ i hi; simp [compile] at hi; subst hi; trivial
  | pause => intro _ i hi; simp [compile] at hi; subst hi; trivial
  | seq a b iha ihb =>
    intro h i hi
    rcases List.mem_append.1 hi with hi | hi
    · exact iha h.1 i hi
    · exact ihb h.2 i hi
  | trace id b ih =>
    intro h i hi
    simp only [compile, List.mem_cons, List.mem_append, List.not_mem_nil, or_false] at hi
    rcases hi with hi | hi | hi
    · subst hi; trivial
    · exact ih h i hi
    · subst hi; trivial
  | off k b ih => intro h; exact h.elim

/-- The sections among `with` statements. -/
def ids : List Frame → List Nat
  | [] => []
  | .section id :: st => id :: ids st
  | .switch _ :: st => ids st

/-- What has been recorded of entries and exits: for each section as many entries as exits and sections that are still open. -/
def Balanced (l : List (Kind × Nat)) (st : List Frame) : Prop :=
  ∀ id, l.count (.enter, id) = l.count (.exit, id) + (ids st).count id

theorem resume_own (o : Nat) : ∀ (c : List Instr) (s : State) (st : List Frame), s.thread = true → (∀ i ∈ c, plainI i) →
    (∀ f ∈ st, isSection f) → closes st.length c →
    ∃ l, (resume (some o) s c st).1 = { s with events := s.events ++ l } ∧ (∀ e ∈ l, e.owner = some o) ∧
      (own o l ++ rest (resume (some o) s c st).2.1 (resume (some o) s c st).2.2 = rest c st) ∧
      closes (resume (some o) s c st).2.2.length (resume (some o) s c st).2.1 ∧
      (∀ i ∈ (resume (some o) s c st).2.1, plainI i) ∧ (∀ f ∈ (resume (some o) s c st).2.2, isSection f) ∧
      (∀ l0, Balanced l0 st → Balanced (l0 ++ own o l) (resume (some o) s c st).2.2) := by
  intro c
  induction c with
  | nil => intro s st _ hc hf hb; exact ⟨[], by simp [resume], by simp, rfl, hb, hc, hf, fun l0 h => by simpa [own, resume] using h⟩
  | cons i c ih =>
    intro s st h hc hf hb
    have hc' : ∀ i ∈ c, plainI i := fun j hj => hc j (List.mem_cons_of_mem _ hj)
    cases i with
    | pause => exact ⟨[], by simp [resume], by simp, rfl, hb, hc', hf, fun l0 h => by simpa [own, resume] using h⟩
    | mark id =>
      obtain ⟨l, a1, a2, a3, a4, a5, a6, a7⟩ := ih (emit s ⟨some o, .mark, id⟩) st (by simp [emit, h]) hc' hf hb
      refine ⟨⟨some o, .mark, id⟩ :: l, ?_, ?_, ?_, a4, a5, a6, ?_⟩
      · show (resume (some o) (emit s ⟨some o, .mark, id⟩) c st).1 = _
        rw [a1, emit_on h]
        simp
      · intro e he
        rcases List.mem_cons.1 he with he | he
        · subst he; rfl
        · exact a2 e he
      · show (own o (⟨some o, .mark, id⟩ :: l)) ++ _ = (Kind.mark, id) :: rest c st
        rw [← a3]
        simp [own, resume]
      · intro l0 h0
        have : Balanced (l0 ++ [(Kind.mark, id)]) st := by intro j; have := h0 j; simpa [List.count_append, List.count_cons] using this
        have := a7 _ this
        simpa [own, resume] using this
    | enter f =>
      cases f with
      | switch k => exact (hc (.enter (.switch k)) (List.mem_cons_self ..)).elim
      | «section» id =>
        obtain ⟨l, a1, a2, a3, a4, a5, a6, a7⟩ := ih (emit s ⟨some o, .enter, id⟩) (.section id :: st) (by simp [emit, h]) hc'
          (by intro f hf'; rcases List.mem_cons.1 hf' with hf' | hf'; · subst hf'; trivial
              · exact hf f hf') hb
        refine ⟨⟨some o, .enter, id⟩ :: l, ?_, ?_, ?_, a4, a5, a6, ?_⟩
        · show (resume (some o) (emit s ⟨some o, .enter, id⟩) c (.section id :: st)).1 = _
          rw [a1, emit_on h]
          simp
        · intro e he
          rcases List.mem_cons.1 he with he | he
          · subst he; rfl
          · exact a2 e he
        · show (own o (⟨some o, .enter, id⟩ :: l)) ++ _ = (Kind.enter, id) :: rest c (.section id :: st)
          rw [← a3]
          simp [own, resume, enter]
        · intro l0 h0
          have : Balanced (l0 ++ [(Kind.enter, id)]) (.section id :: st) := by
            intro j
            have := h0 j
            simp only [List.count_append, List.count_cons, List.count_nil, ids]
            by_cases hj : id = j
            · subst hj; simp; omega
            · simp [hj]; omega
          have := a7 _ this
          simpa [own, resume, enter] using this
    | leave =>
      cases st with
      | nil => exact hb.elim
      | cons f st =>
        cases f with
        | switch k => exact (hf (.switch k) (List.mem_cons_self ..)).elim
        | «section» id =>
          obtain ⟨l, a1, a2, a3, a4, a5, a6, a7⟩ := ih (emit s ⟨some o, .exit, id⟩) st (by simp [emit, h]) hc'
            (fun f hf' => hf f (List.mem_cons_of_mem _ hf')) hb
          refine ⟨⟨some o, .exit, id⟩ :: l, ?_, ?_, ?_, a4, a5, a6, ?_⟩
          · show (resume (some o) (emit s ⟨some o, .exit, id⟩) c st).1 = _
            rw [a1, emit_on h]
            simp
          · intro e he
            rcases List.mem_cons.1 he with he | he
            · subst he; rfl
            · exact a2 e he
          · show (own o (⟨some o, .exit, id⟩ :: l)) ++ _ = (Kind.exit, id) :: rest c st
            rw [← a3]
            simp [own, resume, leave]
          · intro l0 h0
            have : Balanced (l0 ++ [(Kind.exit, id)]) st := by
              intro j
              have := h0 j
              simp only [List.count_append, List.count_cons, List.count_nil, ids] at this ⊢
              by_cases hj : id = j
              · subst hj; simp at this ⊢; omega
              · simp [hj] at this ⊢; omega
            have := a7 _ this
            simpa [own, resume, leave] using this

theorem unwind_own (o : Nat) : ∀ (st : List Frame) (s : State), s.thread = true → (∀ f ∈ st, isSection f) →
    ∃ l, unwind (some o) s st = { s with events := s.events ++ l } ∧ (∀ e ∈ l, e.owner = some o) ∧
      own o l = (ids st).map (fun id => (Kind.exit, id)) ∧ (∀ l0, Balanced l0 st → Balanced (l0 ++ own o l) []) := by
  intro st
  induction st with
  | nil => intro s _ _; exact ⟨[], by simp [unwind], by simp, rfl, fun l0 h => by simpa [own] using h⟩
  | cons f st ih =>
    intro s h hf
    cases f with
    | switch k => exact (hf (.switch k) (List.mem_cons_self ..)).elim
    | «section» id =>
      obtain ⟨l, a1, a2, a3, a4⟩ := ih (emit s ⟨some o, .exit, id⟩) (by simp [emit, h]) (fun f hf' => hf f (List.mem_cons_of_mem _ hf'))
      refine ⟨⟨some o, .exit, id⟩ :: l, ?_, ?_, ?_, ?_⟩
      · show unwind (some o) (emit s ⟨some o, .exit, id⟩) st = _
        rw [a1, emit_on h]
        simp
      · intro e he
        rcases List.mem_cons.1 he with he | he
        · subst he; rfl
        · exact a2 e he
      · show (own o (⟨some o, .exit, id⟩ :: l)) = _
        have : own o (⟨some o, .exit, id⟩ :: l) = (Kind.exit, id) :: own o l := by simp [own]
        rw [this, a3]
        rfl
      · intro l0 h0
        have : Balanced (l0 ++ [(Kind.exit, id)]) st := by
          intro j
          have := h0 j
          simp only [List.count_append, List.count_cons, List.count_nil, ids] at this ⊢
          by_cases hj : id = j
          · subst hj; simp at this ⊢; omega
          · simp [hj] at this ⊢; omega
        have := a4 _ this
        simpa [own] using this

/-- The generators that the program closed. -/
def closed : List Act → List Nat
  | [] => []
  | .close g :: as => g :: closed as
  | _ :: as => closed as

theorem own_append (g : Nat) (a b : List Ev) : own g (a ++ b) = own g a ++ own g b := by simp [own]

theorem own_other {g : Nat} {l : List Ev} (h : ∀ e ∈ l, e.owner ≠ some g) : own g l = [] := by
  simp only [own, List.map_eq_nil_iff, List.filter_eq_nil_iff]
  intro e he
  simpa using h e he

structure Inv (bs : List Stmt) (cl : List Nat) (s : State) : Prop where
  thread : s.thread = true
  len : s.gens.length = bs.length
  main : ∀ f ∈ s.main, isSection f
  owners : ∀ e ∈ s.events, ∀ g, e.owner = some g → g < s.gens.length
  gen : ∀ (g : Nat) (x : Gen), s.gens[g]? = some x → (∀ i ∈ x.code, plainI i) ∧ (∀ f ∈ x.stack, isSection f) ∧
    closes x.stack.length x.code ∧ Balanced (own g s.events) x.stack ∧
    (g ∉ cl → ∀ b, bs[g]? = some b → own g s.events ++ rest x.code x.stack = evs b)

theorem inv_emit {bs : List Stmt} {cl : List Nat} {s : State} (h : Inv bs cl s) (k : Kind) (id : Nat) :
    Inv bs cl { s with events := s.events ++ [⟨none, k, id⟩] } := by
  have he : ∀ g, own g (s.events ++ [⟨none, k, id⟩]) = own g s.events := by
    intro g
    rw [own_append, own_other (l := [⟨none, k, id⟩]) (by simp)]
    simp
  refine ⟨h.thread, h.len, h.main, ?_, ?_⟩
  · intro e hm g hg
    rcases List.mem_append.1 hm with hm | hm
    · exact h.owners e hm g hg
    · simp only [List.mem_singleton] at hm; subst hm; cases hg
  · intro g x hx
    simp only [he]
    exact h.gen g x hx

theorem inv_emit' {bs : List Stmt} {cl : List Nat} {s : State} (h : Inv bs cl s) (k : Kind) (id : Nat) :
    Inv bs cl (emit s ⟨none, k, id⟩) := by
  rw [emit_on h.thread]
  exact inv_emit h k id

theorem inv_call (b : Stmt) (hb : NoSwitch b) : ∀ (ds : List Dec) (bs : List Stmt) (cl : List Nat) (s : State),
    switches ds = [] → Inv bs cl s → Inv (bs ++ [b]) cl (call s b ds) := by
  intro ds
  induction ds with
  | nil =>
    intro bs cl s _ h
    refine ⟨h.thread, by simp [call, h.len], h.main, ?_, ?_⟩
    · intro e he g hg
      have := h.owners e he g hg
      simp only [call, List.length_append, List.length_cons, List.length_nil]
      omega
    · intro g x hx
      simp only [call] at hx
      by_cases hlt : g < s.gens.length
      · rw [List.getElem?_append_left hlt] at hx
        have := h.gen g x hx
        refine ⟨this.1, this.2.1, this.2.2.1, this.2.2.2.1, ?_⟩
        intro hc b' hb'
        rw [List.getElem?_append_left (by rw [← h.len]; exact hlt)] at hb'
        exact this.2.2.2.2 hc b' hb'
      · have hge : g = s.gens.length := by
          have := (List.getElem?_eq_some_iff.1 hx).1
          simp at this
          omega
        subst hge
        simp only [List.getElem?_concat_length, Option.some.injEq] at hx
        subst hx
        have h0 : own s.gens.length s.events = [] := own_other (fun e he hg => by
          have := h.owners e he _ hg
          omega)
        refine ⟨compile_plain hb, by simp, ?_, ?_, ?_⟩
        · have := (closes_compile b [] 0).2 rfl
          simpa using this
        · intro id
          simp [call, h0, ids]
        · intro _ b' hb'
          rw [h.len, List.getElem?_concat_length] at hb'
          cases hb'
          have := rest_compile b [] []
          simp only [List.append_nil, rest] at this
          simp [call, h0, this]
  | cons d ds ih =>
    intro bs cl s hs h
    cases d with
    | traced id => exact inv_emit' (ih bs cl _ hs (inv_emit' h .enter id)) .exit id
    | suppressed k => cases hs

/-- A generator `g` goes on: it records `l` and is in another place. -/
theorem inv_go {bs : List Stmt} {cl : List Nat} {s : State} (h : Inv bs cl s) {g : Nat} {x y : Gen} {l : List Ev}
    (cl' : List Nat) (hx : s.gens[g]? = some x) (hl : ∀ e ∈ l, e.owner = some g) (h1 : ∀ i ∈ y.code, plainI i)
    (h2 : ∀ f ∈ y.stack, isSection f) (h3 : closes y.stack.length y.code)
    (h4 : Balanced (own g s.events ++ own g l) y.stack)
    (h5 : g ∉ cl ++ cl' → own g l ++ rest y.code y.stack = rest x.code x.stack) :
    Inv bs (cl ++ cl') { s with events := s.events ++ l, gens := s.gens.set g y } := by
  have hlt : g < s.gens.length := (List.getElem?_eq_some_iff.1 hx).1
  refine ⟨h.thread, by simp [h.len], h.main, ?_, ?_⟩
  · intro e he j hj
    simp only [List.length_set]
    rcases List.mem_append.1 he with he | he
    · exact h.owners e he j hj
    · rw [hl e he] at hj; cases hj; exact hlt
  · intro j z hz
    by_cases hj : j = g
    · subst hj
      rw [List.getElem?_set_self hlt] at hz
      cases hz
      refine ⟨h1, h2, h3, by rw [own_append]; exact h4, ?_⟩
      intro hc b hb
      rw [own_append, List.append_assoc, h5 hc]
      exact (h.gen j x hx).2.2.2.2 (fun hm => hc (List.mem_append_left _ hm)) b hb
    · rw [List.getElem?_set_ne (Ne.symm hj)] at hz
      have := h.gen j z hz
      have ho : own j (s.events ++ l) = own j s.events := by
        rw [own_append, own_other (l := l) (fun e he hg => by rw [hl e he] at hg; cases hg; exact hj rfl)]
        simp
      simp only [ho]
      exact ⟨this.1, this.2.1, this.2.2.1, this.2.2.2.1, fun hc => this.2.2.2.2 (fun hm => hc (List.mem_append_left _ hm))⟩

theorem inv_main {bs : List Stmt} {cl : List Nat} {s : State} (h : Inv bs cl s) {m : List Frame} (hm : ∀ f ∈ m, isSection f) :
    Inv bs cl { s with main := m } := ⟨h.thread, h.len, hm, h.owners, h.gen⟩

theorem inv_step {bs : List Stmt} {cl : List Nat} {s : State} (h : Inv bs cl s) (a : Act) (ha : PlainA a) :
    Inv (bs ++ bodies [a]) (cl ++ closed [a]) (step s a) := by
  cases a with
  | call ds b => simpa [bodies, closed, step] using inv_call b ha.2 ds bs cl s ha.1 h
  | resume g =>
    simp only [step]
    cases hx : s.gens[g]? with
    | none => simpa [bodies, closed] using h
    | some x =>
      have hg := h.gen g x hx
      obtain ⟨l, a1, a2, a3, a4, a5, a6, a7⟩ := resume_own g x.code s x.stack h.thread hg.1 hg.2.1 hg.2.2.1
      have := inv_go h [] (y := { code := (resume (some g) s x.code x.stack).2.1, stack := (resume (some g) s x.code x.stack).2.2 })
        hx a2 a5 a6 a4 (a7 _ hg.2.2.2.1) (fun _ => a3)
      simpa [bodies, closed, a1] using this
  | close g =>
    simp only [step]
    cases hx : s.gens[g]? with
    | none =>
      refine ⟨h.thread, by simpa [bodies] using h.len, h.main, h.owners, ?_⟩
      intro j x hj
      have := h.gen j x hj
      refine ⟨this.1, this.2.1, this.2.2.1, this.2.2.2.1, fun hc => ?_⟩
      simpa [bodies] using this.2.2.2.2 (fun hm => hc (List.mem_append_left _ hm))
    | some x =>
      have hg := h.gen g x hx
      obtain ⟨l, a1, a2, a3, a4⟩ := unwind_own g x.stack s h.thread hg.2.1
      have := inv_go h [g] (y := { code := [], stack := [] }) hx a2 (by simp) (by simp) rfl (a4 _ hg.2.2.2.1)
        (fun hc => (hc (by simp)).elim)
      simpa [bodies, closed, a1] using this
  | enter f =>
    simp only [bodies, closed, List.append_nil]
    cases f with
    | switch k => exact ha.elim
    | «section» id =>
      refine inv_main (inv_emit' h .enter id) ?_
      intro f hf
      rcases List.mem_cons.1 hf with hf | hf
      · subst hf; trivial
      · exact h.main f hf
  | leave =>
    simp only [step, bodies, closed, List.append_nil]
    cases hm : s.main with
    | nil => exact h
    | cons f st =>
      have hf := h.main f (by rw [hm]; exact List.mem_cons_self ..)
      cases f with
      | switch k => exact hf.elim
      | «section» id => exact inv_main (inv_emit' h .exit id) (fun f hf => h.main f (by rw [hm]; exact List.mem_cons_of_mem _ hf))
  | mark id =>
    simp only [bodies, closed, List.append_nil]
    exact inv_emit' h .mark id

theorem bodies_cons (a : Act) (as : List Act) : bodies (a :: as) = bodies [a] ++ bodies as := by cases a <;> rfl
theorem closed_cons (a : Act) (as : List Act) : closed (a :: as) = closed [a] ++ closed as := by cases a <;> rfl

theorem inv_run : ∀ (as : List Act) (bs : List Stmt) (cl : List Nat) (s : State), Inv bs cl s → (∀ a ∈ as, PlainA a) →
    Inv (bs ++ bodies as) (cl ++ closed as) (run s as) := by
  intro as
  induction as with
  | nil => intro bs cl s h _; simpa [bodies, closed, run] using h
  | cons a as ih =>
    intro bs cl s h ha
    have := ih _ _ _ (inv_step h a (ha a (List.mem_cons_self ..))) (fun b hb => ha b (List.mem_cons_of_mem _ hb))
    rw [bodies_cons, closed_cons, ← List.append_assoc, ← List.append_assoc]
    exact this

theorem inv_init : Inv [] [] {} := ⟨rfl, rfl, by simp, by simp, by simp⟩

theorem closes_nil {n : Nat} (h : closes n []) : n = 0 := by cases n <;> exact h

/-- **What a generator records**, in every program without switchers: if it is not closed, the events of its body, in the order of the text, up to where it is; all of them when there is nothing left of the body. And when there is nothing
left of it, because it ran to its end or was closed anywhere, every section has been left as often as it was entered. -/
theorem body_recorded (as : List Act) (ha : ∀ a ∈ as, PlainA a) (g : Nat) (b : Stmt) (hb : (bodies as)[g]? = some b) :
    ∃ x, (run {} as).gens[g]? = some x ∧
      (g ∉ closed as → ∃ r, own g (run {} as).events ++ r = evs b ∧ (x.code = [] → r = [])) ∧
      (x.code = [] → ∀ id, (own g (run {} as).events).count (.enter, id) = (own g (run {} as).events).count (.exit, id)) := by
  have h := inv_run as [] [] {} inv_init ha
  simp only [List.nil_append] at h
  have hlt : g < (run {} as).gens.length := by rw [h.len]; exact (List.getElem?_eq_some_iff.1 hb).1
  have hx : (run {} as).gens[g]? = some (run {} as).gens[g] := List.getElem?_eq_getElem hlt
  have hg := h.gen g _ hx
  refine ⟨_, hx, fun hc => ⟨_, hg.2.2.2.2 hc b hb, fun h0 => by rw [h0]; rfl⟩, fun h0 id => ?_⟩
  have h1 := hg.2.2.1
  rw [h0] at h1
  have h2 := hg.2.2.2.1 id
  rw [List.length_eq_zero_iff.1 (closes_nil h1)] at h2
  simpa [ids] using h2

/-- Two generators that take turns, one of them closed while it is in two sections. -/
example : let s := run {} [.call [] (.trace 1 (.seq (.trace 2 .pause) (.mark 3))), .call [.traced 4] (.trace 5 (.trace 6 .pause)),
      .resume 0, .enter (.section 7), .resume 1, .close 1, .resume 0, .leave]
    own 0 s.events = [(.enter, 1), (.enter, 2), (.exit, 2), (.mark, 3), (.exit, 1)] ∧
      own 1 s.events = [(.enter, 5), (.enter, 6), (.exit, 6), (.exit, 5)] := by decide

/-! ## Nesting -/

/-- The sections that are shown as open: those that were entered outside of switchers. -/
def visible : List Frame → List Nat
  | [] => []
  | .section id :: st => if allOn st then id :: visible st else visible st
  | .switch _ :: st => visible st

/-- A program whose generators pause outside of `with` statements only, and in which no switcher is entered again before it is left: the rest of the program uses those in `M`, the bodies and decorators others. `m` are the `with` statements
that the rest of the program is in. -/
def Proper (M : List Nat) : List Frame → List Act → Prop
  | _, [] => True
  | m, .call ds b :: as => (Outside b ∧ Tidy M b ∧ (switches ds).Nodup ∧ ∀ k ∈ switches ds, k ∉ M) ∧ Proper M m as
  | m, .enter (.switch k) :: as => (k ∈ M ∧ .switch k ∉ m) ∧ Proper M (.switch k :: m) as
  | m, .enter f :: as => Proper M (f :: m) as
  | m, .leave :: as => Proper M m.tail as
  | m, _ :: as => Proper M m as

/-- The `with` statements that the rest of the program is in after these actions. -/
def mainAfter : List Frame → List Act → List Frame
  | m, [] => m
  | m, .enter f :: as => mainAfter (f :: m) as
  | m, .leave :: as => mainAfter m.tail as
  | m, _ :: as => mainAfter m as

theorem nest_snoc {st v w : List Nat} {l : List Ev} {e : Ev} (h : nest st l = some v) (he : nest v [e] = some w) :
    nest st (l ++ [e]) = some w := by
  rw [nest_append, h]
  exact he

theorem runP_nest (o : Option Nat) : ∀ (b : Stmt) (used : List Nat) (s : State), Tidy used b →
    (runP o s b).gens = s.gens ∧ (runP o s b).main = s.main ∧ (runP o s b).thread = s.thread ∧
      (∀ j ∈ used, (runP o s b).old j = s.old j) ∧
      ∀ st v, nest st s.events = some v → nest st (runP o s b).events = some v := by
  intro b
  induction b with
  | skip => intro used s _; exact ⟨rfl, rfl, rfl, fun _ _ => rfl, fun _ _ h => h⟩
  | pause => intro used s _; exact ⟨rfl, rfl, rfl, fun _ _ => rfl, fun _ _ h => h⟩
  | mark id =>
    intro used s _
    cases ht : s.thread with
    | false => rw [show runP o s (.mark id) = s from emit_off ht _]; exact ⟨rfl, rfl, ht, fun _ _ => rfl, fun _ _ h => h⟩
    | true => rw [show runP o s (.mark id) = _ from emit_on ht _]; exact ⟨rfl, rfl, ht, fun _ _ => rfl, fun st v h => nest_snoc h rfl⟩
  | seq a b iha ihb =>
    intro used s h
    obtain ⟨a1, a2, a3, a4, a5⟩ := iha used s h.1
    obtain ⟨b1, b2, b3, b4, b5⟩ := ihb used (runP o s a) h.2
    exact ⟨b1.trans a1, b2.trans a2, b3.trans a3, fun j hj => (b4 j hj).trans (a4 j hj), fun st v hv => b5 st v (a5 st v hv)⟩
  | trace id b ih =>
    intro used s h
    cases ht : s.thread with
    | false =>
      have he : enter s o (.section id) = s := emit_off ht _
      obtain ⟨a1, a2, a3, a4, a5⟩ := ih used s h
      have hl : leave (runP o s b) o (.section id) = runP o s b := emit_off (a3.trans ht) _
      simp only [runP, he, hl]
      exact ⟨a1, a2, a3.trans ht, a4, a5⟩
    | true =>
      have he : enter s o (.section id) = { s with events := s.events ++ [⟨o, .enter, id⟩] } := emit_on ht _
      obtain ⟨a1, a2, a3, a4, a5⟩ := ih used { s with events := s.events ++ [⟨o, .enter, id⟩] } h
      have hl : leave (runP o { s with events := s.events ++ [⟨o, .enter, id⟩] } b) o (.section id) =
        { runP o { s with events := s.events ++ [⟨o, .enter, id⟩] } b with
          events := (runP o { s with events := s.events ++ [⟨o, .enter, id⟩] } b).events ++ [⟨o, .exit, id⟩] } := emit_on (a3.trans ht) _
      simp only [runP, he, hl]
      refine ⟨a1, a2, a3.trans ht, a4, fun st v hv => ?_⟩
      exact nest_snoc (a5 st (id :: v) (nest_snoc hv rfl)) (by simp [nest])
  | off k b ih =>
    intro used s h
    obtain ⟨a1, a2, a3, a4, a5⟩ := ih (k :: used) (enter s o (.switch k)) h.2
    refine ⟨a1, a2, ?_, ?_, a5⟩
    · show (runP o (enter s o (.switch k)) b).old k = s.thread
      rw [a4 k (List.mem_cons_self ..)]
      simp [enter]
    · intro j hj
      show (runP o (enter s o (.switch k)) b).old j = s.old j
      rw [a4 j (List.mem_cons_of_mem _ hj)]
      have : j ≠ k := fun e => h.1 (e ▸ hj)
      simp [enter, this]

/-- The parts of a body at its top. -/
def items : Stmt → List Stmt
  | .seq a b => items a ++ items b
  | b => [b]

theorem items_compile : ∀ b : Stmt, compile b = (items b).flatMap compile := by
  intro b
  induction b with
  | seq a b iha ihb => simp only [items, List.flatMap_append, ← iha, ← ihb]; rfl
  | _ => simp [items]

/-- A part at the top of a body: it pauses, or it does not. -/
def Item (M : List Nat) (i : Stmt) : Prop := i = .pause ∨ (Straight i ∧ Tidy M i)

theorem items_ok {M : List Nat} : ∀ {b : Stmt}, Outside b → Tidy M b → ∀ i ∈ items b, Item M i := by
  intro b
  induction b with
  | skip => intro _ _ i hi; simp only [items, List.mem_singleton] at hi; subst hi; exact .inr ⟨trivial, trivial⟩
  | mark id => intro _ _ i hi; simp only [items, List.mem_singleton] at hi; subst hi; exact .inr ⟨trivial, trivial⟩
  | pause => intro _ _ i hi; simp only [items, List.mem_singleton] at hi; subst hi; exact .inl rfl
  | seq a b iha ihb =>
    intro h ht i hi
    rcases List.mem_append.1 hi with hi | hi
    · exact iha h.1 ht.1 i hi
    · exact ihb h.2 ht.2 i hi
  | trace id b ih => intro h ht i hi; simp only [items, List.mem_singleton] at hi; subst hi; exact .inr ⟨h, ht⟩
  | off k b ih => intro h ht i hi; simp only [items, List.mem_singleton] at hi; subst hi; exact .inr ⟨h, ht⟩

/-- The places of a generator that pauses outside of `with` statements only. -/
def AtTop (M : List Nat) (x : Gen) : Prop := x.stack = [] ∧ ∃ l : List Stmt, (∀ i ∈ l, Item M i) ∧ x.code = l.flatMap compile

theorem resume_items {M : List Nat} (o : Option Nat) : ∀ (l : List Stmt) (s : State), (∀ i ∈ l, Item M i) →
    let r := resume o s (l.flatMap compile) []
    r.1.gens = s.gens ∧ r.1.main = s.main ∧ r.1.thread = s.thread ∧ (∀ j ∈ M, r.1.old j = s.old j) ∧
      (∀ st v, nest st s.events = some v → nest st r.1.events = some v) ∧ AtTop M ⟨r.2.1, r.2.2⟩ := by
  intro l
  induction l with
  | nil => intro s _; exact ⟨rfl, rfl, rfl, fun _ _ => rfl, fun _ _ h => h, rfl, [], by simp, rfl⟩
  | cons i l ih =>
    intro s h
    have hl : ∀ i ∈ l, Item M i := fun j hj => h j (List.mem_cons_of_mem _ hj)
    rcases h i (List.mem_cons_self ..) with hi | ⟨hs, ht⟩
    · subst hi
      exact ⟨rfl, rfl, rfl, fun _ _ => rfl, fun _ _ h => h, rfl, l, hl, rfl⟩
    · simp only [List.flatMap_cons]
      rw [resume_straight o i s _ [] hs]
      obtain ⟨a1, a2, a3, a4, a5⟩ := runP_nest o i M s ht
      obtain ⟨b1, b2, b3, b4, b5, b6⟩ := ih (runP o s i) hl
      exact ⟨b1.trans a1, b2.trans a2, b3.trans a3, fun j hj => (b4 j hj).trans (a4 j hj), fun st v hv => b5 st v (a5 st v hv), b6⟩

/-- The switchers that were entered remember the state of the thread outside of them. -/
def OldOk (M : List Nat) (old : Nat → Bool) : List Frame → Prop
  | [] => True
  | .section _ :: st => OldOk M old st
  | .switch k :: st => k ∈ M ∧ .switch k ∉ st ∧ old k = allOn st ∧ OldOk M old st

theorem oldOk_congr {M : List Nat} {old old' : Nat → Bool} : ∀ {st : List Frame}, OldOk M old st →
    (∀ k ∈ M, .switch k ∈ st → old' k = old k) → OldOk M old' st := by
  intro st
  induction st with
  | nil => intro _ _; trivial
  | cons f st ih =>
    intro h hc
    cases f with
    | «section» id => exact ih h (fun k hk hm => hc k hk (List.mem_cons_of_mem _ hm))
    | switch k =>
      exact ⟨h.1, h.2.1, (hc k h.1 (List.mem_cons_self ..)).trans h.2.2.1,
        ih h.2.2.2 (fun k hk hm => hc k hk (List.mem_cons_of_mem _ hm))⟩

structure NInv (M : List Nat) (m : List Frame) (s : State) : Prop where
  main : s.main = m
  thread : s.thread = allOn m
  old : OldOk M s.old m
  events : nest [] s.events = some (visible m)
  gens : ∀ x ∈ s.gens, AtTop M x

theorem nest_entries (v : List Nat) : ∀ l : List Nat, nest v (entries l) = some (l.reverse ++ v) := by
  intro l
  induction l generalizing v with
  | nil => rfl
  | cons a l ih =>
    show nest (a :: v) (entries l) = _
    rw [ih]
    simp

theorem nest_exits : ∀ (l v : List Nat), nest (l ++ v) (l.map fun id => ⟨none, .exit, id⟩) = some v := by
  intro l
  induction l with
  | nil => intro v; rfl
  | cons a l ih => intro v; simpa [nest] using ih v

theorem ninv_step {M : List Nat} {m : List Frame} {s : State} (h : NInv M m s) (a : Act) (as : List Act)
    (hp : Proper M m (a :: as)) : ∃ m', NInv M m' (step s a) ∧ Proper M m' as ∧ mainAfter m (a :: as) = mainAfter m' as := by
  cases a with
  | call ds b =>
    obtain ⟨⟨ho, ht, hn, hk⟩, hp⟩ := hp
    refine ⟨m, ?_, hp, rfl⟩
    have hg : ∀ (g' : List Gen), g' = s.gens ++ [{ code := compile b }] → ∀ x ∈ g', AtTop M x := by
      intro g' hg' x hx
      rw [hg'] at hx
      rcases List.mem_append.1 hx with hx | hx
      · exact h.gens x hx
      · simp only [List.mem_singleton] at hx
        subst hx
        exact ⟨rfl, items b, items_ok ho ht, items_compile b⟩
    cases hs : s.thread with
    | false =>
      obtain ⟨c1, c2, c3, c4, c5⟩ := call_off b ds s hs hn
      refine ⟨c3.trans h.main, ?_, oldOk_congr h.old (fun k hkM _ => c5 k (fun hm => hk k hm hkM)), ?_, hg _ c1⟩
      · show (call s b ds).thread = _; rw [c2, ← h.thread, hs]
      · show nest [] (call s b ds).events = _; rw [c4]; exact h.events
    | true =>
      obtain ⟨c1, c2, c3, c4, c5⟩ := call_on b ds s hs hn
      refine ⟨c3.trans h.main, ?_, oldOk_congr h.old (fun k hkM _ => c5 k (fun hm => hk k hm hkM)), ?_, hg _ c1⟩
      · show (call s b ds).thread = _; rw [c2, ← h.thread, hs]
      · show nest [] (call s b ds).events = _
        rw [c4, nest_append, nest_append, h.events]
        show ((nest (visible m) (entries (shown ds))).bind fun st' => nest st' (exits (shown ds))) = _
        rw [nest_entries]
        exact nest_exits (shown ds).reverse (visible m)
  | resume g =>
    refine ⟨m, ?_, hp, rfl⟩
    simp only [step]
    cases hx : s.gens[g]? with
    | none => exact h
    | some x =>
      obtain ⟨hst, l, hl, hc⟩ := h.gens x (List.mem_of_getElem? hx)
      obtain ⟨b1, b2, b3, b4, b5, b6⟩ := resume_items (some g) l s hl
      rw [← hc] at b1 b2 b3 b4 b5 b6
      simp only [hst]
      refine ⟨b2.trans h.main, b3.trans h.thread, oldOk_congr h.old (fun k hk _ => b4 k hk), b5 _ _ h.events, ?_⟩
      intro y hy
      rcases List.mem_or_eq_of_mem_set hy with hy | hy
      · rw [b1] at hy; exact h.gens y hy
      · subst hy; exact b6
  | close g =>
    refine ⟨m, ?_, hp, rfl⟩
    simp only [step]
    cases hx : s.gens[g]? with
    | none => exact h
    | some x =>
      have hst := (h.gens x (List.mem_of_getElem? hx)).1
      simp only [hst, unwind, List.foldl_nil]
      refine ⟨h.main, h.thread, h.old, h.events, ?_⟩
      intro y hy
      rcases List.mem_or_eq_of_mem_set hy with hy | hy
      · exact h.gens y hy
      · subst hy; exact ⟨rfl, [], by simp, rfl⟩
  | enter f =>
    cases f with
    | «section» id =>
      refine ⟨.section id :: m, ?_, hp, rfl⟩
      simp only [step, enter]
      cases hs : s.thread with
      | false =>
        have hm : allOn m = false := by rw [← h.thread, hs]
        rw [emit_off hs]
        exact ⟨by simp [h.main], by simp [hs, allOn, hm], h.old, by simpa [visible, hm] using h.events, h.gens⟩
      | true =>
        have hm : allOn m = true := by rw [← h.thread, hs]
        rw [emit_on hs]
        exact ⟨by simp [h.main], by simp [hs, allOn, hm], h.old, by simpa [visible, hm] using nest_snoc h.events rfl, h.gens⟩
    | switch k =>
      obtain ⟨⟨hk, hm⟩, hp⟩ := hp
      refine ⟨.switch k :: m, ⟨by simp [step, h.main], rfl, ⟨hk, hm, ?_, ?_⟩, h.events, h.gens⟩, hp, rfl⟩
      · simp [step, enter, h.thread]
      · refine oldOk_congr h.old ?_
        intro j _ hj
        have : j ≠ k := fun e => hm (e ▸ hj)
        simp [step, enter, this]
  | leave =>
    refine ⟨m.tail, ?_, hp, rfl⟩
    simp only [step, h.main]
    cases m with
    | nil => exact h
    | cons f st =>
      cases f with
      | «section» id =>
        simp only [leave, List.tail_cons]
        cases hs : s.thread with
        | false =>
          have hm : allOn st = false := by have := h.thread; rw [hs] at this; exact this.symm
          rw [emit_off hs]
          exact ⟨rfl, by simp [hs, hm], h.old, by simpa [visible, hm] using h.events, h.gens⟩
        | true =>
          have hm : allOn st = true := by have := h.thread; rw [hs] at this; exact this.symm
          rw [emit_on hs]
          have he := h.events
          simp only [visible, hm, if_true] at he
          exact ⟨rfl, by simp [hs, hm], h.old, nest_snoc he (by simp [nest]), h.gens⟩
      | switch k => exact ⟨rfl, h.old.2.2.1, h.old.2.2.2, h.events, h.gens⟩
  | mark id =>
    refine ⟨m, ?_, hp, rfl⟩
    simp only [step]
    cases hs : s.thread with
    | false => rw [emit_off hs]; exact h
    | true => rw [emit_on hs]; exact ⟨h.main, h.thread, h.old, nest_snoc h.events rfl, h.gens⟩

theorem ninv_run {M : List Nat} : ∀ (as : List Act) (m : List Frame) (s : State), NInv M m s → Proper M m as →
    NInv M (mainAfter m as) (run s as) := by
  intro as
  induction as with
  | nil => intro m s h _; exact h
  | cons a as ih =>
    intro m s h hp
    obtain ⟨m', h1, h2, h3⟩ := ninv_step h a as hp
    rw [h3]
    exact ih m' _ h1 h2

/-- **Generators that pause outside of `with` statements only**: whatever the schedule, the events of the thread are nested, and the thread records exactly when the rest of the program is in no switcher. -/
theorem nested_partial (M : List Nat) (as : List Act) (hp : Proper M [] as) :
    Nested (run {} as).events ∧ (run {} as).thread = allOn (mainAfter [] as) := by
  have h0 : NInv M [] {} := ⟨rfl, rfl, trivial, rfl, by simp⟩
  have h := ninv_run as [] {} h0 hp
  exact ⟨⟨_, h.events⟩, h.thread⟩

/-- Two generators that pause between their sections, while the rest of the program enters and leaves sections and a switcher. -/
example : Proper [0] [] [.call [.traced 1] (.seq (.trace 2 (.off 1 (.mark 3))) (.seq .pause (.trace 4 .skip))), .enter (.section 5), .resume 0,
    .enter (.switch 0), .resume 0, .leave, .close 0, .leave] := by
  simp [Proper, Outside, Straight, Tidy, switches]

/-! ## Pauses inside of `with` statements -/

/-- **A pause inside of a section breaks the nesting**: whatever was recorded before, a generator that pauses in a section and goes on when the rest of the program has entered another one leaves its section from inside of that one. -/
theorem pause_in_section (s : State) (ht : s.thread = true) (a b : Nat) (hab : a ≠ b) (l : List Nat) (hl : nest [] s.events = some l) :
    ¬ Nested (run s [.call [] (.trace a .pause), .resume s.gens.length, .enter (.section b), .resume s.gens.length]).events := by
  have h : (run s [.call [] (.trace a .pause), .resume s.gens.length, .enter (.section b), .resume s.gens.length]).events =
      s.events ++ [⟨some s.gens.length, .enter, a⟩, ⟨none, .enter, b⟩, ⟨some s.gens.length, .exit, a⟩] := by
    simp [run, step, call, compile, resume, enter, leave, emit, ht]
  rintro ⟨v, hv⟩
  rw [h, nest_append, hl] at hv
  simp [nest, Ne.symm hab] at hv

/-- **A pause inside of a switcher leaves the thread off**: what the rest of the program does until the generator goes on is not recorded, as long as it has no switchers of its own. -/
theorem pause_in_switcher (s : State) (k : Nat) (b : Stmt) (as : List Act)
    (ha : ∀ a ∈ as, (∃ id, a = .mark id) ∨ (∃ id, a = .enter (.section id))) :
    (run s (.call [] (.off k (.seq .pause b)) :: .resume s.gens.length :: as)).thread = false ∧
      (run s (.call [] (.off k (.seq .pause b)) :: .resume s.gens.length :: as)).events = s.events := by
  have h0 : ∀ (as : List Act) (t : State), t.thread = false →
      (∀ a ∈ as, (∃ id, a = .mark id) ∨ (∃ id, a = .enter (.section id))) →
      (run t as).thread = false ∧ (run t as).events = t.events := by
    intro as
    induction as with
    | nil => intro t ht _; exact ⟨ht, rfl⟩
    | cons a as ih =>
      intro t ht ha
      have h1 : (step t a).thread = false ∧ (step t a).events = t.events := by
        rcases ha a (List.mem_cons_self ..) with ⟨id, rfl⟩ | ⟨id, rfl⟩ <;> simp [step, enter, emit, ht]
      obtain ⟨h2, h3⟩ := ih (step t a) h1.1 (fun b hb => ha b (List.mem_cons_of_mem _ hb))
      exact ⟨h2, h3.trans h1.2⟩
  have h1 : (run s [.call [] (.off k (.seq .pause b)), .resume s.gens.length]).thread = false ∧
      (run s [.call [] (.off k (.seq .pause b)), .resume s.gens.length]).events = s.events := by
    simp [run, step, call, compile, resume, enter]
  obtain ⟨h2, h3⟩ := h0 as _ h1.1 ha
  exact ⟨h2, h3.trans h1.2⟩

/-- Such programs exist: nothing of the rest of the program is recorded. -/
example : (run {} [.call [] (.off 0 (.seq .pause (.mark 1))), .resume 0, .mark 2, .enter (.section 3)]).events = [] := by decide

end Scalopus.C134
