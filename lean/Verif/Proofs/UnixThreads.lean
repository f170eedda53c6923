import Verif.Spec.UnixThreads

/-!
# Invariants of the threads of a unix transport
-/

namespace Scalopus.UnixThreads

@[simp] theorem set_ops (s : State) (t : Nat) (l : List Op) (u : Nat) : (s.set t l).ops u = if u = t then l else s.ops u := rfl
@[simp] theorem set_holder (s : State) (t : Nat) (l : List Op) : (s.set t l).holder = s.holder := rfl
@[simp] theorem set_running (s : State) (t : Nat) (l : List Op) : (s.set t l).running = s.running := rfl
@[simp] theorem set_destroyed (s : State) (t : Nat) (l : List Op) : (s.set t l).destroyed = s.destroyed := rfl
@[simp] theorem set_terminated (s : State) (t : Nat) (l : List Op) : (s.set t l).terminated = s.terminated := rfl
@[simp] theorem hold_ops (s : State) (m : Mutex) (h : Option Nat) : (s.hold m h).ops = s.ops := rfl
@[simp] theorem hold_holder (s : State) (m : Mutex) (h : Option Nat) (x : Mutex) : (s.hold m h).holder x = if x = m then h else s.holder x := rfl
@[simp] theorem hold_running (s : State) (m : Mutex) (h : Option Nat) : (s.hold m h).running = s.running := rfl
@[simp] theorem hold_destroyed (s : State) (m : Mutex) (h : Option Nat) : (s.hold m h).destroyed = s.destroyed := rfl
@[simp] theorem hold_terminated (s : State) (m : Mutex) (h : Option Nat) : (s.hold m h).terminated = s.terminated := rfl

/-! ## The mutexes -/

/-- The order in which the mutexes are taken. -/
def rank : Mutex → Nat
  | .request => 0
  | .endpoint => 1
  | .write => 2
  | .broadcast => 3

/-- The mutex that guards a member. -/
def guardOf : Var → Option Mutex
  | .endpoints => some .endpoint
  | .broadcasts => some .broadcast
  | .ongoing => some .request
  | .socket => some .write
  | _ => none

/-- The mutexes that a thread holds. -/
abbrev Held := Mutex → Bool

def free : Held := fun _ => false

/-- What the worker holds when it calls `unsolicited`. -/
def inUnsolicited : Held := fun m => match m with
  | .request => true
  | .endpoint => true
  | _ => false

def up (h : Held) (m : Mutex) (b : Bool) : Held := fun x => if x = m then b else h x

theorem up_up {h : Held} {m : Mutex} (hm : h m = false) : up (up h m true) m false = h := by
  funext x
  simp only [up]
  split
  · rename_i e; rw [e, hm]
  · rfl

def hs (s : State) (t : Nat) : Held := fun m => decide (s.holder m = some t)

theorem hs_iff {s : State} {t : Nat} {m : Mutex} : hs s t m = true ↔ s.holder m = some t := by simp [hs]

/-- What a thread has to do keeps to the rules of the mutexes; the second argument says which it holds. A thread that locks a mutex again hangs, so what follows does not matter; if `strict`, this does
    not occur. -/
def Rules (strict : Bool) : Held → List Op → Prop
  | h, [] => h = free
  | h, .lock m :: l => (h m = true ∧ strict = false) ∨ (h m = false ∧ (∀ m', h m' = true → rank m' < rank m) ∧ Rules strict (up h m true) l)
  | h, .unlock m :: l => h m = true ∧ Rules strict (up h m false) l
  | h, .read v :: l => (∀ m, guardOf v = some m → h m = true) ∧ Rules strict h l
  | h, .write v :: l => (∀ m, guardOf v = some m → h m = true) ∧ Rules strict h l
  | h, .lookup :: l => h = free ∧ Rules strict h l
  | h, .handle :: l => h = free ∧ Rules strict h l
  | h, .unsolicited :: l => h = inUnsolicited ∧ Rules strict h l
  | h, .clearRunning :: l => Rules strict h l
  | h, .loop :: l => h = free ∧ Rules strict h l
  | h, .join :: l => (strict = true → h = free) ∧ Rules strict h l
  | h, .closeAll :: l => Rules strict h l

variable {strict : Bool} {l : List Op} {h : Held}

theorem rules_section {m : Mutex} {v : Var} (w : Op) (hw : w = .read v ∨ w = .write v) (hg : guardOf v = some m) (hm : h m = false) (hr : ∀ m', h m' = true → rank m' < rank m)
    (hl : Rules strict h l) : Rules strict h (.lock m :: w :: .unlock m :: l) := by
  have e : Rules strict (up h m true) (w :: .unlock m :: l) := by
    have h1 : ∀ x, guardOf v = some x → up h m true x = true := by
      intro x hx; rw [hg] at hx; cases hx; simp [up]
    have h2 : Rules strict (up h m true) (.unlock m :: l) := ⟨by simp [up], by rw [up_up hm]; exact hl⟩
    rcases hw with rfl | rfl
    · exact ⟨h1, h2⟩
    · exact ⟨h1, h2⟩
  exact Or.inr ⟨hm, hr, e⟩

theorem rules_send (hm : h .write = false) (hr : ∀ m', h m' = true → rank m' < rank .write) (hl : Rules strict h l) : Rules strict h (sendOps ++ l) :=
  rules_section _ (Or.inr rfl) rfl hm hr hl

theorem free_rank {m : Mutex} : ∀ m', free m' = true → rank m' < rank m := by intro m' h; cases h

/-- Calls made without a mutex. -/
theorem rules_call (c : Call) (hl : Rules strict free l) : Rules strict free (callOps c ++ l) := by
  cases c with
  | addEndpoint => exact rules_section _ (Or.inr rfl) rfl rfl free_rank hl
  | endpoints => exact rules_section _ (Or.inl rfl) rfl rfl free_rank hl
  | getEndpoint => exact rules_section _ (Or.inl rfl) rfl rfl free_rank hl
  | broadcast => exact rules_section _ (Or.inr rfl) rfl rfl free_rank hl
  | request sent =>
    have h1 : Rules strict free ((if sent then [Op.lock .request, .write .ongoing, .unlock .request] else []) ++ l) := by
      cases sent with
      | false => exact hl
      | true => exact rules_section _ (Or.inr rfl) rfl rfl free_rank hl
    refine Or.inr ⟨rfl, free_rank, ?_, ?_, ?_, ?_⟩
    · intro m hm; cases hm
    · intro m hm; cases hm; rfl
    · rfl
    · rw [up_up rfl]; exact h1
  | pendingRequests => exact rules_section _ (Or.inl rfl) rfl rfl free_rank hl
  | isConnected => exact ⟨fun m hm => (by cases hm), hl⟩
  | setLogger => exact ⟨fun m hm => (by cases hm), hl⟩
  | destroy => exact ⟨fun _ => rfl, hl⟩

theorem rules_calls (cs : List Call) (hl : Rules strict free l) : Rules strict free (cs.flatMap callOps ++ l) := by
  induction cs with
  | nil => exact hl
  | cons c cs ih => simp only [List.flatMap_cons, List.append_assoc]; exact rules_call c ih

/-- Calls made in `unsolicited`. -/
theorem rules_call_uns (c : Call) (hc : strict = false ∨ Light c) (hl : Rules strict inUnsolicited l) : Rules strict inUnsolicited (callOps c ++ l) := by
  cases c with
  | broadcast => exact rules_section _ (Or.inr rfl) rfl rfl (by intro m'; cases m' <;> simp [inUnsolicited, rank]) hl
  | isConnected => exact ⟨fun m hm => (by cases hm), hl⟩
  | request sent =>
    rcases hc with hc | hc
    · refine Or.inr ⟨rfl, by intro m'; cases m' <;> simp [inUnsolicited, rank], ?_, ?_, ?_, ?_⟩
      · intro m hm; cases hm
      · intro m hm; cases hm; rfl
      · rfl
      · rw [up_up rfl]
        cases sent with
        | false => exact hl
        | true => exact Or.inl ⟨rfl, hc⟩
    · exact hc.elim
  | setLogger => exact ⟨fun m hm => (by cases hm), hl⟩
  | destroy =>
    rcases hc with hc | hc
    · exact ⟨fun h => (by rw [hc] at h; cases h), hl⟩
    · exact hc.elim
  | _ =>
    rcases hc with hc | hc
    · exact Or.inl ⟨rfl, hc⟩
    · exact hc.elim

theorem rules_calls_uns (cs : List Call) (hc : ∀ c ∈ cs, strict = false ∨ Light c) (hl : Rules strict inUnsolicited l) : Rules strict inUnsolicited (cs.flatMap callOps ++ l) := by
  induction cs with
  | nil => exact hl
  | cons c cs ih =>
    simp only [List.flatMap_cons, List.append_assoc]
    exact rules_call_uns c (hc c (by simp)) (ih fun x hx => hc x (by simp [hx]))

theorem up_req_ep : up (up free .request true) .endpoint true = inUnsolicited := by
  funext m; cases m <;> rfl

theorem rules_incoming (m : Incoming) (hl : Rules strict free l) : Rules strict free (incomingOps m ++ l) := by
  have h1 : Rules strict free ([Op.lock .request, .read .ongoing] ++ (foundOps m.found ++ ([Op.unlock .request] ++ l))) := by
    refine Or.inr ⟨rfl, free_rank, fun x hx => by cases hx; rfl, ?_⟩
    have h2 : Rules strict (up free .request true) ([Op.unlock .request] ++ l) := ⟨rfl, by rw [up_up rfl]; exact hl⟩
    have hr : ∀ m', up free .request true m' = true → rank m' < rank .endpoint := by intro m'; cases m' <;> simp [up, free, rank]
    cases m.found with
    | request => exact ⟨fun x hx => by cases hx; rfl, h2⟩
    | nothing => exact rules_section _ (Or.inl rfl) rfl rfl hr h2
    | endpoint replies =>
      refine Or.inr ⟨rfl, hr, fun x hx => by cases hx; rfl, up_req_ep, ?_⟩
      have h3 : Rules strict (up (up free .request true) .endpoint true) ([Op.unlock .endpoint] ++ ([Op.unlock .request] ++ l)) := ⟨rfl, by rw [up_up rfl]; exact h2⟩
      cases replies with
      | false => exact h3
      | true => exact rules_send rfl (by intro m'; cases m' <;> simp [up, free, rank]) h3
  unfold incomingOps
  simp only [List.append_assoc]
  cases m.lost with
  | false => exact h1
  | true => exact ⟨fun x hx => (by cases hx), h1⟩

theorem rules_event (e : Event) (hl : Rules strict free l) : Rules strict free (eventOps e ++ l) := by
  cases e with
  | lost => exact ⟨fun x hx => (by cases hx), hl⟩
  | unknown => exact ⟨rfl, hl⟩
  | message replies =>
    refine ⟨rfl, rfl, ?_⟩
    cases replies with
    | false => exact hl
    | true => exact rules_send rfl free_rank hl

theorem rules_broadcast (n : Nat) (hl : Rules strict free l) : Rules strict free (broadcastOps n ++ l) := by
  refine rules_section _ (Or.inl rfl) rfl rfl free_rank (rules_section _ (Or.inr rfl) rfl rfl free_rank ⟨fun x hx => (by cases hx), ?_⟩)
  show Rules strict free ((List.replicate n sendOps).flatten ++ l)
  induction n with
  | zero => exact hl
  | succ n ih =>
    rw [List.replicate_succ, List.flatten_cons, List.append_assoc]
    exact rules_send rfl free_rank ih

theorem rules_flat {α : Type} (f : α → List Op) (hf : ∀ a l, Rules strict free l → Rules strict free (f a ++ l)) (as : List α) (hl : Rules strict free l) :
    Rules strict free (as.flatMap f ++ l) := by
  induction as with
  | nil => exact hl
  | cons a as ih => simp only [List.flatMap_cons, List.append_assoc]; exact hf a _ ih

theorem rules_round (r : Round) (hl : Rules strict free l) : Rules strict free (roundOps r ++ l) := by
  have h1 : Rules strict free ([Op.lock .broadcast, .read .broadcasts, .unlock .broadcast, .lock .request, .write .ongoing, .unlock .request] ++ l) :=
    rules_section _ (Or.inl rfl) rfl rfl free_rank (rules_section _ (Or.inr rfl) rfl rfl free_rank hl)
  have h2 := rules_flat eventOps (fun e l hl => rules_event e hl) r.events (rules_flat broadcastOps (fun n l hl => rules_broadcast n hl) r.broadcasts h1)
  have h3 : Rules strict free ((r.client.map incomingOps).getD [] ++ ((if r.serverExcept then [Op.read .logger] else []) ++ ([Op.read .connections] ++ (r.events.flatMap eventOps ++ (r.broadcasts.flatMap broadcastOps ++
      ([Op.lock .broadcast, .read .broadcasts, .unlock .broadcast, .lock .request, .write .ongoing, .unlock .request] ++ l)))))) := by
    have h4 : Rules strict free ([Op.read .connections] ++ (r.events.flatMap eventOps ++ (r.broadcasts.flatMap broadcastOps ++
      ([Op.lock .broadcast, .read .broadcasts, .unlock .broadcast, .lock .request, .write .ongoing, .unlock .request] ++ l)))) := ⟨fun x hx => (by cases hx), h2⟩
    have h6 : Rules strict free ((if r.serverExcept then [Op.read .logger] else []) ++ ([Op.read .connections] ++ (r.events.flatMap eventOps ++ (r.broadcasts.flatMap broadcastOps ++
      ([Op.lock .broadcast, .read .broadcasts, .unlock .broadcast, .lock .request, .write .ongoing, .unlock .request] ++ l))))) := by
      cases r.serverExcept with
      | false => exact h4
      | true => exact ⟨fun x hx => (by cases hx), h4⟩
    cases r.client with
    | none => exact h6
    | some m => exact rules_incoming m h6
  have hlog : ∀ k, Rules strict free k → Rules strict free (.read .logger :: k) := fun k hk => ⟨fun x hx => (by cases hx), hk⟩
  unfold roundOps
  simp only [List.append_assoc]
  refine ⟨fun x hx => (by cases hx), ?_⟩
  have h5 : Rules strict free ((if r.accept = .failed then [Op.read .logger]
    else (if r.accept = .accepted then [.write .connections] else []) ++ ((r.client.map incomingOps).getD [] ++ ((if r.serverExcept then [.read .logger] else []) ++ ([.read .connections] ++ (r.events.flatMap eventOps ++
      (r.broadcasts.flatMap broadcastOps ++ [.lock .broadcast, .read .broadcasts, .unlock .broadcast, .lock .request, .write .ongoing, .unlock .request])))))) ++ l) := by
    split
    · exact hlog _ hl
    · simp only [List.append_assoc]
      split
      · exact ⟨fun x hx => (by cases hx), h3⟩
      · exact h3
  cases r.selectFailed with
  | false => exact h5
  | true => exact hlog _ h5

/-- Every thread keeps to the rules. -/
def LockInv (strict : Bool) (s : State) : Prop := ∀ t, Rules strict (hs s t) (s.ops t)

theorem lockInv_init : LockInv strict {} := by
  intro t
  have : hs {} t = free := by funext m; simp [hs, free]
  rw [this]
  show Rules strict free (if t = 1 then [.loop] else [])
  split
  · exact ⟨rfl, rfl⟩
  · rfl

theorem free_of_nil {s : State} {t : Nat} (h : LockInv strict s) (e : s.ops t = []) : hs s t = free := by
  have := h t
  rw [e] at this
  exact this

theorem lockInv_call {s s' : State} {t : Nat} {c : Call} (h : LockInv strict s) (e : step s (.call t c) = some s') : LockInv strict s' := by
  simp only [step] at e
  split at e
  · rename_i hc
    simp only [Option.some.injEq] at e
    subst e
    intro u
    show Rules strict (hs s u) (if u = t then callOps c else s.ops u)
    split
    · rename_i hu
      subst hu
      rw [free_of_nil h hc.2.2.1]
      have := rules_call (strict := strict) c (l := []) rfl
      simpa using this
    · exact h u
  · cases e

theorem hs_other {s : State} {t u : Nat} {m : Mutex} {x : Option Nat} (hu : u ≠ t) (hx : x = none ∨ x = some t) (hm : s.holder m = none ∨ s.holder m = some t) : hs (s.hold m x) u = hs s u := by
  funext y
  simp only [hs, hold_holder]
  split
  · rename_i hy
    subst hy
    have h1 : x ≠ some u := by
      rcases hx with rfl | rfl
      · simp
      · simpa using Ne.symm hu
    have h2 : s.holder y ≠ some u := by
      rcases hm with h | h
      · simp [h]
      · rw [h]; simpa using Ne.symm hu
    simp [h1, h2]
  · rfl

theorem lockInv_exec {s s' : State} {t : Nat} {cs : List Call} {r : Round} (h : LockInv strict s)
    (hq : strict = true → (s.ops t).head? = some .unsolicited → ∀ c ∈ cs, Light c) (e : step s (.exec t cs r) = some s') : LockInv strict s' := by
  simp only [step] at e
  split at e
  · cases e
  split at e
  · cases e
  rename_i o rest ho
  have ht := h t
  rw [ho] at ht hq
  have same : ∀ (l : List Op) (s' : State), s'.holder = s.holder → s'.ops = (s.set t l).ops → Rules strict (hs s t) l → LockInv strict s' := by
    intro l s' h1 h2 hl u
    have : hs s' u = hs s u := by funext m; simp [hs, h1]
    rw [this, h2]
    show Rules strict (hs s u) (if u = t then l else s.ops u)
    split
    · rename_i hu; rw [hu]; exact hl
    · exact h u
  cases o with
  | lock m =>
    simp only [exec] at e
    split at e
    · rename_i hm
      simp only [Option.some.injEq] at e
      subst e
      have hf : hs s t m = false := by simp [hs, hm]
      have h1 : Rules strict (up (hs s t) m true) rest := by
        rcases ht with ⟨h1, _⟩ | ⟨_, _, h1⟩
        · rw [hf] at h1; cases h1
        · exact h1
      intro u
      by_cases hu : u = t
      · subst hu
        have : hs ((s.set u rest).hold m (some u)) u = up (hs s u) m true := by
          funext y; simp only [hs, hold_holder, up, set_holder]; split <;> simp
        rw [this]
        simpa using h1
      · have : hs ((s.set t rest).hold m (some t)) u = hs s u := (hs_other (s := s.set t rest) hu (Or.inr rfl) (Or.inl hm)).trans rfl
        rw [this]
        simpa [hu] using h u
    · cases e
  | unlock m =>
    simp only [exec, Option.some.injEq] at e
    subst e
    obtain ⟨h1, h2⟩ := ht
    intro u
    by_cases hu : u = t
    · subst hu
      have : hs ((s.set u rest).hold m none) u = up (hs s u) m false := by
        funext y; simp only [hs, hold_holder, up, set_holder]; split <;> simp
      rw [this]
      simpa using h2
    · have : hs ((s.set t rest).hold m none) u = hs s u := (hs_other (s := s.set t rest) hu (Or.inl rfl) (Or.inr (hs_iff.mp h1))).trans rfl
      rw [this]
      simpa [hu] using h u
  | read v => simp only [exec, Option.some.injEq] at e; subst e; exact same rest _ rfl rfl ht.2
  | write v => simp only [exec, Option.some.injEq] at e; subst e; exact same rest _ rfl rfl ht.2
  | lookup => simp only [exec, Option.some.injEq] at e; subst e; exact same rest _ rfl rfl ht.2
  | handle =>
    simp only [exec, Option.some.injEq] at e; subst e
    refine same _ _ rfl rfl ?_
    have h2 := ht.2
    rw [ht.1] at h2 ⊢
    exact rules_calls cs h2
  | unsolicited =>
    simp only [exec, Option.some.injEq] at e; subst e
    refine same _ _ rfl rfl ?_
    have h2 := ht.2
    rw [ht.1] at h2 ⊢
    refine rules_calls_uns cs (fun c hc => ?_) h2
    cases hst : strict with
    | false => exact Or.inl rfl
    | true => exact Or.inr (hq hst rfl c hc)
  | clearRunning => simp only [exec, Option.some.injEq] at e; subst e; exact same rest _ rfl rfl ht
  | loop =>
    simp only [exec, Option.some.injEq] at e; subst e
    refine same _ _ rfl rfl ?_
    split
    · rw [ht.1]; exact rules_round r ⟨rfl, rfl⟩
    · exact ht.2
  | join =>
    simp only [exec] at e
    split at e
    · simp only [Option.some.injEq] at e; subst e; exact h
    · split at e
      · simp only [Option.some.injEq] at e; subst e; exact same rest _ rfl rfl ht.2
      · cases e
  | closeAll => simp only [exec, Option.some.injEq] at e; subst e; exact same rest _ rfl rfl ht

theorem lockInv {P : State → Nat → Call → Prop} {Q : Op → Call → Prop} {s : State} (h : Reachable P Q s) : LockInv false s := by
  induction h with
  | init => exact lockInv_init
  | call _ _ e ih => exact lockInv_call ih e
  | exec _ _ e ih => exact lockInv_exec ih (fun h => by cases h) e

theorem strictInv {P : State → Nat → Call → Prop} {Q : Op → Call → Prop} (hQ : ∀ c, Q .unsolicited c → Light c) {s : State} (h : Reachable P Q s) : LockInv true s := by
  induction h with
  | init => exact lockInv_init
  | call _ _ e ih => exact lockInv_call ih e
  | exec _ hc e ih => exact lockInv_exec ih (fun _ ho c hm => hQ c (hc _ (by rw [ho]; rfl) c hm)) e

/-- A thread that is about to access a guarded member holds its mutex. -/
theorem guarded {s : State} (h : LockInv strict s) {t : Nat} {o : Op} {rest : List Op} (e : s.ops t = o :: rest) {v : Var} (ho : o = .read v ∨ o = .write v) {m : Mutex} (hm : guardOf v = some m) :
    s.holder m = some t := by
  have := h t
  rw [e] at this
  rcases ho with rfl | rfl
  · exact hs_iff.mp (this.1 m hm)
  · exact hs_iff.mp (this.1 m hm)

/-! ## Which thread does what -/

/-- Steps that only calls of the owner have; and two that do not occur. -/
def Op.owner : Op → Bool
  | .write .logger | .join | .closeAll => true
  | .read .running | .write .running => true
  | _ => false

def Call.owner : Call → Bool
  | .setLogger | .destroy => true
  | _ => false

structure WhoInv (s : State) : Prop where
  /-- Other threads than the worker are in a call. -/
  users : ∀ t, t ≠ 1 → ∃ c, s.ops t <:+ callOps c ∧ (c.owner = true → t = 0)
  worker : ∀ o ∈ s.ops 1, o.owner = false
  /-- The worker has ended when the destructor goes on after `join`. -/
  joined : ∀ t, s.ops t = [.closeAll] → s.ops 1 = []
  /-- The worker was told to end when the destructor waits for it. -/
  told : ∀ t, t ≠ 1 → (s.ops t = [.join, .closeAll] ∨ s.ops t = [.closeAll]) → s.running = false
  /-- While the destructor runs no other thread is in a call. -/
  alone : s.destroyed = true → ∀ t, t ≠ 0 → t ≠ 1 → s.ops t = []
  begun : ∀ t, t ≠ 1 → (.join ∈ s.ops t ∨ .closeAll ∈ s.ops t) → s.destroyed = true
  fine : s.terminated = false

theorem owner_calls {c : Call} (hc : c.owner = false) : ∀ o ∈ callOps c, o.owner = false := by
  cases c with
  | request sent => cases sent <;> simp [callOps, Op.owner]
  | setLogger => cases hc
  | destroy => cases hc
  | _ => simp [callOps, Op.owner]

theorem owner_round (r : Round) : ∀ o ∈ roundOps r, o.owner = false := by
  have hsend : ∀ o ∈ sendOps, o.owner = false := by simp [sendOps, Op.owner]
  have hfound : ∀ f, ∀ o ∈ foundOps f, o.owner = false := by
    intro f; cases f with
    | endpoint replies => cases replies <;> simp [foundOps, sendOps, Op.owner]
    | _ => simp [foundOps, Op.owner]
  have hinc : ∀ m, ∀ o ∈ incomingOps m, o.owner = false := by
    intro m o ho
    simp only [incomingOps, List.mem_append] at ho
    rcases ho with ((ho | ho) | ho) | ho
    · cases hm : m.lost <;> rw [hm] at ho <;> simp at ho
      rcases ho with rfl | rfl <;> rfl
    · simp at ho; rcases ho with rfl | rfl <;> rfl
    · exact hfound _ o ho
    · simp at ho; subst ho; rfl
  have hev : ∀ e, ∀ o ∈ eventOps e, o.owner = false := by
    intro e; cases e with
    | message replies => cases replies <;> simp [eventOps, sendOps, Op.owner]
    | _ => simp [eventOps, Op.owner]
  have hbc : ∀ n, ∀ o ∈ broadcastOps n, o.owner = false := by
    intro n o ho
    simp only [broadcastOps, List.mem_append] at ho
    rcases ho with ho | ho
    · simp at ho; rcases ho with rfl | rfl | rfl | rfl | rfl | rfl | rfl <;> rfl
    · obtain ⟨x, hx, ho⟩ := List.mem_flatten.mp ho
      rw [List.eq_of_mem_replicate hx] at ho
      exact hsend o ho
  intro o ho
  simp only [roundOps, List.mem_append] at ho
  rcases ho with (ho | ho) | ho
  · simp at ho; subst ho; rfl
  · split at ho <;> simp at ho; subst ho; rfl
  · split at ho
    · simp at ho; subst ho; rfl
    · simp only [List.mem_append] at ho
      rcases ho with (((((ho | ho) | ho) | ho) | ho) | ho) | ho
      · split at ho <;> simp at ho; subst ho; rfl
      · cases hc : r.client with
        | none => rw [hc] at ho; cases ho
        | some m => rw [hc] at ho; exact hinc m o ho
      · split at ho <;> simp at ho; subst ho; rfl
      · simp at ho; subst ho; rfl
      · obtain ⟨x, _, ho⟩ := List.mem_flatMap.mp ho; exact hev x o ho
      · obtain ⟨x, _, ho⟩ := List.mem_flatMap.mp ho; exact hbc x o ho
      · simp at ho; rcases ho with rfl | rfl | rfl | rfl | rfl | rfl <;> rfl

theorem whoInv_init : WhoInv {} := by
  constructor
  · intro t ht; exact ⟨.isConnected, by simp [ht], by simp [Call.owner]⟩
  · simp [Op.owner]
  · intro t; show (if t = 1 then [Op.loop] else []) = _ → _; split <;> simp
  · intro t ht; simp [ht]
  · simp
  · intro t ht; simp [ht]
  · rfl


theorem whoInv_call {s s' : State} {t : Nat} {c : Call} (h : WhoInv s) (hp : Proper s t c) (e : step s (.call t c) = some s') : WhoInv s' := by
  simp only [step] at e
  split at e
  · rename_i hc
    obtain ⟨_, ht, hn, hd⟩ := hc
    simp only [Option.some.injEq] at e
    subst e
    have key : ∀ u, ({ s.set t (callOps c) with destroyed := decide (c = .destroy) } : State).ops u = if u = t then callOps c else s.ops u := fun _ => rfl
    have h1 : ({ s.set t (callOps c) with destroyed := decide (c = .destroy) } : State).ops 1 = s.ops 1 := by rw [key, if_neg (Ne.symm ht)]
    have nj : ∀ u, u ≠ 1 → ¬ (.join ∈ s.ops u ∨ .closeAll ∈ s.ops u) := fun u hu hj => by rw [h.begun u hu hj] at hd; cases hd
    have cj : (.join ∈ callOps c ∨ .closeAll ∈ callOps c) → c = .destroy := by
      cases c with
      | request sent => cases sent <;> simp [callOps]
      | _ => simp [callOps]
    have ch : callOps c ≠ [.closeAll] ∧ callOps c ≠ [.join, .closeAll] := by
      cases c with
      | request sent => cases sent <;> simp [callOps]
      | _ => simp [callOps]
    constructor
    · intro u hu
      rw [key]
      split
      · rename_i hut
        refine ⟨c, List.suffix_refl _, fun ho => ?_⟩
        cases c <;> simp [Call.owner] at ho
        · rw [hut]; exact hp
        · rw [hut]; exact hp.1
      · exact h.users u hu
    · rw [h1]; exact h.worker
    · intro u hu
      rw [key] at hu
      rw [h1]
      split at hu
      · exact absurd hu ch.1
      · exact h.joined u hu
    · intro u hu hj
      rw [key] at hj
      split at hj
      · rcases hj with hj | hj
        · exact absurd hj ch.2
        · exact absurd hj ch.1
      · exact h.told u hu hj
    · intro hdd u hu0 hu1
      have : c = .destroy := by simpa using hdd
      subst this
      rw [key]
      split
      · rename_i hut; exact absurd (hut.trans hp.1) hu0
      · exact hp.2 u hu1
    · intro u hu hj
      rw [key] at hj
      split at hj
      · simpa using cj hj
      · exact absurd hj (nj u hu)
    · exact h.fine
  · cases e

theorem suffix_tail {o : Op} {rest l : List Op} (h : o :: rest <:+ l) : rest <:+ l := (List.suffix_cons o rest).trans h

theorem not_in_calls (c : Call) : Op.handle ∉ callOps c ∧ Op.unsolicited ∉ callOps c ∧ Op.loop ∉ callOps c ∧ Op.lookup ∉ callOps c ∧ Op.write .clientFd ∉ callOps c ∧
    Op.write .connections ∉ callOps c ∧ Op.read .connections ∉ callOps c ∧ Op.read .logger ∉ callOps c ∧ Op.read .running ∉ callOps c ∧ Op.write .running ∉ callOps c := by
  cases c with
  | request sent => cases sent <;> simp [callOps]
  | _ => simp [callOps]

theorem destroy_suffix {l : List Op} (h : l <:+ [Op.clearRunning, .join, .closeAll]) : l = [.clearRunning, .join, .closeAll] ∨ l = [.join, .closeAll] ∨ l = [.closeAll] ∨ l = [] := by
  rcases List.suffix_cons_iff.mp h with h | h
  · exact Or.inl h
  · rcases List.suffix_cons_iff.mp h with h | h
    · exact Or.inr (Or.inl h)
    · rcases List.suffix_cons_iff.mp h with h | h
      · exact Or.inr (Or.inr (Or.inl h))
      · exact Or.inr (Or.inr (Or.inr (List.suffix_nil.mp h)))

theorem join_calls (c : Call) (h : .join ∈ callOps c ∨ .closeAll ∈ callOps c ∨ .clearRunning ∈ callOps c) : c = .destroy := by
  cases c with
  | request sent => cases sent <;> simp [callOps] at h
  | destroy => rfl
  | _ => simp [callOps] at h

/-- A thread that has to join is in the destructor. -/
theorem in_destructor {s : State} (h : WhoInv s) {t : Nat} (ht : t ≠ 1) (hj : .join ∈ s.ops t ∨ .closeAll ∈ s.ops t ∨ .clearRunning ∈ s.ops t) :
    t = 0 ∧ (s.ops t = [.clearRunning, .join, .closeAll] ∨ s.ops t = [.join, .closeAll] ∨ s.ops t = [.closeAll]) := by
  obtain ⟨c, hc, ho⟩ := h.users t ht
  have hd : c = .destroy := join_calls c (by
    rcases hj with hj | hj | hj
    · exact Or.inl (hc.subset hj)
    · exact Or.inr (Or.inl (hc.subset hj))
    · exact Or.inr (Or.inr (hc.subset hj)))
  subst hd
  refine ⟨ho rfl, ?_⟩
  rcases destroy_suffix hc with h | h | h | h
  · exact Or.inl h
  · exact Or.inr (Or.inl h)
  · exact Or.inr (Or.inr h)
  · rw [h] at hj; simp at hj

theorem whoInv_exec {s s' : State} {t : Nat} {cs : List Call} {r : Round} (h : WhoInv s) (hq : ∀ c ∈ cs, c.owner = false ∨ t ≠ 1) (e : step s (.exec t cs r) = some s') : WhoInv s' := by
  simp only [step] at e
  split at e
  · cases e
  split at e
  · cases e
  rename_i o rest ho
  -- A user's step.
  by_cases ht : t = 1
  · -- the worker
    subst ht
    have hw := h.worker
    rw [ho] at hw
    have hown := hw o (by simp)
    have hrest : ∀ x ∈ rest, x.owner = false := fun x hx => hw x (by simp [hx])
    have same : ∀ (l : List Op) (s' : State), s'.ops = (s.set 1 l).ops → (s'.running = s.running ∨ s'.running = false) → s'.destroyed = s.destroyed → s'.terminated = s.terminated →
        (∀ x ∈ l, x.owner = false) → WhoInv s' := by
      intro l s' h1 h2 h3 h4 hl
      have k : ∀ u, u ≠ 1 → s'.ops u = s.ops u := fun u hu => by rw [h1, set_ops, if_neg hu]
      have k1 : s'.ops 1 = l := by rw [h1]; simp
      have ndone : ∀ u, s.ops u ≠ [.closeAll] ∨ u = 1 := by
        intro u
        by_cases hu : u = 1
        · exact Or.inr hu
        · refine Or.inl fun hc => ?_
          have := h.joined u hc
          rw [ho] at this
          cases this
      refine ⟨?_, ?_, ?_, ?_, ?_, ?_, ?_⟩
      · intro u hu; rw [k u hu]; exact h.users u hu
      · rw [k1]; exact hl
      · intro u hu
        by_cases hu1 : u = 1
        · subst hu1
          rw [k1] at hu
          rw [hu] at hl
          have := hl _ (List.mem_singleton.mpr rfl)
          cases this
        · rw [k u hu1] at hu
          rcases ndone u with hc | hc
          · exact absurd hu hc
          · exact absurd hc hu1
      · intro u hu hj
        rw [k u hu] at hj
        rcases h2 with h2 | h2
        · rw [h2]; exact h.told u hu hj
        · exact h2
      · intro hd u hu0 hu1
        rw [k u hu1]
        rw [h3] at hd
        exact h.alone hd u hu0 hu1
      · intro u hu hj
        rw [k u hu] at hj
        rw [h3]
        exact h.begun u hu hj
      · rw [h4]; exact h.fine
    have hcalls : ∀ x ∈ cs.flatMap callOps ++ rest, x.owner = false := by
      intro x hx
      rcases List.mem_append.mp hx with hx | hx
      · obtain ⟨c, hc, hx⟩ := List.mem_flatMap.mp hx
        rcases hq c hc with h1 | h1
        · exact owner_calls h1 x hx
        · exact absurd rfl h1
      · exact hrest x hx
    cases o with
    | lock m =>
      simp only [exec] at e
      split at e
      · simp only [Option.some.injEq] at e; subst e; exact same rest _ rfl (Or.inl rfl) rfl rfl hrest
      · cases e
    | unlock m => simp only [exec, Option.some.injEq] at e; subst e; exact same rest _ rfl (Or.inl rfl) rfl rfl hrest
    | read v => simp only [exec, Option.some.injEq] at e; subst e; exact same rest _ rfl (Or.inl rfl) rfl rfl hrest
    | write v => simp only [exec, Option.some.injEq] at e; subst e; exact same rest _ rfl (Or.inl rfl) rfl rfl hrest
    | lookup => simp only [exec, Option.some.injEq] at e; subst e; exact same rest _ rfl (Or.inl rfl) rfl rfl hrest
    | handle => simp only [exec, Option.some.injEq] at e; subst e; exact same _ _ rfl (Or.inl rfl) rfl rfl hcalls
    | unsolicited => simp only [exec, Option.some.injEq] at e; subst e; exact same _ _ rfl (Or.inl rfl) rfl rfl hcalls
    | clearRunning => simp only [exec, Option.some.injEq] at e; subst e; exact same rest _ rfl (Or.inr rfl) rfl rfl hrest
    | loop =>
      simp only [exec, Option.some.injEq] at e; subst e
      refine same _ _ rfl (Or.inl rfl) rfl rfl ?_
      split
      · intro x hx
        rcases List.mem_append.mp hx with hx | hx
        · exact owner_round r x hx
        · rw [List.mem_singleton] at hx; subst hx; rfl
      · exact hrest
    | join => cases hown
    | closeAll => cases hown
  · -- a user
    obtain ⟨c, hc, hco⟩ := h.users t ht
    rw [ho] at hc
    have hmem : o ∈ callOps c := hc.subset (by simp)
    have hnot := not_in_calls c
    have same : ∀ (s' : State), s'.ops = (s.set t rest).ops → (s'.running = s.running ∨ s'.running = false) → s'.destroyed = s.destroyed → s'.terminated = s.terminated →
        (rest = [.closeAll] → s.ops 1 = []) → (rest = [.join, .closeAll] → s'.running = false) → WhoInv s' := by
      intro s' h1 h2 h3 h4 h5 h6
      have k : ∀ u, u ≠ t → s'.ops u = s.ops u := fun u hu => by rw [h1, set_ops, if_neg hu]
      have k1 : s'.ops t = rest := by rw [h1]; simp
      have k2 := k 1 (Ne.symm ht)
      refine ⟨?_, ?_, ?_, ?_, ?_, ?_, ?_⟩
      · intro u hu
        by_cases hut : u = t
        · subst hut; rw [k1]; exact ⟨c, suffix_tail hc, hco⟩
        · rw [k u hut]; exact h.users u hu
      · rw [k2]; exact h.worker
      · intro u hu
        rw [k2]
        by_cases hut : u = t
        · subst hut; rw [k1] at hu; exact h5 hu
        · rw [k u hut] at hu; exact h.joined u hu
      · intro u hu hj
        by_cases hut : u = t
        · subst hut
          rw [k1] at hj
          rcases hj with hj | hj
          · exact h6 hj
          · have : s.running = false := by
              have hd := (in_destructor h ht (Or.inr (Or.inl (by rw [ho, hj]; simp)))).2
              rw [ho, hj] at hd
              rcases hd with hd | hd | hd
              · simp at hd
              · exact h.told u ht (Or.inl (by rw [ho, hj]; exact hd))
              · simp at hd
            rcases h2 with h2 | h2
            · rw [h2]; exact this
            · exact h2
        · rw [k u hut] at hj
          rcases h2 with h2 | h2
          · rw [h2]; exact h.told u hu hj
          · exact h2
      · intro hd u hu0 hu1
        rw [h3] at hd
        by_cases hut : u = t
        · subst hut
          have := h.alone hd u hu0 hu1
          rw [ho] at this
          cases this
        · rw [k u hut]; exact h.alone hd u hu0 hu1
      · intro u hu hj
        rw [h3]
        by_cases hut : u = t
        · subst hut
          rw [k1] at hj
          refine h.begun u hu ?_
          rw [ho]
          rcases hj with hj | hj
          · exact Or.inl (by simp [hj])
          · exact Or.inr (by simp [hj])
        · rw [k u hut] at hj; exact h.begun u hu hj
      · rw [h4]; exact h.fine
    have hr1 : o ≠ .join → rest ≠ [.closeAll] := by
      intro hj hr
      have hd := (in_destructor h ht (Or.inr (Or.inl (by rw [ho, hr]; simp)))).2
      rw [ho, hr] at hd
      simp at hd
      exact hj hd
    have hr2 : o ≠ .clearRunning → rest ≠ [.join, .closeAll] := by
      intro hj hr
      have hd := (in_destructor h ht (Or.inl (by rw [ho, hr]; simp))).2
      rw [ho, hr] at hd
      simp at hd
      exact hj hd
    cases o with
    | lock m =>
      simp only [exec] at e
      split at e
      · simp only [Option.some.injEq] at e; subst e
        exact same _ rfl (Or.inl rfl) rfl rfl (fun hr => absurd hr (hr1 (by simp))) (fun hr => absurd hr (hr2 (by simp)))
      · cases e
    | unlock m =>
      simp only [exec, Option.some.injEq] at e; subst e
      exact same _ rfl (Or.inl rfl) rfl rfl (fun hr => absurd hr (hr1 (by simp))) (fun hr => absurd hr (hr2 (by simp)))
    | read v =>
      simp only [exec, Option.some.injEq] at e; subst e
      exact same _ rfl (Or.inl rfl) rfl rfl (fun hr => absurd hr (hr1 (by simp))) (fun hr => absurd hr (hr2 (by simp)))
    | write v =>
      simp only [exec, Option.some.injEq] at e; subst e
      exact same _ rfl (Or.inl rfl) rfl rfl (fun hr => absurd hr (hr1 (by simp))) (fun hr => absurd hr (hr2 (by simp)))
    | lookup => exact absurd hmem hnot.2.2.2.1
    | handle => exact absurd hmem hnot.1
    | unsolicited => exact absurd hmem hnot.2.1
    | loop => exact absurd hmem hnot.2.2.1
    | clearRunning =>
      simp only [exec, Option.some.injEq] at e; subst e
      exact same _ rfl (Or.inr rfl) rfl rfl (fun hr => absurd hr (hr1 (by simp))) (fun _ => rfl)
    | join =>
      simp only [exec] at e
      rw [if_neg ht] at e
      split at e
      · rename_i h1
        simp only [Option.some.injEq] at e; subst e
        exact same _ rfl (Or.inl rfl) rfl rfl (fun _ => h1) (fun hr => absurd hr (hr2 (by simp)))
      · cases e
    | closeAll =>
      simp only [exec, Option.some.injEq] at e; subst e
      exact same _ rfl (Or.inl rfl) rfl rfl (fun hr => absurd hr (hr1 (by simp))) (fun hr => absurd hr (hr2 (by simp)))

theorem whoInv {Q : Op → Call → Prop} (hQ : ∀ o c, Q o c → c.owner = false) {s : State} (h : Reachable Proper Q s) : WhoInv s := by
  induction h with
  | init => exact whoInv_init
  | call _ hp e ih => exact whoInv_call ih hp e
  | @exec s s' t cs r _ hc e ih =>
    refine whoInv_exec ih ?_ e
    intro c hm
    cases ho : (s.ops t).head? with
    | none =>
      simp only [step] at e
      split at e
      · cases e
      · split at e
        · cases e
        · rename_i h1; rw [h1] at ho; cases ho
    | some o => exact Or.inl (hQ o c (hc o (by rw [ho]; rfl) c hm))

end Scalopus.UnixThreads
