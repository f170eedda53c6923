import Verif.Model.TracedThreads

/-!
# C153: the threads of a traced program

All statements quantify over every number of threads, every history of calls and every interleaving.
-/

namespace Scalopus.C153

open TracedThreads

/-- Two different threads are about to access the same data, and one of them writes: a data race (C++ standard, [intro.races]). -/
def RaceOn (s : State) (v : Var) : Prop := ∃ t u w, t ≠ u ∧ s.accesses t v true ∧ s.accesses u v w

/-- A program in which only one thread makes, uses and destroys senders. -/
def Proper : Act → Prop
  | .call t .make | .call t .setTransport | .call t .destroy => t = 0
  | _ => True

/-- The states of such programs. -/
inductive Reachable : State → Prop
  | init : Reachable {}
  | step {s s' : State} {a : Act} : Reachable s → Proper a → step s a = some s' → Reachable s'

/-- The full claim: no data races. -/
def NoRace : Prop := ∀ s v, Reachable s → ¬ RaceOn s v

/-! ### Locks -/

/-- Lists of steps in which every access to guarded data is within its critical section. -/
inductive Blocks : List Op → Prop
  | nil : Blocks []
  | crit (m : Mutex) (alone w : Bool) {l : List Op} : (w = true → alone = true) → Blocks l → Blocks (.lock m alone :: (if w then .write m.guards else .read m.guards) :: .unlock m :: l)
  | size (w : Bool) {l : List Op} : Blocks l → Blocks ((if w then .write .ringSize else .read .ringSize) :: l)
  | transport (w : Bool) {l : List Op} : Blocks l → Blocks ((if w then .write .transport else .read .transport) :: l)
  | clearRunning {l : List Op} : Blocks l → Blocks (.clearRunning :: l)
  | loop {l : List Op} : Blocks l → Blocks (.loop :: l)
  | join {l : List Op} : Blocks l → Blocks (.join :: l)

theorem Blocks.append {a b : List Op} (ha : Blocks a) (hb : Blocks b) : Blocks (a ++ b) := by
  induction ha with
  | nil => exact hb
  | crit m alone w h _ ih => exact .crit m alone w h ih
  | size w _ ih => exact .size w ih
  | transport w _ ih => exact .transport w ih
  | clearRunning _ ih => exact .clearRunning ih
  | loop _ ih => exact .loop ih
  | join _ ih => exact .join ih

theorem change_blocks (m : Mutex) : Blocks (change m) := .crit m true true (fun _ => rfl) .nil
theorem look_blocks (m : Mutex) : Blocks (look m) := .crit m false false (fun h => by cases h) .nil
theorem lookStates_blocks : Blocks lookStates := .crit .states true false (fun h => by cases h) .nil

theorem getBuffer_blocks (f : Bool) : Blocks (getBuffer f) := by
  unfold getBuffer
  refine (look_blocks _).append ?_
  cases f
  · exact .size false (change_blocks _)
  · exact look_blocks _

theorem getThreadState_blocks (f : Bool) : Blocks (getThreadState f) := by
  cases f
  · exact change_blocks _
  · exact lookStates_blocks

theorem call_blocks (c : Call) : Blocks (callOps c) := by
  cases c with
  | tracepoint b s => exact (getBuffer_blocks b).append (getThreadState_blocks s)
  | threadState f => exact getThreadState_blocks f
  | threadMap => exact lookStates_blocks
  | register => exact change_blocks _
  | mapping => exact look_blocks _
  | nameThread => exact change_blocks _
  | threadNames => exact look_blocks _
  | setRingbufferSize => exact .size true .nil
  | endThread b =>
    unfold callOps
    refine ((((look_blocks _).append ?_).append (change_blocks _)).append (change_blocks _)).append (change_blocks _)
    cases b
    · exact .nil
    · exact (look_blocks _).append (change_blocks _)
  | make => exact .nil
  | setTransport => exact .transport true .nil
  | destroy => exact .clearRunning (.join .nil)

theorem round_blocks (c : Bool) : Blocks (roundOps c) := by
  unfold roundOps
  refine ((change_blocks _).append (look_blocks _)).append ?_
  cases c
  · exact .nil
  · exact .transport false .nil

/-- What a thread has and where it is. -/
inductive At (held : List (Nat × Mutex × Bool)) (t : Nat) (l : List Op) : Prop
  | outside : held.filter (fun h => h.1 = t) = [] → Blocks l → At held t l
  | before (m : Mutex) (alone w : Bool) (r : List Op) : held.filter (fun h => h.1 = t) = [(t, m, alone)] → (w = true → alone = true) → l = (if w then .write m.guards else .read m.guards) :: .unlock m :: r →
      Blocks r → At held t l
  | after (m : Mutex) (alone : Bool) (r : List Op) : held.filter (fun h => h.1 = t) = [(t, m, alone)] → l = .unlock m :: r → Blocks r → At held t l

/-- Two threads that have the same mutex share it. -/
def Compatible (held : List (Nat × Mutex × Bool)) : Prop := held.Pairwise fun x y => x.2.1 = y.2.1 → x.2.2 = false ∧ y.2.2 = false

structure LockInv (s : State) : Prop where
  at_ : ∀ t, At s.held t (s.ops t)
  compatible : Compatible s.held

theorem At.other {held held' : List (Nat × Mutex × Bool)} {t : Nat} {l : List Op} (h : At held t l) (e : held'.filter (fun h => h.1 = t) = held.filter (fun h => h.1 = t)) : At held' t l := by
  cases h with
  | outside h1 h2 => exact .outside (by rw [e, h1]) h2
  | before m a w r h1 h2 h3 h4 => exact .before m a w r (by rw [e, h1]) h2 h3 h4
  | after m a r h1 h2 h3 => exact .after m a r (by rw [e, h1]) h2 h3

theorem lock_set {s : State} (h : LockInv s) (t : Nat) (l : List Op) (hl : At s.held t l) : LockInv (s.set t l) := by
  refine ⟨fun u => ?_, h.compatible⟩
  by_cases hu : u = t
  · subst hu; simpa [State.set] using hl
  · simpa [State.set, hu] using h.at_ u

theorem lockInv_exec {s s' : State} (h : LockInv s) (t : Nat) (c : Bool) (o : Op) (rest : List Op) (e : s.ops t = o :: rest) (hs : exec s t c o rest = some s') : LockInv s' := by
  have ht := h.at_ t
  rw [e] at ht
  cases ht with
  | outside h1 h2 =>
    have key : ∀ l, Blocks l → LockInv (s.set t l) := fun l hl => lock_set h t l (.outside h1 hl)
    cases h2 with
    | crit m alone w hw hb =>
      simp only [exec] at hs
      split at hs
      case isFalse => cases hs
      case isTrue hf =>
        cases hs
        refine ⟨fun u => ?_, ?_⟩
        · by_cases hu : u = t
          · subst hu
            refine .before m alone w _ ?_ hw (by simp [State.set]) hb
            simp [h1]
          · have := h.at_ u
            simp only [State.set, hu, if_false]
            exact this.other (by simp [Ne.symm hu])
        · refine List.Pairwise.cons ?_ h.compatible
          intro y hy hm
          simp only at hm
          simp only [free, List.all_eq_true] at hf
          have := hf y hy
          simp [← hm] at this
          exact this
    | size w hb =>
      cases w <;> · simp only [exec, Bool.false_eq_true, if_false, if_true] at hs; cases hs; exact key _ hb
    | transport w hb =>
      cases w <;> · simp only [exec, Bool.false_eq_true, if_false, if_true] at hs; cases hs; exact key _ hb
    | clearRunning hb =>
      cases hs
      have := key _ hb
      exact ⟨this.at_, this.compatible⟩
    | loop hb =>
      cases hs
      apply key
      split
      · exact (round_blocks c).append (.loop .nil)
      · exact hb
    | join hb =>
      simp only [exec] at hs
      split at hs <;> cases hs
      exact key _ hb
  | before m alone w r h1 hw h2 hb =>
    cases w <;>
    · simp only [Bool.false_eq_true, if_false, if_true, List.cons.injEq] at h2
      obtain ⟨rfl, rfl⟩ := h2
      cases hs
      exact lock_set h t _ (.after m alone r h1 rfl hb)
  | after m alone r h1 h2 hb =>
    cases h2
    cases hs
    refine ⟨fun u => ?_, h.compatible.sublist List.filter_sublist⟩
    by_cases hu : u = t
    · subst hu
      simp only [State.set, if_true]
      refine .outside ?_ hb
      rw [List.filter_filter]
      rw [List.filter_eq_nil_iff]
      intro x hx hc
      simp only [decide_not, Bool.and_eq_true, decide_eq_true_eq, Bool.not_eq_true', decide_eq_false_iff_not, not_and] at hc
      have : x ∈ s.held.filter (fun h => h.1 = u) := List.mem_filter.2 ⟨hx, by simp [hc.1]⟩
      rw [h1, List.mem_singleton] at this
      subst this
      exact hc.2 rfl rfl
    · simp only [State.set, hu, if_false]
      refine (h.at_ u).other ?_
      rw [List.filter_filter]
      refine List.filter_congr fun x _ => ?_
      by_cases hx : x.1 = u
      · simp [hx, hu]
      · simp [hx]

theorem lockInv_step {s s' : State} (h : LockInv s) (a : Act) (hs : step s a = some s') : LockInv s' := by
  cases a with
  | exec t c =>
    simp only [step] at hs
    split at hs
    · cases hs
    · next o rest e => exact lockInv_exec h t c o rest e hs
  | call t c =>
    simp only [step] at hs
    split at hs
    case isFalse => cases hs
    case isTrue hc =>
      have key : ∀ u l, s.ops u = [] → Blocks l → LockInv (s.set u l) := by
        intro u l hu hl
        have hat := h.at_ u
        rw [hu] at hat
        cases hat with
        | outside h1 _ => exact lock_set h u l (.outside h1 hl)
        | before m a w r _ _ h2 _ => cases h2
        | after m a r _ h2 _ => cases h2
      split at hs
      · split at hs
        case isTrue h1 =>
          cases hs
          have := key 1 [.loop] h1 (.loop .nil)
          exact ⟨this.at_, this.compatible⟩
        case isFalse => cases hs
      · cases hs
        have := key t _ hc.2.1 (call_blocks .destroy)
        exact ⟨this.at_, this.compatible⟩
      · cases hs
        exact key t _ hc.2.1 (call_blocks c)

theorem lockInv_init : LockInv {} := ⟨fun _ => .outside rfl .nil, List.Pairwise.nil⟩

theorem lockInv_run {s s' : State} {as : List Act} (h : LockInv s) (hr : run s as = some s') : LockInv s' := by
  induction as generalizing s with
  | nil => cases hr; exact h
  | cons a as ih =>
    simp only [run, Option.bind_eq_some_iff] at hr
    obtain ⟨s1, h1, h2⟩ := hr
    exact ih (lockInv_step h a h1) h2

/-- Who is about to access guarded data has its mutex, and alone if it writes. -/
theorem has_mutex {s : State} (h : LockInv s) {t : Nat} {m : Mutex} {w : Bool} (ha : s.accesses t m.guards w) : ∃ alone, (t, m, alone) ∈ s.held ∧ (w = true → alone = true) := by
  obtain ⟨o, rest, e, ho⟩ := ha
  have ht := h.at_ t
  rw [e] at ht
  cases ht with
  | outside h1 h2 =>
    exfalso
    cases h2 with
    | crit m' a w' _ _ => simp [Op.access] at ho
    | size w' _ => cases w' <;> cases m <;> simp [Op.access, Mutex.guards] at ho
    | transport w' _ => cases w' <;> cases m <;> simp [Op.access, Mutex.guards] at ho
    | clearRunning _ => cases m <;> simp [Op.access, Mutex.guards] at ho
    | loop _ => cases m <;> simp [Op.access, Mutex.guards] at ho
    | join _ => simp [Op.access] at ho
  | before m' a w' r h1 h2 h3 _ =>
    obtain ⟨rfl, rfl⟩ := List.cons.inj h3
    have : m' = m ∧ w' = w := by
      cases w' <;> cases m' <;> cases m <;> simp [Op.access, Mutex.guards] at ho ⊢ <;> exact ho
    obtain ⟨rfl, rfl⟩ := this
    refine ⟨a, ?_, h2⟩
    have : (t, m', a) ∈ s.held.filter (fun h => h.1 = t) := by rw [h1]; simp
    exact (List.mem_filter.1 this).1
  | after m' a r _ h2 _ =>
    cases h2
    simp [Op.access] at ho

/-- **C153, what the mutexes guard.** Whatever the threads do, also with senders in several threads, no two of them race for the map of the buffers of the threads, the buffers of threads that have ended, the switches
    of the threads, the names of the tracepoints and the names of the threads. -/
theorem guarded_safe (as : List Act) (s : State) (h : run {} as = some s) (m : Mutex) : ¬ RaceOn s m.guards := by
  have hl := lockInv_run lockInv_init h
  rintro ⟨t, u, w, htu, h1, h2⟩
  obtain ⟨a1, m1, e1⟩ := has_mutex hl h1
  obtain ⟨a2, m2, _⟩ := has_mutex hl h2
  have e1 := e1 rfl
  subst e1
  have hc := hl.compatible
  have : ∀ (l : List (Nat × Mutex × Bool)), Compatible l → ∀ x ∈ l, ∀ y ∈ l, x.1 ≠ y.1 → x.2.1 = y.2.1 → x.2.2 = false := by
    intro l hl
    induction hl with
    | nil => intro x hx; cases hx
    | cons hp _ ih =>
      intro x hx y hy hne hm
      rcases List.mem_cons.1 hx with e1 | hx' <;> rcases List.mem_cons.1 hy with e2 | hy'
      · exact absurd (by rw [e1, e2]) hne
      · subst e1; exact (hp _ hy' hm).1
      · subst e2; exact (hp _ hx' hm.symm).2
      · exact ih x hx' y hy' hne hm
  have := this _ hc _ m1 _ m2 htu rfl
  cases this

/-! ### Who does what -/

def owners : Call → Bool
  | .make | .setTransport | .destroy => true
  | _ => false

structure WhoInv (s : State) : Prop where
  users : ∀ t, t ≠ 1 → ∃ c, s.ops t <:+ callOps c ∧ (owners c = true → t = 0)
  worker : ∀ o ∈ s.ops 1, o ∈ roundOps true ++ [.loop]

theorem round_sub (c : Bool) : ∀ o ∈ roundOps c ++ [.loop], o ∈ roundOps true ++ [.loop] := by
  cases c
  · intro o ho
    simp only [roundOps, List.mem_append, List.mem_singleton, Bool.false_eq_true, if_false, if_true, List.not_mem_nil, or_false] at ho ⊢
    rcases ho with (ho | ho) | ho <;> simp [ho]
  · exact fun o ho => ho

theorem who_set {s : State} (h : WhoInv s) (t : Nat) (o : Op) (rest : List Op) (e : s.ops t = o :: rest) : WhoInv (s.set t rest) := by
  refine ⟨fun u hu => ?_, fun x hx => ?_⟩
  · by_cases hut : u = t
    · subst hut
      obtain ⟨c, h1, h2⟩ := h.users u hu
      refine ⟨c, ?_, h2⟩
      simp only [State.set, if_true]
      rw [e] at h1
      exact (List.suffix_cons o rest).trans h1
    · simpa [State.set, hut] using h.users u hu
  · by_cases ht : (1 : Nat) = t
    · subst ht
      simp only [State.set, if_true] at hx
      exact h.worker x (by rw [e]; exact List.mem_cons_of_mem _ hx)
    · simp only [State.set, ht, if_false] at hx
      exact h.worker x hx

/-- What is done in calls. -/
theorem in_calls (c : Call) : Op.loop ∉ callOps c ∧ (∀ v, Op.write v ∈ callOps c → v ≠ .running ∧ (v = .ringSize → c = .setRingbufferSize) ∧ (v = .transport → c = .setTransport)) ∧
    Op.read .running ∉ callOps c ∧ Op.read .transport ∉ callOps c ∧ (Op.join ∈ callOps c → c = .destroy) ∧ (Op.clearRunning ∈ callOps c → c = .destroy) := by
  cases c with
  | tracepoint b s => cases b <;> cases s <;> simp [callOps, getBuffer, getThreadState, look, change, lookStates, Mutex.guards]
  | threadState f => cases f <;> simp [callOps, getThreadState, change, lookStates, Mutex.guards]
  | endThread b => cases b <;> simp [callOps, look, change, Mutex.guards]
  | _ => simp [callOps, look, change, lookStates, Mutex.guards]

theorem loop_not_call (c : Call) : Op.loop ∉ callOps c := (in_calls c).1

theorem who_step {s s' : State} (h : WhoInv s) (a : Act) (hp : Proper a) (hs : step s a = some s') : WhoInv s' := by
  cases a with
  | exec t c =>
    simp only [step] at hs
    split at hs
    · cases hs
    · next o rest e =>
      have key := who_set h t o rest e
      cases o with
      | lock m al => simp only [exec] at hs; split at hs <;> cases hs; exact ⟨key.users, key.worker⟩
      | unlock m => cases hs; exact ⟨key.users, key.worker⟩
      | read v => cases hs; exact key
      | write v => cases hs; exact key
      | clearRunning => cases hs; exact ⟨key.users, key.worker⟩
      | join => simp only [exec] at hs; split at hs <;> cases hs; exact key
      | loop =>
        cases hs
        by_cases ht : t = 1
        · subst ht
          refine ⟨fun u hu => by simpa [State.set, hu] using h.users u hu, fun x hx => ?_⟩
          simp only [State.set, if_true] at hx
          split at hx
          · exact round_sub c x hx
          · exact h.worker x (by rw [e]; exact List.mem_cons_of_mem _ hx)
        · exfalso
          obtain ⟨cc, h1, _⟩ := h.users t ht
          rw [e] at h1
          exact loop_not_call cc (h1.subset (by simp))
  | call t c =>
    simp only [step] at hs
    split at hs
    case isFalse => cases hs
    case isTrue hc =>
      have key : (owners c = true → t = 0) → WhoInv (s.set t (callOps c)) := by
        intro ho
        refine ⟨fun u hu => ?_, fun x hx => ?_⟩
        · by_cases hut : u = t
          · subst hut; exact ⟨c, by simp [State.set], ho⟩
          · simpa [State.set, hut] using h.users u hu
        · simp only [State.set, Ne.symm hc.1, if_false] at hx
          exact h.worker x hx
      split at hs
      · split at hs
        · cases hs
          refine ⟨fun u hu => by simpa [State.set, hu] using h.users u hu, fun x hx => ?_⟩
          simp only [State.set, if_true, List.mem_singleton] at hx
          subst hx
          simp
        · cases hs
      · cases hs
        have := key fun _ => hp
        exact ⟨this.users, this.worker⟩
      · next h1 h2 =>
        cases hs
        apply key
        intro ho
        cases c with
        | make => exact absurd rfl h1
        | destroy => exact absurd rfl h2
        | setTransport => exact hp
        | _ => cases ho

theorem who_init : WhoInv {} := ⟨fun _ _ => ⟨.threadMap, by simp, fun h => by cases h⟩, fun o ho => by cases ho⟩

theorem who {s : State} (h : Reachable s) : WhoInv s := by
  induction h with
  | init => exact who_init
  | step _ hp hs ih => exact who_step ih _ hp hs

theorem reachable_run {s : State} (h : Reachable s) : ∃ as, run {} as = some s := by
  have snoc : ∀ (as : List Act) (s0 s1 s2 : State) (a : Act), run s0 as = some s1 → step s1 a = some s2 → run s0 (as ++ [a]) = some s2 := by
    intro as
    induction as with
    | nil => intro s0 s1 s2 a h1 h2; cases h1; simp [run, h2]
    | cons b as ih =>
      intro s0 s1 s2 a h1 h2
      simp only [run, Option.bind_eq_some_iff, List.cons_append] at h1 ⊢
      obtain ⟨x, hx, h1⟩ := h1
      exact ⟨x, hx, ih x s1 s2 a h1 h2⟩
  induction h with
  | init => exact ⟨[], rfl⟩
  | step _ _ hs ih =>
    obtain ⟨as, h⟩ := ih
    exact ⟨as ++ [_], snoc as _ _ _ _ h hs⟩

theorem locks {s : State} (h : Reachable s) : LockInv s := by
  obtain ⟨as, h⟩ := reachable_run h
  exact lockInv_run lockInv_init h

theorem head_suffix {s : State} (h : WhoInv s) {t : Nat} {o : Op} {r : List Op} (e : s.ops t = o :: r) (ht : t ≠ 1) :
    ∃ c, o :: r <:+ callOps c ∧ o ∈ callOps c ∧ (owners c = true → t = 0) := by
  obtain ⟨c, h1, h2⟩ := h.users t ht
  rw [e] at h1
  exact ⟨c, h1, h1.subset (by simp), h2⟩

/-- **C153, partial.** In a program with one owner of senders there are no other races than these three. A thread sets the size of buffers while another reads it for its first tracepoint, or sets it, too. The destructor
    of the sender tells the worker to end while the worker looks whether it should. The sender gets its transport, when it is added to it, while the worker is about to use it. Missing: these three. -/
theorem no_other_race_partial (s : State) (v : Var) (h : Reachable s) (hr : RaceOn s v) :
    (v = .ringSize ∧ ∃ t u, t ≠ u ∧ s.ops t = callOps .setRingbufferSize ∧ ((s.ops u).head? = some (.read .ringSize) ∨ s.ops u = callOps .setRingbufferSize)) ∨
    (v = .running ∧ s.ops 0 = callOps .destroy ∧ (s.ops 1).head? = some .loop) ∨
    (v = .transport ∧ s.ops 0 = callOps .setTransport ∧ (s.ops 1).head? = some (.read .transport)) := by
  have hw := who h
  obtain ⟨as, has⟩ := reachable_run h
  have worker : ∀ o r, s.ops 1 = o :: r → o ∈ roundOps true ++ [.loop] := fun o r e => hw.worker o (by rw [e]; simp)
  -- who writes
  have writes : ∀ t r v, s.ops t = .write v :: r → (v = .ringSize → s.ops t = callOps .setRingbufferSize) ∧ (v = .transport → t = 0 ∧ s.ops t = callOps .setTransport) ∧ v ≠ .running := by
    intro t r v e
    by_cases ht : t = 1
    · subst ht
      have := worker _ _ e
      simp [roundOps, change, look, Mutex.guards] at this
      subst this
      simp
    · obtain ⟨c, h1, h2, h3⟩ := head_suffix hw e ht
      obtain ⟨k1, k2, k3⟩ := (in_calls c).2.1 v h2
      refine ⟨fun hv => ?_, fun hv => ?_, k1⟩
      · have := k2 hv; subst this
        rw [e]
        exact h1.eq_of_length_le (by simp [callOps])
      · have := k3 hv; subst this
        refine ⟨h3 rfl, ?_⟩
        rw [e]
        exact h1.eq_of_length_le (by simp [callOps])
  have clears : ∀ t r, s.ops t = .clearRunning :: r → t = 0 ∧ s.ops t = callOps .destroy := by
    intro t r e
    by_cases ht : t = 1
    · subst ht
      have := worker _ _ e
      simp [roundOps, change, look, Mutex.guards] at this
    · obtain ⟨c, h1, h2, h3⟩ := head_suffix hw e ht
      have := (in_calls c).2.2.2.2.2 h2
      subst this
      refine ⟨h3 rfl, ?_⟩
      rw [e]
      rcases List.suffix_cons_iff.1 (show Op.clearRunning :: r <:+ Op.clearRunning :: [Op.join] from h1) with h4 | h4
      · rw [h4]; rfl
      · have := h4.subset (List.mem_cons_self ..)
        simp at this
  obtain ⟨t, u, w, htu, ⟨o1, r1, e1, a1⟩, ⟨o2, r2, e2, a2⟩⟩ := id hr
  have isWorker : ∀ o r, s.ops u = o :: r → (o = .loop ∨ o = .read .transport ∨ o = .read .running) → u = 1 := by
    intro o r e ho
    refine Classical.byContradiction fun hu => ?_
    obtain ⟨c, _, h2, _⟩ := head_suffix hw e hu
    have := in_calls c
    rcases ho with rfl | rfl | rfl
    · exact this.1 h2
    · exact this.2.2.2.1 h2
    · exact this.2.2.1 h2
  cases v with
  | active => exact absurd hr (guarded_safe as s has .active)
  | orphans => exact absurd hr (guarded_safe as s has .orphans)
  | states => exact absurd hr (guarded_safe as s has .states)
  | names => exact absurd hr (guarded_safe as s has .names)
  | threadNames => exact absurd hr (guarded_safe as s has .threadNames)
  | ringSize =>
    have k1 : o1 = .write .ringSize := by cases o1 <;> simp [Op.access] at a1; rw [a1]
    subst k1
    refine .inl ⟨rfl, t, u, htu, (writes t r1 _ e1).1 rfl, ?_⟩
    cases o2 <;> simp [Op.access] at a2
    · rw [e2, a2.1]; simp
    · rw [a2.1] at e2
      exact .inr ((writes u r2 _ e2).1 rfl)
  | running =>
    have k1 : o1 = .clearRunning := by
      cases o1 <;> simp [Op.access] at a1
      · subst a1; exact absurd rfl (writes t r1 _ e1).2.2
      · rfl
    subst k1
    obtain ⟨rfl, h1⟩ := clears t r1 e1
    refine .inr (.inl ⟨rfl, h1, ?_⟩)
    cases o2 with
    | loop => have := isWorker _ _ e2 (.inl rfl); subst this; rw [e2]; rfl
    | clearRunning => exact absurd (clears u r2 e2).1.symm htu
    | write v => simp [Op.access] at a2; rw [a2.1] at e2; exact absurd rfl (writes u r2 _ e2).2.2
    | read v =>
      simp [Op.access] at a2
      rw [a2.1] at e2
      have := isWorker _ _ e2 (.inr (.inr rfl)); subst this
      have := worker _ _ e2
      simp [roundOps, change, look, Mutex.guards] at this
    | _ => simp [Op.access] at a2
  | transport =>
    have k1 : o1 = .write .transport := by cases o1 <;> simp [Op.access] at a1; rw [a1]
    subst k1
    obtain ⟨rfl, h1⟩ := (writes t r1 _ e1).2.1 rfl
    refine .inr (.inr ⟨rfl, h1, ?_⟩)
    cases o2 <;> simp [Op.access] at a2
    · rw [a2.1] at e2
      have := isWorker _ _ e2 (.inr (.inl rfl)); subst this
      rw [e2]; rfl
    · rw [a2.1] at e2
      exact absurd ((writes u r2 _ e2).2.1 rfl).1.symm htu

/-! ### Every call ends -/

/-- Only steps of threads that are in calls, no new calls. -/
def Going (as : List Act) : Prop := ∀ a ∈ as, ∃ t c, a = .exec t c

theorem run_append (as bs : List Act) : ∀ s, run s (as ++ bs) = (run s as).bind fun s' => run s' bs := by
  induction as with
  | nil => intro s; rfl
  | cons a as ih =>
    intro s
    simp only [List.cons_append, run]
    cases step s a with
    | none => rfl
    | some s' => simp [ih]

/-- What is left of what a thread had to do, when it has not come to a loop or join. -/
def Left (l' l : List Op) : Prop := ∃ p, l = p ++ l' ∧ Op.loop ∉ p ∧ Op.join ∉ p ∧ Op.clearRunning ∉ p

theorem Left.refl (l : List Op) : Left l l := ⟨[], by simp⟩

theorem Left.trans {a b c : List Op} (h : Left a b) (h' : Left b c) : Left a c := by
  obtain ⟨p, rfl, h1, h2, h3⟩ := h
  obtain ⟨q, rfl, k1, k2, k3⟩ := h'
  exact ⟨q ++ p, by simp, by simp [h1, k1], by simp [h2, k2], by simp [h3, k3]⟩

theorem Left.cons {o : Op} (l : List Op) (h1 : o ≠ .loop) (h2 : o ≠ .join) (h3 : o ≠ .clearRunning) : Left l (o :: l) := ⟨[o], by simp [Ne.symm h1, Ne.symm h2, Ne.symm h3]⟩

theorem Left.nil {l : List Op} (h : Left l []) : l = [] := by
  obtain ⟨p, h, _⟩ := h
  exact (List.append_eq_nil_iff.1 h.symm).2

/-- The mutexes can all be released: who has one needs at most two steps, for which it does not wait. -/
theorem release {s : State} (h : LockInv s) : ∃ as s', Going as ∧ run s as = some s' ∧ s'.held = [] ∧ (∀ t, Left (s'.ops t) (s.ops t)) ∧ s'.running = s.running ∧
    s'.sender = s.sender := by
  generalize hn : s.held.length = n
  induction n using Nat.strongRecOn generalizing s with
  | ind n ih =>
    cases hh : s.held with
    | nil => exact ⟨[], s, (fun a ha => by cases ha), rfl, hh, fun _ => .refl _, rfl, rfl⟩
    | cons x xs =>
      obtain ⟨t, m, al⟩ := x
      have hmem : (t, m, al) ∈ s.held.filter (fun h => h.1 = t) := by rw [hh]; simp
      -- the thread in its critical section
      have last : ∀ (s1 : State) (m : Mutex) (al : Bool) (r : List Op), LockInv s1 → s1.held = s.held → s1.held.filter (fun h => h.1 = t) = [(t, m, al)] → s1.ops t = .unlock m :: r → (∀ u, Left (s1.ops u) (s.ops u)) →
          s1.running = s.running → s1.sender = s.sender →
          ∃ as s', Going as ∧ run s1 as = some s' ∧ s'.held = [] ∧ (∀ u, Left (s'.ops u) (s.ops u)) ∧ s'.running = s.running ∧ s'.sender = s.sender := by
        intro s1 m al r h1 e1 e2 e3 e4 e5 e6
        let s2 : State := { s1.set t r with held := s1.held.filter fun h => ¬ (h.1 = t ∧ h.2.1 = m) }
        have hs : step s1 (.exec t false) = some s2 := by simp only [step, e3]; rfl
        have hlt : s2.held.length < n := by
          rw [← hn, ← e1]
          refine List.length_filter_lt_length_iff_exists.2 ⟨(t, m, al), ?_, by simp⟩
          have : (t, m, al) ∈ s1.held.filter (fun h => h.1 = t) := by rw [e2]; simp
          exact (List.mem_filter.1 this).1
        obtain ⟨as, s', g1, g2, g3, g5, g6, g7⟩ := ih _ hlt (lockInv_step h1 _ hs) rfl
        refine ⟨.exec t false :: as, s', fun a ha => ?_, by simp [run, hs, g2], g3, fun u => ?_, g6.trans e5, g7.trans e6⟩
        · rcases List.mem_cons.1 ha with rfl | ha
          · exact ⟨_, _, rfl⟩
          · exact g1 a ha
        · refine (g5 u).trans (Left.trans ?_ (e4 u))
          by_cases hu : u = t
          · subst hu; simp only [s2, State.set, if_true, e3]; exact .cons _ (by simp) (by simp) (by simp)
          · simp only [s2, State.set, hu, if_false]; exact .refl _
      have hat := h.at_ t
      cases hat with
      | outside h1 _ => rw [h1] at hmem; cases hmem
      | after m' al' r h1 h2 h3 =>
        obtain ⟨as, s', g1, g2, g3, g4, g5, g6⟩ := last s m' al' r h rfl h1 h2 (fun _ => .refl _) rfl rfl
        exact ⟨as, s', g1, g2, g3, g4, g5, g6⟩
      | before m' al' w r h1 h2 h3 h4 =>
        have hs : step s (.exec t false) = some (s.set t (.unlock m' :: r)) := by
          simp only [step, h3]
          cases w <;> rfl
        have hsuf : ∀ u, Left ((s.set t (.unlock m' :: r)).ops u) (s.ops u) := by
          intro u
          by_cases hu : u = t
          · subst hu; simp only [State.set, if_true, h3]; cases w <;> exact .cons _ (by simp) (by simp) (by simp)
          · simp only [State.set, hu, if_false]; exact .refl _
        obtain ⟨as, s', g1, g2, g3, g4, g5, g6⟩ := last (s.set t (.unlock m' :: r)) m' al' r (lockInv_step h _ hs) rfl h1 (by simp [State.set]) hsuf rfl rfl
        refine ⟨.exec t false :: as, s', fun a ha => ?_, by simp [run, hs, g2], g3, g4, g5, g6⟩
        rcases List.mem_cons.1 ha with rfl | ha
        · exact ⟨_, _, rfl⟩
        · exact g1 a ha

/-- With all mutexes free a thread goes through what it does up to the next loop or join. -/
theorem go {l : List Op} (hb : Blocks l) (h1 : Op.loop ∉ l) (h2 : Op.join ∉ l) : ∀ (s : State) (t : Nat) (rest : List Op), s.held = [] → s.ops t = l ++ rest →
    ∃ as s', Going as ∧ run s as = some s' ∧ s'.held = [] ∧ s'.ops t = rest ∧ (∀ u, u ≠ t → s'.ops u = s.ops u) ∧ s'.sender = s.sender ∧ s'.running = (s.running && !decide (Op.clearRunning ∈ l)) := by
  induction hb with
  | nil => intro s t rest h3 h4; exact ⟨[], s, (fun a ha => by cases ha), rfl, h3, h4, fun _ _ => rfl, rfl, by simp⟩
  | @crit m al w l hw hb ih =>
    intro s t rest h3 h4
    let s1 : State := { s.set t ((if w then .write m.guards else .read m.guards) :: .unlock m :: l ++ rest) with held := [(t, m, al)] }
    let s2 : State := s1.set t (.unlock m :: l ++ rest)
    let s3 : State := { s2.set t (l ++ rest) with held := [] }
    have k1 : step s (.exec t false) = some s1 := by simp [step, h4, exec, h3, free, s1]
    have k2 : step s1 (.exec t false) = some s2 := by
      cases w <;> simp [step, s1, State.set, exec, s2]
    have k3 : step s2 (.exec t false) = some s3 := by
      simp [step, s2, s1, State.set, exec, s3]
    have hc : (Op.clearRunning ∈ Op.lock m al :: (if w = true then Op.write m.guards else Op.read m.guards) :: Op.unlock m :: l) ↔ Op.clearRunning ∈ l := by cases w <;> simp
    obtain ⟨as, s', g1, g2, g3, g4, g5, g6, g7⟩ := ih (fun h => h1 (by simp [h])) (fun h => h2 (by simp [h])) s3 t rest rfl (by simp [s3, State.set])
    refine ⟨.exec t false :: .exec t false :: .exec t false :: as, s', fun a ha => ?_, by simp [run, k1, k2, k3, g2], g3, g4, fun u hu => ?_, g6, ?_⟩
    · simp only [List.mem_cons] at ha
      rcases ha with rfl | rfl | rfl | ha
      · exact ⟨_, _, rfl⟩
      · exact ⟨_, _, rfl⟩
      · exact ⟨_, _, rfl⟩
      · exact g1 a ha
    · rw [g5 u hu]; simp [s3, s2, s1, State.set, hu]
    · rw [g7, decide_eq_decide.2 hc]; rfl
  | @size w l hb ih =>
    intro s t rest h3 h4
    let s1 : State := s.set t (l ++ rest)
    have k1 : step s (.exec t false) = some s1 := by cases w <;> simp [step, h4, exec, s1]
    have hc : (Op.clearRunning ∈ (if w = true then Op.write .ringSize else Op.read .ringSize) :: l) ↔ Op.clearRunning ∈ l := by cases w <;> simp
    obtain ⟨as, s', g1, g2, g3, g4, g5, g6, g7⟩ := ih (fun h => h1 (by simp [h])) (fun h => h2 (by simp [h])) s1 t rest h3 (by simp [s1, State.set])
    refine ⟨.exec t false :: as, s', fun a ha => ?_, by simp [run, k1, g2], g3, g4, fun u hu => by rw [g5 u hu]; simp [s1, State.set, hu], g6, by rw [g7, decide_eq_decide.2 hc]; rfl⟩
    rcases List.mem_cons.1 ha with rfl | ha
    · exact ⟨_, _, rfl⟩
    · exact g1 a ha
  | @transport w l hb ih =>
    intro s t rest h3 h4
    let s1 : State := s.set t (l ++ rest)
    have k1 : step s (.exec t false) = some s1 := by cases w <;> simp [step, h4, exec, s1]
    have hc : (Op.clearRunning ∈ (if w = true then Op.write .transport else Op.read .transport) :: l) ↔ Op.clearRunning ∈ l := by cases w <;> simp
    obtain ⟨as, s', g1, g2, g3, g4, g5, g6, g7⟩ := ih (fun h => h1 (by simp [h])) (fun h => h2 (by simp [h])) s1 t rest h3 (by simp [s1, State.set])
    refine ⟨.exec t false :: as, s', fun a ha => ?_, by simp [run, k1, g2], g3, g4, fun u hu => by rw [g5 u hu]; simp [s1, State.set, hu], g6, by rw [g7, decide_eq_decide.2 hc]; rfl⟩
    rcases List.mem_cons.1 ha with rfl | ha
    · exact ⟨_, _, rfl⟩
    · exact g1 a ha
  | @clearRunning l hb ih =>
    intro s t rest h3 h4
    let s1 : State := { s.set t (l ++ rest) with running := false }
    have k1 : step s (.exec t false) = some s1 := by simp [step, h4, exec, s1]
    obtain ⟨as, s', g1, g2, g3, g4, g5, g6, g7⟩ := ih (fun h => h1 (by simp [h])) (fun h => h2 (by simp [h])) s1 t rest h3 (by simp [s1, State.set])
    refine ⟨.exec t false :: as, s', fun a ha => ?_, by simp [run, k1, g2], g3, g4, fun u hu => by rw [g5 u hu]; simp [s1, State.set, hu], g6, by rw [g7]; simp [s1]⟩
    rcases List.mem_cons.1 ha with rfl | ha
    · exact ⟨_, _, rfl⟩
    · exact g1 a ha
  | loop => exact absurd (by simp) h1
  | join => exact absurd (by simp) h2

/-- Where the worker is, and that it goes on while there is a sender. -/
structure WorkInv (s : State) : Prop where
  shape : s.ops 1 = [] ∨ ∃ l, s.ops 1 = l ++ [.loop] ∧ Op.loop ∉ l ∧ Op.join ∉ l ∧ Op.clearRunning ∉ l
  alive : s.sender = true → s.ops 1 ≠ [] ∧ s.running = true ∧ Op.clearRunning ∉ s.ops 0

theorem round_clean (c : Bool) : Op.loop ∉ roundOps c ∧ Op.join ∉ roundOps c ∧ Op.clearRunning ∉ roundOps c := by
  cases c <;> simp [roundOps, change, look]

theorem work_step {s s' : State} (hw : WhoInv s) (h : WorkInv s) (a : Act) (hp : Proper a) (hs : step s a = some s') : WorkInv s' := by
  cases a with
  | exec t c =>
    simp only [step] at hs
    split at hs
    · cases hs
    · next o rest e =>
      -- the owner goes on with its call
      have sub : ∀ l : List Op, (t = 0 → ∀ x ∈ l, x ∈ s.ops 0) → Op.clearRunning ∉ s.ops 0 → Op.clearRunning ∉ (s.set t l).ops 0 := by
        intro l hl hc
        by_cases ht : (0 : Nat) = t
        · simp only [State.set, ht, if_true]; intro hx; exact hc (hl ht.symm _ hx)
        · simpa [State.set, ht] using hc
      have sub' := sub rest (fun ht x hx => by subst ht; rw [e]; exact List.mem_cons_of_mem _ hx)
      have key : o ≠ .loop → WorkInv (s.set t rest) := by
        intro ho
        by_cases ht : t = 1
        · subst ht
          rcases h.shape with h1 | ⟨l, h1, h2, h3, h4⟩
          · rw [e] at h1; cases h1
          · rw [e] at h1
            cases l with
            | nil => cases h1; exact absurd rfl ho
            | cons x l =>
              cases h1
              refine ⟨.inr ⟨l, by simp [State.set], fun hx => h2 (by simp [hx]), fun hx => h3 (by simp [hx]), fun hx => h4 (by simp [hx])⟩, fun hse => ?_⟩
              exact ⟨by simp [State.set], (h.alive hse).2.1, sub' (h.alive hse).2.2⟩
        · refine ⟨?_, fun hse => ?_⟩
          · have : (s.set t rest).ops 1 = s.ops 1 := by simp [State.set, Ne.symm ht]
            rw [this]; exact h.shape
          · have h1 := h.alive hse
            exact ⟨by simpa [State.set, Ne.symm ht] using h1.1, h1.2.1, sub' h1.2.2⟩
      cases o with
      | lock m al => simp only [exec] at hs; split at hs <;> cases hs; have k := key (by simp); exact ⟨k.shape, k.alive⟩
      | unlock m => cases hs; have k := key (by simp); exact ⟨k.shape, k.alive⟩
      | read v => cases hs; exact key (by simp)
      | write v => cases hs; exact key (by simp)
      | join => simp only [exec] at hs; split at hs <;> cases hs; exact key (by simp)
      | clearRunning =>
        cases hs
        have k := key (by simp)
        refine ⟨k.shape, fun hse => ?_⟩
        exfalso
        have h1 := (h.alive hse).2.2
        by_cases ht : t = 1
        · subst ht
          have := hw.worker .clearRunning (by rw [e]; simp)
          simp [roundOps, change, look] at this
        · obtain ⟨c', _, h3, h4⟩ := head_suffix hw e ht
          have := (in_calls c').2.2.2.2.2 h3
          subst this
          have := h4 rfl
          subst this
          exact h1 (by rw [e]; simp)
      | loop =>
        cases hs
        have ht : t = 1 := by
          refine Classical.byContradiction fun ht => ?_
          obtain ⟨c', _, h3, _⟩ := head_suffix hw e ht
          exact loop_not_call c' h3
        subst ht
        have hrest : rest = [] := by
          rcases h.shape with h1 | ⟨l, h1, h2, _, _⟩
          · rw [e] at h1; cases h1
          · rw [e] at h1
            cases l with
            | nil => simpa using h1
            | cons x l => cases h1; exact absurd (by simp) h2
        subst hrest
        by_cases hr : s.running = true
        · refine ⟨.inr ⟨roundOps c, by simp [State.set, hr], round_clean c⟩, fun hse => ⟨by simp [State.set, hr], (h.alive hse).2.1, by simpa [State.set] using (h.alive hse).2.2⟩⟩
        · refine ⟨.inl (by simp [State.set, hr]), fun hse => absurd (h.alive hse).2.1 hr⟩
  | call t c =>
    simp only [step] at hs
    split at hs
    case isFalse => cases hs
    case isTrue hc =>
      have h1 : (s.set t (callOps c)).ops 1 = s.ops 1 := by simp [State.set, Ne.symm hc.1]
      split at hs
      · split at hs
        · cases hs
          have : t = 0 := hp
          subst this
          exact ⟨.inr ⟨[], by simp [State.set]⟩, fun _ => ⟨by simp [State.set], rfl, by simp [State.set, hc.2.1]⟩⟩
        · cases hs
      · cases hs
        refine ⟨?_, fun hse => by cases hse⟩
        have : (s.set t (callOps .destroy)).ops 1 = s.ops 1 := by simp [State.set, Ne.symm hc.1]
        have h2 := h.shape
        rw [← this] at h2
        exact h2
      · next h2 h3 =>
        cases hs
        refine ⟨by rw [h1]; exact h.shape, fun hse => ⟨by rw [h1]; exact (h.alive hse).1, (h.alive hse).2.1, ?_⟩⟩
        by_cases ht : (0 : Nat) = t
        · simp only [State.set, ht, if_true]
          intro hx
          exact h3 ((in_calls c).2.2.2.2.2 hx)
        · simpa [State.set, ht] using (h.alive hse).2.2

theorem work {s : State} (h : Reachable s) : WorkInv s := by
  induction h with
  | init => exact ⟨.inl rfl, fun h => by cases h⟩
  | step h hp hs ih => exact work_step (who h) ih _ hp hs

/-- Who waits for the worker has told it to end. -/
theorem told {s : State} (h : Reachable s) : Op.join ∈ s.ops 0 → Op.clearRunning ∉ s.ops 0 → s.running = false := by
  induction h with
  | init => intro h; cases h
  | @step s s' a h hp hs ih =>
    intro hj hc
    have hw := who h
    cases a with
    | exec t c =>
      simp only [step] at hs
      split at hs
      · cases hs
      · next o rest e =>
        have key : (o ≠ .clearRunning ∨ t ≠ 0) → Op.join ∈ (s.set t rest).ops 0 → Op.clearRunning ∉ (s.set t rest).ops 0 → s.running = false := by
          intro ho h1 h2
          by_cases ht : (0 : Nat) = t
          · subst ht
            simp only [State.set, if_true] at h1 h2
            refine ih (by rw [e]; simp [h1]) (fun h3 => ?_)
            rw [e] at h3
            rcases List.mem_cons.1 h3 with h4 | h4
            · exact ho.elim (fun k => k h4.symm) (fun k => k rfl)
            · exact h2 h4
          · simp only [State.set, ht, if_false] at h1 h2
            exact ih h1 h2
        cases o with
        | lock m al => simp only [exec] at hs; split at hs <;> cases hs; exact key (.inl (by simp)) hj hc
        | unlock m => cases hs; exact key (.inl (by simp)) hj hc
        | read v => cases hs; exact key (.inl (by simp)) hj hc
        | write v => cases hs; exact key (.inl (by simp)) hj hc
        | join => simp only [exec] at hs; split at hs <;> cases hs; exact key (.inl (by simp)) hj hc
        | clearRunning => cases hs; rfl
        | loop =>
          cases hs
          have ht : t = 1 := by
            refine Classical.byContradiction fun ht => ?_
            obtain ⟨c', _, h3, _⟩ := head_suffix hw e ht
            exact loop_not_call c' h3
          subst ht
          exact ih (by simpa [State.set] using hj) (by simpa [State.set] using hc)
    | call t c =>
      simp only [step] at hs
      split at hs
      case isFalse => cases hs
      case isTrue hx =>
        split at hs
        · split at hs
          · cases hs
            have : t = 0 := hp
            subst this
            simp [State.set, hx.2.1] at hj
          · cases hs
        · cases hs
          by_cases ht : (0 : Nat) = t
          · subst ht; simp [State.set, callOps] at hc
          · simp only [State.set, ht, if_false] at hj hc
            exact ih hj hc
        · next h2 h3 =>
          cases hs
          by_cases ht : (0 : Nat) = t
          · subst ht
            simp only [State.set, if_true] at hj
            exact absurd ((in_calls c).2.2.2.2.1 hj) h3
          · simp only [State.set, ht, if_false] at hj hc
            exact ih hj hc

theorem reachable_going {as : List Act} {s s' : State} (h : Reachable s) (ha : ∀ a ∈ as, Proper a) (hr : run s as = some s') : Reachable s' := by
  induction as generalizing s with
  | nil => cases hr; exact h
  | cons a as ih =>
    simp only [run, Option.bind_eq_some_iff] at hr
    obtain ⟨s1, h1, h2⟩ := hr
    exact ih (.step h (ha a (by simp)) h1) (fun b hb => ha b (by simp [hb])) h2

theorem Going.proper {as : List Act} (h : Going as) : ∀ a ∈ as, Proper a := by
  intro a ha
  obtain ⟨t, c, rfl⟩ := h a ha
  trivial

theorem Going.append {as bs : List Act} (h : Going as) (h' : Going bs) : Going (as ++ bs) := by
  intro a ha
  rcases List.mem_append.1 ha with h1 | h1
  · exact h a h1
  · exact h' a h1

theorem blocks_front {l : List Op} : Blocks (l ++ [.loop]) → Blocks l := by
  generalize hk : l ++ [Op.loop] = k
  intro hb
  induction hb generalizing l with
  | nil => simp at hk
  | crit m al w hw hb ih =>
    rcases l with _ | ⟨x, _ | ⟨y, _ | ⟨z, l⟩⟩⟩
    · simp at hk
    · cases w <;> simp at hk
    · simp at hk
    · simp only [List.cons_append, List.cons.injEq] at hk
      obtain ⟨rfl, rfl, rfl, hk⟩ := hk
      exact .crit m al w hw (ih hk)
  | size w hb ih =>
    rcases l with _ | ⟨x, l⟩
    · cases w <;> simp at hk
    · simp only [List.cons_append, List.cons.injEq] at hk
      obtain ⟨rfl, hk⟩ := hk
      exact .size w (ih hk)
  | transport w hb ih =>
    rcases l with _ | ⟨x, l⟩
    · cases w <;> simp at hk
    · simp only [List.cons_append, List.cons.injEq] at hk
      obtain ⟨rfl, hk⟩ := hk
      exact .transport w (ih hk)
  | clearRunning hb ih =>
    rcases l with _ | ⟨x, l⟩
    · simp at hk
    · simp only [List.cons_append, List.cons.injEq] at hk
      obtain ⟨rfl, hk⟩ := hk
      exact .clearRunning (ih hk)
  | loop hb ih =>
    rcases l with _ | ⟨x, l⟩
    · exact .nil
    · simp only [List.cons_append, List.cons.injEq] at hk
      obtain ⟨rfl, hk⟩ := hk
      exact .loop (ih hk)
  | join hb ih =>
    rcases l with _ | ⟨x, l⟩
    · simp at hk
    · simp only [List.cons_append, List.cons.injEq] at hk
      obtain ⟨rfl, hk⟩ := hk
      exact .join (ih hk)

/-- The worker can always come to the end of its round, with all mutexes free. -/
theorem worker_to_loop {s : State} (h : Reachable s) (hl : s.ops 1 ≠ []) : ∃ as s', Going as ∧ run s as = some s' ∧ s'.held = [] ∧ s'.ops 1 = [.loop] ∧ (∀ t, t ≠ 1 → Left (s'.ops t) (s.ops t)) ∧
    s'.running = s.running ∧ s'.sender = s.sender := by
  obtain ⟨as, s1, g1, g2, g3, g5, g6, g7⟩ := release (locks h)
  have h1 := reachable_going h g1.proper g2
  have hloop : Op.loop ∈ s.ops 1 := by
    rcases (work h).shape with e | ⟨l, e, _⟩
    · exact absurd e hl
    · rw [e]; simp
  have hloop1 : Op.loop ∈ s1.ops 1 := by
    obtain ⟨p, e, k, _⟩ := g5 1
    rw [e] at hloop
    exact (List.mem_append.1 hloop).resolve_left k
  rcases (work h1).shape with e | ⟨l, e, k1, k2, k3⟩
  · rw [e] at hloop1; cases hloop1
  have hb : Blocks (l ++ [.loop]) := by
    have := (locks h1).at_ 1
    rw [e] at this
    cases this with
    | outside _ hb => exact hb
    | before m a w r q => rw [g3] at q; cases q
    | after m a r q => rw [g3] at q; cases q
  obtain ⟨bs, s2, q1, q2, q3, q4, q5, q6, q7⟩ := go (blocks_front hb) k1 k2 s1 1 [.loop] g3 e
  refine ⟨as ++ bs, s2, g1.append q1, by rw [run_append, g2]; exact q2, q3, q4, fun t ht => by rw [q5 t ht]; exact g5 t, ?_, q6.trans g7⟩
  rw [q7, g6]
  simp [k3]

/-- **C153.** No call waits for ever: whatever the threads are in the middle of, they can go on, without new calls, so that any one of them ends its call. -/
theorem can_finish (s : State) (h : Reachable s) (t : Nat) (ht : t ≠ 1) : ∃ as s', (∀ a ∈ as, ∃ u c, a = .exec u c) ∧ run s as = some s' ∧ s'.ops t = [] := by
  obtain ⟨as, s1, g1, g2, g3, g5, g6, g7⟩ := release (locks h)
  have h1 := reachable_going h g1.proper g2
  have hb : Blocks (s1.ops t) := by
    have := (locks h1).at_ t
    cases this with
    | outside _ hb => exact hb
    | before m a w r q => rw [g3] at q; cases q
    | after m a r q => rw [g3] at q; cases q
  obtain ⟨c, c1, c2⟩ := (who h1).users t ht
  have hl : Op.loop ∉ s1.ops t := fun hx => loop_not_call c (c1.subset hx)
  by_cases hj : Op.join ∈ s1.ops t
  · -- the destructor waits for the worker
    have hc := (in_calls c).2.2.2.2.1 (c1.subset hj)
    subst hc
    have := c2 rfl
    subst this
    -- it has said that the worker should end
    have say : ∃ bs s2, Going bs ∧ run s1 bs = some s2 ∧ s2.ops 0 = [.join] ∧ s2.running = false := by
      have hcases : s1.ops 0 = [.clearRunning, .join] ∨ s1.ops 0 = [.join] := by
        simp only [callOps, List.suffix_cons_iff, List.suffix_nil] at c1
        rcases c1 with e | e | e
        · exact .inl e
        · exact .inr e
        · rw [e] at hj; cases hj
      rcases hcases with e | e
      · refine ⟨[.exec 0 false], { s1.set 0 [.join] with running := false }, fun a ha => ⟨0, false, by simpa using ha⟩, ?_, by simp [State.set], rfl⟩
        simp [run, step, e, exec]
      · exact ⟨[], s1, (fun a ha => by cases ha), rfl, e, told h1 hj (by rw [e]; simp)⟩
    obtain ⟨bs, s2, q1, q2, q3, q4⟩ := say
    have h2 := reachable_going h1 q1.proper q2
    -- the worker ends
    have theend : ∃ cs s3, Going cs ∧ run s2 cs = some s3 ∧ s3.ops 0 = [.join] ∧ s3.ops 1 = [] := by
      by_cases hw : s2.ops 1 = []
      · exact ⟨[], s2, (fun a ha => by cases ha), rfl, q3, hw⟩
      · obtain ⟨cs, s3, w1, w2, w3, w4, w5, w6, w7⟩ := worker_to_loop h2 hw
        have e0 : s3.ops 0 = [.join] := by
          obtain ⟨p, e, k1, k2, k3⟩ := w5 0 (by decide)
          rw [q3] at e
          cases p with
          | nil => simpa using e.symm
          | cons x p =>
            simp only [List.cons_append, List.cons.injEq] at e
            exact absurd (by simp [← e.1]) k2
        refine ⟨cs ++ [.exec 1 false], s3.set 1 [], w1.append (fun a ha => ⟨1, false, by simpa using ha⟩), ?_, by simpa [State.set] using e0, by simp [State.set]⟩
        rw [run_append, w2]
        simp [run, step, w4, exec, w6, q4]
    obtain ⟨cs, s3, w1, w2, w3, w4⟩ := theend
    refine ⟨as ++ (bs ++ (cs ++ [.exec 0 false])), s3.set 0 [], g1.append (q1.append (w1.append (fun a ha => ⟨0, false, by simpa using ha⟩))), ?_, by simp [State.set]⟩
    rw [run_append, g2]
    simp only [Option.bind_some]
    rw [run_append, q2]
    simp only [Option.bind_some]
    rw [run_append, w2]
    simp [run, step, w3, exec, w4]
  · obtain ⟨bs, s2, q1, q2, q3, q4, _⟩ := go hb hl hj s1 t [] g3 (by simp)
    exact ⟨as ++ bs, s2, g1.append q1, by rw [run_append, g2]; exact q2, q4⟩

/-! ### The races -/

/-- **C153.** Every sender is in the race of its end: whatever has happened, when the owner destroys it the worker can be about to read what the destructor writes. -/
theorem destroy_races (s : State) (h : Reachable s) (hs : s.sender = true) (h0 : s.ops 0 = []) :
    ∃ as s', (∀ a ∈ as, (∃ u c, a = .exec u c) ∨ a = .call 0 .destroy) ∧ run s as = some s' ∧ RaceOn s' .running := by
  obtain ⟨as, s1, g1, g2, g3, g4, g5, g6, g7⟩ := worker_to_loop h ((work h).alive hs).1
  have e0 : s1.ops 0 = [] := by
    have := g5 0 (by decide)
    rw [h0] at this
    exact this.nil
  refine ⟨as ++ [.call 0 .destroy], { s1.set 0 (callOps .destroy) with sender := false }, fun a ha => ?_, ?_, ?_⟩
  · rcases List.mem_append.1 ha with h1 | h1
    · exact .inl (g1 a h1)
    · exact .inr (by simpa using h1)
  · rw [run_append, g2]
    simp [run, step, e0, callable, g7, hs]
  · exact ⟨0, 1, false, by decide, ⟨.clearRunning, [.join], by simp [State.set, callOps], rfl⟩, ⟨.loop, [], by simp [State.set, g4], rfl⟩⟩

/-- **C153.** Every sender can be in the race of its transport: when it is added to a transport the worker can be about to read that it has one. -/
theorem transport_races (s : State) (h : Reachable s) (hs : s.sender = true) (h0 : s.ops 0 = []) :
    ∃ as s', (∀ a ∈ as, (∃ u c, a = .exec u c) ∨ a = .call 0 .setTransport) ∧ run s as = some s' ∧ RaceOn s' .transport := by
  obtain ⟨as, s1, g1, g2, g3, g4, g5, g6, g7⟩ := worker_to_loop h ((work h).alive hs).1
  have e0 : s1.ops 0 = [] := by
    have := g5 0 (by decide)
    rw [h0] at this
    exact this.nil
  -- an iteration in which there are events
  let s2 : State := s1.set 1 (roundOps true ++ [.loop])
  have k2 : run s1 [.exec 1 true] = some s2 := by simp [run, step, g4, exec, g6, ((work h).alive hs).2.1, s2]
  have hb : Blocks (change .orphans ++ look .active) := (change_blocks _).append (look_blocks _)
  obtain ⟨bs, s3, q1, q2, q3, q4, q5, q6, q7⟩ := go hb (by simp [change, look]) (by simp [change, look]) s2 1 [.read .transport, .loop] g3 (by simp [s2, State.set, roundOps])
  have e3 : s3.ops 0 = [] := by rw [q5 0 (by decide)]; simpa [s2, State.set] using e0
  have e4 : s3.sender = true := by rw [q6]; exact g7.trans hs
  refine ⟨as ++ ([.exec 1 true] ++ (bs ++ [.call 0 .setTransport])), s3.set 0 (callOps .setTransport), fun a ha => ?_, ?_, ?_⟩
  · simp only [List.mem_append, List.mem_singleton] at ha
    rcases ha with h1 | rfl | h1 | rfl
    · exact .inl (g1 a h1)
    · exact .inl ⟨_, _, rfl⟩
    · exact .inl (q1 a h1)
    · exact .inr rfl
  · rw [run_append, g2]
    simp only [Option.bind_some]
    rw [run_append, k2]
    simp only [Option.bind_some]
    rw [run_append, q2]
    simp [run, step, e3, callable, e4]
  · exact ⟨0, 1, false, by decide, ⟨.write .transport, [], by simp [State.set, callOps], rfl⟩, ⟨.read .transport, [.loop], by simp [State.set, q4], rfl⟩⟩

/-- **C153.** Setting the size of the buffers races with the first tracepoint of any other thread. -/
theorem size_races (s : State) (h : Reachable s) (t u : Nat) (htu : t ≠ u) (ht : t ≠ 1) (hu : u ≠ 1) (ht0 : s.ops t = []) (hu0 : s.ops u = []) (b : Bool) :
    ∃ as s', (∀ a ∈ as, (∃ u c, a = .exec u c) ∨ a = .call t .setRingbufferSize ∨ a = .call u (.tracepoint false b)) ∧ run s as = some s' ∧ RaceOn s' .ringSize := by
  obtain ⟨as, s1, g1, g2, g3, g5, g6, g7⟩ := release (locks h)
  have et : s1.ops t = [] := by
    have := g5 t
    rw [ht0] at this
    exact this.nil
  have eu : s1.ops u = [] := by
    have := g5 u
    rw [hu0] at this
    exact this.nil
  let s2 : State := s1.set u (callOps (.tracepoint false b))
  have k2 : run s1 [.call u (.tracepoint false b)] = some s2 := by simp [run, step, eu, callable, hu, s2]
  obtain ⟨bs, s3, q1, q2, q3, q4, q5, q6, q7⟩ := go (look_blocks .active) (by simp [look]) (by simp [look]) s2 u (.read .ringSize :: change .active ++ getThreadState b) g3
    (by simp [s2, State.set, callOps, getBuffer])
  have e3 : s3.ops t = [] := by rw [q5 t htu]; simpa [s2, State.set, htu] using et
  refine ⟨as ++ ([.call u (.tracepoint false b)] ++ (bs ++ [.call t .setRingbufferSize])), s3.set t (callOps .setRingbufferSize), fun a ha => ?_, ?_, ?_⟩
  · simp only [List.mem_append, List.mem_singleton] at ha
    rcases ha with h1 | rfl | h1 | rfl
    · exact .inl (g1 a h1)
    · exact .inr (.inr rfl)
    · exact .inl (q1 a h1)
    · exact .inr (.inl rfl)
  · rw [run_append, g2]
    simp only [Option.bind_some]
    rw [run_append, k2]
    simp only [Option.bind_some]
    rw [run_append, q2]
    simp [run, step, e3, callable, ht]
  · exact ⟨t, u, false, htu, ⟨.write .ringSize, [], by simp [State.set, callOps], rfl⟩, ⟨.read .ringSize, change .active ++ getThreadState b, by simp [State.set, Ne.symm htu, q4], rfl⟩⟩

/-- **C153 does not hold.** -/
theorem not_NoRace : ¬ NoRace := by
  intro hn
  have h1 : Reachable ({ (({} : State).set 1 [.loop]) with sender := true, running := true }) := .step (a := .call 0 .make) .init rfl (by simp [step, callable])
  obtain ⟨as, s', k1, k2, k3⟩ := destroy_races _ h1 rfl (by simp [State.set])
  refine hn s' .running (reachable_going h1 (fun a ha => ?_) k2) k3
  rcases k1 a ha with ⟨u, c, rfl⟩ | rfl
  · trivial
  · rfl

/-- What a thread is about to do belongs to a call it made, or to an iteration of the worker. -/
theorem made {as : List Act} {s s' : State} (h : run s as = some s') (t : Nat) (o : Op) (ho : o ∈ s'.ops t) : o ∈ s.ops t ∨ (∃ c, Act.call t c ∈ as ∧ o ∈ callOps c) ∨ o ∈ roundOps true ++ [.loop] := by
  induction as generalizing s with
  | nil => cases h; exact .inl ho
  | cons a as ih =>
    simp only [run, Option.bind_eq_some_iff] at h
    obtain ⟨s1, h1, h2⟩ := h
    rcases ih h2 with h3 | ⟨c, h3, h4⟩ | h3
    · -- one step
      have set : ∀ (u : Nat) (l : List Op), o ∈ (s.set u l).ops t → o ∈ s.ops t ∨ (t = u ∧ o ∈ l) := by
        intro u l hl
        by_cases hu : t = u
        · subst hu; exact .inr ⟨rfl, by simpa [State.set] using hl⟩
        · exact .inl (by simpa [State.set, hu] using hl)
      cases a with
      | exec u c =>
        simp only [step] at h1
        split at h1
        · cases h1
        · next x rest e =>
          have fin : o ∈ (s.set u rest).ops t → o ∈ s.ops t := by
            intro hl
            rcases set u rest hl with h4 | ⟨rfl, h4⟩
            · exact h4
            · rw [e]; exact List.mem_cons_of_mem _ h4
          cases x with
          | lock m al => simp only [exec] at h1; split at h1 <;> cases h1; exact .inl (fin h3)
          | unlock m => cases h1; exact .inl (fin h3)
          | read v => cases h1; exact .inl (fin h3)
          | write v => cases h1; exact .inl (fin h3)
          | join => simp only [exec] at h1; split at h1 <;> cases h1; exact .inl (fin h3)
          | clearRunning => cases h1; exact .inl (fin h3)
          | loop =>
            cases h1
            rcases set _ _ h3 with h4 | ⟨rfl, h4⟩
            · exact .inl h4
            · split at h4
              · exact .inr (.inr (round_sub c o h4))
              · exact .inl (by rw [e]; exact List.mem_cons_of_mem _ h4)
      | call u c =>
        simp only [step] at h1
        split at h1
        case isFalse => cases h1
        case isTrue hx =>
          split at h1
          · split at h1
            · cases h1
              rcases set 1 _ h3 with h4 | ⟨rfl, h4⟩
              · exact .inl h4
              · exact .inr (.inr (by simp at h4; simp [h4]))
            · cases h1
          · cases h1
            rcases set u _ h3 with h4 | ⟨rfl, h4⟩
            · exact .inl h4
            · exact .inr (.inl ⟨_, List.mem_cons_self, h4⟩)
          · cases h1
            rcases set u _ h3 with h4 | ⟨rfl, h4⟩
            · exact .inl h4
            · exact .inr (.inl ⟨_, List.mem_cons_self, h4⟩)
    · exact .inr (.inl ⟨c, List.mem_cons_of_mem _ h3, h4⟩)
    · exact .inr (.inr h3)

/-- **C153, partial.** In any program, also one that shares its sender, there is a race only where the size of buffers is set, a sender is destroyed or a sender is given a transport. Missing: programs that do. -/
theorem only_with_partial (as : List Act) (s : State) (h : run {} as = some s) (v : Var) (hr : RaceOn s v) :
    ∃ t, (v = .ringSize ∧ Act.call t .setRingbufferSize ∈ as) ∨ (v = .running ∧ Act.call t .destroy ∈ as) ∨ (v = .transport ∧ Act.call t .setTransport ∈ as) := by
  have hr' := hr
  obtain ⟨t, u, w, _, ⟨o, r, e, ha⟩, _⟩ := hr
  have ho : (∃ c, Act.call t c ∈ as ∧ o ∈ callOps c) ∨ o ∈ roundOps true ++ [.loop] := by
    rcases made h t o (by rw [e]; simp) with h1 | h1
    · cases h1
    · exact h1
  have nr : ∀ v, v ≠ .orphans → Op.write v ∉ roundOps true ++ [.loop] := by
    intro v hv; simp [roundOps, change, look, Mutex.guards, hv]
  cases v with
  | active => exact absurd hr' (guarded_safe as s h .active)
  | orphans => exact absurd hr' (guarded_safe as s h .orphans)
  | states => exact absurd hr' (guarded_safe as s h .states)
  | names => exact absurd hr' (guarded_safe as s h .names)
  | threadNames => exact absurd hr' (guarded_safe as s h .threadNames)
  | ringSize =>
    cases o <;> simp [Op.access] at ha
    subst ha
    rcases ho with ⟨c, h1, h2⟩ | h2
    · have := ((in_calls c).2.1 _ h2).2.1 rfl
      subst this
      exact ⟨t, .inl ⟨rfl, h1⟩⟩
    · exact absurd h2 (nr _ (by simp))
  | transport =>
    cases o <;> simp [Op.access] at ha
    subst ha
    rcases ho with ⟨c, h1, h2⟩ | h2
    · have := ((in_calls c).2.1 _ h2).2.2 rfl
      subst this
      exact ⟨t, .inr (.inr ⟨rfl, h1⟩)⟩
    · exact absurd h2 (nr _ (by simp))
  | running =>
    cases o <;> simp [Op.access] at ha
    · subst ha
      rcases ho with ⟨c, h1, h2⟩ | h2
      · exact absurd rfl ((in_calls c).2.1 _ h2).1
      · exact absurd h2 (nr _ (by simp))
    · rcases ho with ⟨c, h1, h2⟩ | h2
      · have := (in_calls c).2.2.2.2.2 h2
        subst this
        exact ⟨t, .inr (.inl ⟨rfl, h1⟩)⟩
      · simp [roundOps, change, look] at h2

/-! ### A program -/

/-- Two threads trace for the first time and one names itself while the worker collects; the owner asks for the names and ends the sender. -/
def program : List Act :=
  [.call 0 .make, .call 2 (.tracepoint false false), .exec 1 true, .exec 2 false, .call 3 (.tracepoint false false), .exec 3 false, .exec 1 false, .exec 2 false, .exec 1 false, .exec 3 false, .exec 1 false] ++
  List.replicate 2 (.exec 2 false) ++ List.replicate 8 (.exec 3 false) ++ List.replicate 6 (.exec 2 false) ++
  [.call 4 .nameThread, .exec 4 false, .exec 4 false, .exec 4 false, .call 0 .threadNames, .exec 0 false, .exec 0 false, .exec 0 false] ++ List.replicate 4 (.exec 1 false) ++ [.call 0 .destroy, .exec 0 false, .exec 1 false,
   .exec 0 false]

/-- Two threads look at the buffers at the same time, and one waits while the other enters its buffer. -/
example : ((run {} (program.take 6)).map fun s => (s.held, s.ops 2)) = some ([(3, .active, false), (2, .active, false)], (callOps (.tracepoint false false)).drop 1) := by decide +kernel
/-- All calls end and the worker, too. -/
example : ((run {} program).map fun s => (s.held, [0, 1, 2, 3, 4].map s.ops, s.sender)) = some ([], [[], [], [], [], []], false) := by decide +kernel

end Scalopus.C153
