import Verif.Spec.ManagerThreads

/-!
# Invariants of the threads of the endpoint manager
-/

namespace Scalopus.ManagerThreads

variable {P Q : Nat → Call → Prop} {s s' : State}

@[simp] theorem set_ops (s : State) (t : Nat) (l : List Op) (u : Nat) : (s.set t l).ops u = if u = t then l else s.ops u := rfl
@[simp] theorem set_holder (s : State) (t : Nat) (l : List Op) : (s.set t l).holder = s.holder := rfl
@[simp] theorem set_polling (s : State) (t : Nat) (l : List Op) : (s.set t l).polling = s.polling := rfl
@[simp] theorem set_joinable (s : State) (t : Nat) (l : List Op) : (s.set t l).joinable = s.joinable := rfl
@[simp] theorem set_hasLogger (s : State) (t : Nat) (l : List Op) : (s.set t l).hasLogger = s.hasLogger := rfl
@[simp] theorem set_terminated (s : State) (t : Nat) (l : List Op) : (s.set t l).terminated = s.terminated := rfl

/-! ## The lock -/

/-- Whether thread `t` is the one that holds the lock. -/
def held (h : Option Nat) (t : Nat) : Bool := decide (h = some t)

theorem held_iff {h : Option Nat} {t : Nat} : held h t = true ↔ h = some t := by simp [held]

/-- What a thread has to do keeps to the rules of the lock; the first argument says whether it holds it. A thread that locks again hangs, so what follows does not matter. -/
def Rules : Bool → List Op → Prop
  | b, [] => b = false
  | false, .lock :: l => Rules true l
  | true, .lock :: _ => True
  | b, .unlock :: l => b = true ∧ Rules false l
  | b, .readMaps :: l => b = true ∧ Rules b l
  | b, .writeMaps :: l => b = true ∧ Rules b l
  | b, .factory :: l => b = true ∧ Rules b l
  | b, .log :: l => b = true ∧ Rules b l
  | b, .setLogger :: l => Rules b l
  | b, .testStop :: l => Rules b l
  | b, .clearPolling :: l => Rules b l
  | b, .join :: l => Rules b l
  | b, .setPolling :: l => Rules b l
  | b, .setInterval :: l => Rules b l
  | b, .spawn :: l => Rules b l
  | b, .loop :: l => Rules b l
  | b, .sleep :: l => Rules b l

theorem rules_body {body l : List Op} (hb : ∀ o ∈ body, o ∈ [Op.readMaps, .writeMaps, .log, .factory]) (h : Rules true l) : Rules true (body ++ l) := by
  induction body with
  | nil => exact h
  | cons o body ih =>
    have h1 := hb o (by simp)
    have h2 := ih (fun o ho => hb o (by simp [ho]))
    simp only [List.mem_cons, List.not_mem_nil, or_false] at h1
    rcases h1 with rfl | rfl | rfl | rfl <;> exact ⟨rfl, h2⟩

theorem sup_body : ∀ x : Sup, ∀ o ∈ supOps x, o ∈ [Op.readMaps, .writeMaps, .log, .factory] := by
  intro x; cases x <;> simp [supOps]

theorem dest_body (d : Dest) : ∀ o ∈ destOps d, o ∈ [Op.readMaps, .writeMaps, .log, .factory] := by
  cases d with
  | known => simp [destOps]
  | failed => simp [destOps]
  | connected sups =>
    intro o ho
    simp only [destOps, List.mem_append, List.mem_flatMap] at ho
    rcases ho with ho | ⟨x, _, ho⟩
    · simp only [List.mem_cons, List.not_mem_nil, or_false] at ho
      rcases ho with rfl | rfl | rfl <;> simp
    · exact sup_body x o ho

theorem found_body (f : Found) : ∀ o ∈ (List.replicate f.lost [Op.log, .writeMaps]).flatten ++ f.dests.flatMap destOps, o ∈ [Op.readMaps, .writeMaps, .log, .factory] := by
  intro o ho
  simp only [List.mem_append, List.mem_flatten, List.mem_flatMap, List.mem_replicate] at ho
  rcases ho with ⟨l, ⟨_, rfl⟩, ho⟩ | ⟨d, _, ho⟩
  · simp only [List.mem_cons, List.not_mem_nil, or_false] at ho
    rcases ho with rfl | rfl <;> simp
  · exact dest_body d o ho

theorem manage_eq (f : Found) : ∃ body : List Op, manageOps f = .lock :: (body ++ [.unlock]) ∧ ∀ o ∈ body, o ∈ [Op.readMaps, .writeMaps, .log, .factory] :=
  ⟨.readMaps :: ((List.replicate f.lost [Op.log, .writeMaps]).flatten ++ f.dests.flatMap destOps), by simp [manageOps], by
    intro o ho
    rcases List.mem_cons.mp ho with rfl | ho
    · simp
    · exact found_body f o ho⟩

theorem rules_manage (f : Found) {b : Bool} {l : List Op} (h : Rules b l) : Rules b (manageOps f ++ l) := by
  obtain ⟨body, e, hb⟩ := manage_eq f
  rw [e]
  cases b with
  | true => trivial
  | false =>
    show Rules true ((body ++ [.unlock]) ++ l)
    rw [List.append_assoc]
    exact rules_body hb ⟨rfl, h⟩

theorem rules_call (c : Call) {b : Bool} {l : List Op} (h : Rules b l) : Rules b (callOps c ++ l) := by
  cases c with
  | manage f => exact rules_manage f h
  | endpoints => cases b <;> simp_all [callOps, Rules]
  | addFactory => cases b <;> simp_all [callOps, Rules]
  | setLogger => cases b <;> simp_all [callOps, Rules]
  | start => cases b <;> simp_all [callOps, Rules]
  | stop => cases b <;> simp_all [callOps, Rules]

theorem rules_calls (cs : List Call) {b : Bool} {l : List Op} (h : Rules b l) : Rules b (cs.flatMap callOps ++ l) := by
  induction cs with
  | nil => exact h
  | cons c cs ih =>
    rw [List.flatMap_cons, List.append_assoc]
    exact rules_call c ih

structure LockInv (s : State) : Prop where
  rules : ∀ t, Rules (held s.holder t) (s.ops t)
  alive : s.ops 1 ≠ [] → s.joinable = true

theorem lockInv_call {t : Nat} {c : Call} (h : LockInv s) (e : step s (.call t c) = some s') : LockInv s' := by
  simp only [step] at e
  split at e
  · rename_i hc
    obtain ⟨_, h1, h2⟩ := hc
    simp only [Option.some.injEq] at e
    subst e
    constructor
    · intro u
      by_cases hu : u = t
      · subst hu
        have h3 := h.rules u
        rw [h2] at h3
        have h4 := rules_call c (l := []) h3
        simpa using h4
      · simpa [hu] using h.rules u
    · intro hn
      apply h.alive
      simpa [h1.symm] using hn
  · cases e

theorem lockInv_exec {t : Nat} {cs : List Call} {f : Found} (h : LockInv s) (e : step s (.exec t cs f) = some s') : LockInv s' := by
  simp only [step] at e
  split at e
  · cases e
  · split at e
    · cases e
    rename_i o rest ho
    have hr := h.rules t
    rw [ho] at hr
    have hnone : s.holder = none → ∀ u, Rules false (s.ops u) := by
      intro hn u
      have := h.rules u
      simpa [hn, held] using this
    have hoth : ∀ u, s.holder = some t → u ≠ t → Rules false (s.ops u) := by
      intro u hh hu
      have := h.rules u
      have h5 : held s.holder u = false := by simp [held, hh, Ne.symm hu]
      rw [h5] at this
      exact this
    -- a step that only changes what `t` has to do, and keeps the lock
    have simple : ∀ l : List Op, Rules (held s.holder t) l → LockInv (s.set t l) := by
      intro l hl
      constructor
      · intro u
        by_cases hu : u = t
        · subst hu; simpa using hl
        · simpa [hu] using h.rules u
      · intro hn
        by_cases h1 : 1 = t
        · subst h1
          exact h.alive (by rw [ho]; simp)
        · exact h.alive (by simpa [h1] using hn)
    cases o <;> simp only [exec] at e
    case lock =>
      split at e
      · rename_i hn
        simp only [Option.some.injEq] at e
        subst e
        constructor
        · intro u
          by_cases hu : u = t
          · subst hu
            simp [hn, held] at hr ⊢
            simpa [Rules] using hr
          · have := hnone hn u
            simpa [hu, Ne.symm hu, held] using this
        · intro hn2
          by_cases h1 : 1 = t
          · subst h1
            exact h.alive (by rw [ho]; simp)
          · exact h.alive (by simpa [h1] using hn2)
      · cases e
    case unlock =>
      simp only [Option.some.injEq] at e
      subst e
      have hh : s.holder = some t := by
        exact held_iff.mp hr.1
      constructor
      · intro u
        by_cases hu : u = t
        · subst hu
          simpa [held] using hr.2
        · have := hoth u hh hu
          simpa [hu, held] using this
      · intro hn2
        by_cases h1 : 1 = t
        · subst h1
          exact h.alive (by rw [ho]; simp)
        · exact h.alive (by simpa [h1] using hn2)
    case readMaps | writeMaps | setInterval | sleep =>
      simp only [Option.some.injEq] at e
      subst e
      apply simple
      revert hr
      cases held s.holder t <;> simp [Rules]
    case log =>
      simp only [Option.some.injEq] at e
      subst e
      have hr2 : Rules (held s.holder t) rest := by
        revert hr
        cases held s.holder t <;> simp [Rules]
      apply simple
      split
      · exact rules_calls cs hr2
      · exact hr2
    case factory =>
      simp only [Option.some.injEq] at e
      subst e
      have hr2 : Rules (held s.holder t) rest := by
        revert hr
        cases held s.holder t <;> simp [Rules]
      exact simple _ (rules_calls cs hr2)
    case setLogger | clearPolling | setPolling =>
      simp only [Option.some.injEq] at e
      subst e
      have := simple rest (by
        revert hr
        cases held s.holder t <;> simp [Rules])
      exact ⟨this.rules, this.alive⟩
    case testStop =>
      simp only [Option.some.injEq] at e
      subst e
      apply simple
      split <;> revert hr <;> cases held s.holder t <;> simp [Rules]
    case loop =>
      simp only [Option.some.injEq] at e
      subst e
      have hr2 : Rules (held s.holder t) rest := by
        revert hr
        cases held s.holder t <;> simp [Rules]
      apply simple
      split
      · obtain ⟨body, e, hb⟩ := manage_eq f
        cases hd : held s.holder t with
        | true => rw [e]; trivial
        | false => exact rules_manage f rfl
      · exact hr2
    case join =>
      split at e
      · simp only [Option.some.injEq] at e
        subst e
        exact ⟨h.rules, h.alive⟩
      · split at e
        · rename_i h1 h2
          simp only [Option.some.injEq] at e
          subst e
          have := simple rest (by
            revert hr
            cases held s.holder t <;> simp [Rules])
          refine ⟨this.rules, ?_⟩
          intro hn
          have h3 : ¬ 1 = t := fun e => h1 (Or.inl e.symm)
          exact absurd h2 (by simpa [h3] using hn)
        · cases e
    case spawn =>
      split at e
      · simp only [Option.some.injEq] at e
        subst e
        exact ⟨h.rules, h.alive⟩
      · rename_i hj
        simp only [Option.some.injEq] at e
        subst e
        have h1 : s.ops 1 = [] := Classical.byContradiction fun hn => hj (h.alive hn)
        have ht : t ≠ 1 := by
          rintro rfl
          rw [h1] at ho
          cases ho
        have := simple rest (by
            revert hr
            cases held s.holder t <;> simp [Rules])
        refine ⟨?_, fun _ => rfl⟩
        intro u
        by_cases hu : u = 1
        · subst hu
          have h2 := h.rules 1
          rw [h1] at h2
          have h3 : held s.holder 1 = false := h2
          simp only [set_ops, set_holder, if_true]
          rw [h3]
          rfl
        · have := this.rules u
          simpa [hu] using this

theorem lockInv (h : Reachable P Q s) : LockInv s := by
  induction h with
  | init => exact ⟨fun t => rfl, fun h => absurd rfl h⟩
  | call _ _ e ih => exact lockInv_call ih e
  | exec _ _ e ih => exact lockInv_exec ih e

/-- Whoever is about to access the maps or to call a function of the user holds the lock. -/
theorem holds (h : LockInv s) {t : Nat} {o : Op} {rest : List Op} (e : s.ops t = o :: rest) (ho : o ∈ [Op.readMaps, .writeMaps, .log, .factory, .unlock]) :
    s.holder = some t := by
  have hr := h.rules t
  rw [e] at hr
  simp only [List.mem_cons, List.not_mem_nil, or_false] at ho
  rcases ho with rfl | rfl | rfl | rfl | rfl <;> (cases hd : held s.holder t <;> rw [hd] at hr <;> simp [Rules] at hr <;> exact held_iff.mp hd)

/-! ## The owner -/

/-- What only the owner does. -/
def Op.owner : Op → Bool
  | .setLogger | .testStop | .clearPolling | .join | .setPolling | .setInterval | .spawn => true
  | _ => false

/-- What the owner has to do at the beginning of a call. -/
inductive Tidy : List Op → Prop
  | nil : Tidy []
  | one {o : Op} {l : List Op} : o ∉ [Op.clearPolling, .join, .setPolling, .setInterval, .spawn] → Tidy l → Tidy (o :: l)
  | start {l : List Op} : Tidy l → Tidy (.testStop :: .setPolling :: .setInterval :: .spawn :: l)

theorem Tidy.append {l m : List Op} (h : Tidy l) (hm : Tidy m) : Tidy (l ++ m) := by
  induction h with
  | nil => exact hm
  | one ho _ ih => exact .one ho ih
  | start _ ih => exact .start ih

theorem tidy_of {l : List Op} (h : ∀ o ∈ l, o ∉ [Op.clearPolling, .join, .setPolling, .setInterval, .spawn]) : Tidy l := by
  induction l with
  | nil => exact .nil
  | cons o l ih => exact .one (h o (by simp)) (ih fun o ho => h o (by simp [ho]))

theorem manage_plain (f : Found) : ∀ o ∈ manageOps f, o ∈ [Op.lock, .unlock, .readMaps, .writeMaps, .log, .factory] := by
  obtain ⟨body, e, hb⟩ := manage_eq f
  rw [e]
  intro o ho
  simp only [List.mem_cons, List.mem_append, List.not_mem_nil, or_false] at ho
  rcases ho with rfl | ho | rfl
  · simp
  · have := hb o ho
    simp only [List.mem_cons, List.not_mem_nil, or_false] at this ⊢
    rcases this with rfl | rfl | rfl | rfl <;> simp
  · simp

theorem tidy_call (c : Call) : Tidy (callOps c) := by
  cases c with
  | manage f =>
    apply tidy_of
    intro o ho
    have := manage_plain f o ho
    simp only [List.mem_cons, List.not_mem_nil, or_false] at this
    rcases this with rfl | rfl | rfl | rfl | rfl | rfl <;> simp
  | start => exact .start .nil
  | _ => apply tidy_of; simp [callOps]

theorem tidy_calls (cs : List Call) : Tidy (cs.flatMap callOps) := by
  induction cs with
  | nil => exact .nil
  | cons c cs ih => rw [List.flatMap_cons]; exact (tidy_call c).append ih

/-- What comes after the stopping. -/
def After (l : List Op) : Prop := Tidy l ∨ ∃ l', l = .setPolling :: .setInterval :: .spawn :: l' ∧ Tidy l'

/-- Where the owner is, and what `is_polling_` and `thread_` are then. -/
inductive Phase : List Op → Bool → Bool → Prop
  | tidy {l : List Op} {b : Bool} : Tidy l → Phase l b b
  | clear {l : List Op} : After l → Phase (.clearPolling :: .join :: l) true true
  | join {l : List Op} : After l → Phase (.join :: l) false true
  | setPolling {l : List Op} : Tidy l → Phase (.setPolling :: .setInterval :: .spawn :: l) false false
  | setInterval {l : List Op} : Tidy l → Phase (.setInterval :: .spawn :: l) true false
  | spawn {l : List Op} : Tidy l → Phase (.spawn :: l) true false

theorem phase_after {l : List Op} (h : After l) : Phase l false false := by
  rcases h with h | ⟨l', rfl, h⟩
  · exact .tidy h
  · exact .setPolling h

structure OwnerInv (s : State) : Prop where
  phase : Phase (s.ops 0) s.polling s.joinable
  others : ∀ t, t ≠ 0 → ∀ o ∈ s.ops t, o.owner = false
  worker : ∀ t, t ≠ 1 → ∀ o ∈ s.ops t, o ≠ .loop ∧ o ≠ .sleep
  fine : s.terminated = false

theorem callOps_owner {t : Nat} {c : Call} (h : Owner t c) (ht : t ≠ 0) : ∀ o ∈ callOps c, o.owner = false := by
  cases c with
  | manage f =>
    intro o ho
    have := manage_plain f o ho
    simp only [List.mem_cons, List.not_mem_nil, or_false] at this
    rcases this with rfl | rfl | rfl | rfl | rfl | rfl <;> rfl
  | endpoints => simp [callOps, Op.owner]
  | addFactory => simp [callOps, Op.owner]
  | setLogger => exact absurd h ht
  | start => exact absurd h ht
  | stop => exact absurd h ht

theorem callOps_worker (c : Call) : ∀ o ∈ callOps c, o ≠ .loop ∧ o ≠ .sleep := by
  cases c with
  | manage f =>
    intro o ho
    have := manage_plain f o ho
    simp only [List.mem_cons, List.not_mem_nil, or_false] at this
    rcases this with rfl | rfl | rfl | rfl | rfl | rfl <;> simp
  | _ => simp [callOps]

theorem ownerInv_call {t : Nat} {c : Call} (h : OwnerInv s) (hc : Owner t c) (e : step s (.call t c) = some s') : OwnerInv s' := by
  simp only [step] at e
  split at e
  · rename_i h1
    obtain ⟨_, h1, h2⟩ := h1
    simp only [Option.some.injEq] at e
    subst e
    refine ⟨?_, ?_, ?_, h.fine⟩
    · by_cases h0 : 0 = t
      · subst h0
        simp only [set_ops, if_true, set_polling, set_joinable]
        have hp := h.phase
        rw [h2] at hp
        generalize s.polling = p, s.joinable = j at hp
        cases hp with
        | tidy _ => exact .tidy (tidy_call c)
      · simpa [h0] using h.phase
    · intro u hu o ho
      by_cases hut : u = t
      · subst hut
        simp only [set_ops, if_true] at ho
        exact callOps_owner hc hu o ho
      · simp only [set_ops, hut, if_false] at ho
        exact h.others u hu o ho
    · intro u hu o ho
      by_cases hut : u = t
      · subst hut
        simp only [set_ops, if_true] at ho
        exact callOps_worker c o ho
      · simp only [set_ops, hut, if_false] at ho
        exact h.worker u hu o ho
  · cases e

theorem ownerInv_exec {t : Nat} {cs : List Call} {f : Found} (hl : LockInv s) (h : OwnerInv s) (hc : ∀ c ∈ cs, Owner t c) (e : step s (.exec t cs f) = some s') :
    OwnerInv s' := by
  simp only [step] at e
  split at e
  · cases e
  · split at e
    · cases e
    rename_i o rest ho
    have hoth : t ≠ 0 → ∀ x ∈ rest, x.owner = false := fun ht x hx => h.others t ht x (by rw [ho]; simp [hx])
    have hwor : t ≠ 1 → ∀ x ∈ rest, x ≠ .loop ∧ x ≠ .sleep := fun ht x hx => h.worker t ht x (by rw [ho]; simp [hx])
    have hown : o.owner = true → t = 0 := by
      intro hw
      refine Classical.byContradiction fun ht => ?_
      have := h.others t ht o (by rw [ho]; simp)
      rw [hw] at this
      cases this
    have hcs : t ≠ 0 → ∀ x ∈ cs.flatMap callOps ++ rest, x.owner = false := by
      intro ht x hx
      rcases List.mem_append.mp hx with hx | hx
      · obtain ⟨c, hcm, hx⟩ := List.mem_flatMap.mp hx
        exact callOps_owner (hc c hcm) ht x hx
      · exact hoth ht x hx
    have hcw : t ≠ 1 → ∀ x ∈ cs.flatMap callOps ++ rest, x ≠ .loop ∧ x ≠ .sleep := by
      intro ht x hx
      rcases List.mem_append.mp hx with hx | hx
      · obtain ⟨c, hcm, hx⟩ := List.mem_flatMap.mp hx
        exact callOps_worker c x hx
      · exact hwor ht x hx
    -- the general form of a step
    have simple : ∀ (l : List Op) (p j : Bool) (hd : Option Nat) (lg : Bool), (t ≠ 0 → (∀ x ∈ l, x.owner = false) ∧ p = s.polling ∧ j = s.joinable) → (t ≠ 1 → ∀ x ∈ l, x ≠ .loop ∧ x ≠ .sleep) →
        (t = 0 → Phase l p j) → OwnerInv { s.set t l with polling := p, joinable := j, holder := hd, hasLogger := lg } := by
      intro l p j hd lg h1 h2 h3
      refine ⟨?_, ?_, ?_, h.fine⟩
      · by_cases h0 : 0 = t
        · subst h0
          simpa using h3 rfl
        · have := h1 (Ne.symm h0)
          rw [this.2.1, this.2.2]
          simpa [h0] using h.phase
      · intro u hu x hx
        by_cases hut : u = t
        · subst hut
          simp only [set_ops, if_true] at hx
          exact (h1 hu).1 x hx
        · simp only [set_ops, hut, if_false] at hx
          exact h.others u hu x hx
      · intro u hu x hx
        by_cases hut : u = t
        · subst hut
          simp only [set_ops, if_true] at hx
          exact h2 hu x hx
        · simp only [set_ops, hut, if_false] at hx
          exact h.worker u hu x hx
    have hp : t = 0 → Phase (o :: rest) s.polling s.joinable := fun ht => by
      have := h.phase
      rw [← ht, ho] at this
      exact this
    -- a plain step of the owner
    have plain : o ∉ [Op.testStop, .clearPolling, .join, .setPolling, .setInterval, .spawn] → t = 0 → Tidy rest ∧ s.polling = s.joinable := by
      intro hno ht
      have := hp ht
      generalize s.polling = p, s.joinable = j at this
      cases this with
      | tidy ht =>
        cases ht with
        | one _ ht => exact ⟨ht, rfl⟩
        | start => simp at hno
      | _ => simp at hno
    cases o <;> simp only [exec] at e
    case lock =>
      split at e
      · simp only [Option.some.injEq] at e
        subst e
        exact simple rest s.polling s.joinable (some t) s.hasLogger (fun ht => ⟨hoth ht, rfl, rfl⟩) hwor (fun ht => by
          obtain ⟨h1, h2⟩ := plain (by simp) ht
          rw [h2]; exact .tidy h1)
      · cases e
    case unlock =>
      simp only [Option.some.injEq] at e
      subst e
      exact simple rest s.polling s.joinable none s.hasLogger (fun ht => ⟨hoth ht, rfl, rfl⟩) hwor (fun ht => by
          obtain ⟨h1, h2⟩ := plain (by simp) ht
          rw [h2]; exact .tidy h1)
    case readMaps | writeMaps | sleep =>
      simp only [Option.some.injEq] at e
      subst e
      exact simple rest s.polling s.joinable s.holder s.hasLogger (fun ht => ⟨hoth ht, rfl, rfl⟩) hwor (fun ht => by
          obtain ⟨h1, h2⟩ := plain (by simp) ht
          rw [h2]; exact .tidy h1)
    case log =>
      simp only [Option.some.injEq] at e
      subst e
      split
      · exact simple _ s.polling s.joinable s.holder s.hasLogger (fun ht => ⟨hcs ht, rfl, rfl⟩) hcw (fun ht => by
          obtain ⟨h1, h2⟩ := plain (by simp) ht
          rw [h2]; exact .tidy ((tidy_calls cs).append h1))
      · exact simple _ s.polling s.joinable s.holder s.hasLogger (fun ht => ⟨hoth ht, rfl, rfl⟩) hwor (fun ht => by
          obtain ⟨h1, h2⟩ := plain (by simp) ht
          rw [h2]; exact .tidy h1)
    case factory =>
      simp only [Option.some.injEq] at e
      subst e
      exact simple _ s.polling s.joinable s.holder s.hasLogger (fun ht => ⟨hcs ht, rfl, rfl⟩) hcw (fun ht => by
          obtain ⟨h1, h2⟩ := plain (by simp) ht
          rw [h2]; exact .tidy ((tidy_calls cs).append h1))
    case setLogger =>
      simp only [Option.some.injEq] at e
      subst e
      exact simple rest s.polling s.joinable s.holder true (fun ht => ⟨hoth ht, rfl, rfl⟩) hwor (fun ht => by
          obtain ⟨h1, h2⟩ := plain (by simp) ht
          rw [h2]; exact .tidy h1)
    case testStop =>
      have ht := hown rfl
      subst ht
      simp only [Option.some.injEq] at e
      subst e
      have hph := hp rfl
      have haft : After rest ∧ s.polling = s.joinable := by
        generalize s.polling = p, s.joinable = j at hph
        cases hph with
        | tidy ht =>
          cases ht with
          | one _ ht => exact ⟨Or.inl ht, rfl⟩
          | start ht => exact ⟨Or.inr ⟨_, rfl, ht⟩, rfl⟩
      cases hpol : s.polling with
      | true =>
        exact simple _ s.polling s.joinable s.holder s.hasLogger (fun ht => absurd rfl ht) (fun h1 x hx => by
          simp only [if_true, List.mem_cons] at hx
          rcases hx with rfl | rfl | hx
          · simp
          · simp
          · exact hwor h1 x hx) (fun _ => by
          rw [← haft.2, hpol]; exact .clear haft.1)
      | false =>
        exact simple _ s.polling s.joinable s.holder s.hasLogger (fun ht => absurd rfl ht) hwor (fun _ => by
          rw [← haft.2, hpol]; exact phase_after haft.1)
    case clearPolling =>
      have ht := hown rfl
      subst ht
      simp only [Option.some.injEq] at e
      subst e
      have hph := hp rfl
      refine simple rest false s.joinable s.holder s.hasLogger (fun ht => absurd rfl ht) hwor (fun _ => ?_)
      generalize s.polling = p, s.joinable = j at hph
      cases hph with
      | tidy ht => cases ht with | one hn => simp at hn
      | clear ha => exact .join ha
    case join =>
      have ht := hown rfl
      subst ht
      have hph := hp rfl
      have haft : After rest ∧ s.polling = false ∧ s.joinable = true := by
        generalize s.polling = p, s.joinable = j at hph
        cases hph with
        | tidy ht => cases ht with | one hn => simp at hn
        | join ha => exact ⟨ha, rfl, rfl⟩
      rw [if_neg (by simp [haft.2.2])] at e
      split at e
      · simp only [Option.some.injEq] at e
        subst e
        refine simple rest s.polling false s.holder s.hasLogger (fun ht => absurd rfl ht) hwor (fun _ => ?_)
        rw [haft.2.1]
        exact phase_after haft.1
      · cases e
    case setPolling =>
      have ht := hown rfl
      subst ht
      simp only [Option.some.injEq] at e
      subst e
      have hph := hp rfl
      refine simple rest true s.joinable s.holder s.hasLogger (fun ht => absurd rfl ht) hwor (fun _ => ?_)
      generalize s.polling = p, s.joinable = j at hph
      cases hph with
      | tidy ht => cases ht with | one hn => simp at hn
      | setPolling ha => exact .setInterval ha
    case setInterval =>
      have ht := hown rfl
      subst ht
      simp only [Option.some.injEq] at e
      subst e
      have hph := hp rfl
      refine simple rest s.polling s.joinable s.holder s.hasLogger (fun ht => absurd rfl ht) hwor (fun _ => ?_)
      generalize s.polling = p, s.joinable = j at hph
      cases hph with
      | tidy ht => cases ht with | one hn => simp at hn
      | setInterval ha => exact .spawn ha
    case spawn =>
      have ht := hown rfl
      subst ht
      have hph := hp rfl
      have haft : Tidy rest ∧ s.polling = true ∧ s.joinable = false := by
        generalize s.polling = p, s.joinable = j at hph
        cases hph with
        | tidy ht => cases ht with | one hn => simp at hn
        | spawn ha => exact ⟨ha, rfl, rfl⟩
      rw [haft.2.2, if_neg (by simp)] at e
      simp only [Option.some.injEq] at e
      subst e
      have h1 := simple rest s.polling true s.holder s.hasLogger (fun ht => absurd rfl ht) hwor (fun _ => by rw [haft.2.1]; exact .tidy haft.1)
      refine ⟨by simpa using h1.phase, ?_, ?_, h.fine⟩
      · intro u hu x hx
        by_cases hu1 : u = 1
        · subst hu1
          simp only [set_ops, if_true, List.mem_singleton] at hx
          subst hx; rfl
        · exact h1.others u hu x (by simpa [hu1] using hx)
      · intro u hu x hx
        exact h1.worker u hu x (by simpa [hu] using hx)
    case loop =>
      have ht1 : t = 1 := Classical.byContradiction fun ht => (h.worker t ht .loop (by rw [ho]; simp)).1 rfl
      subst ht1
      simp only [Option.some.injEq] at e
      subst e
      refine simple _ s.polling s.joinable s.holder s.hasLogger (fun ht => ⟨?_, rfl, rfl⟩) (fun h1 => absurd rfl h1) (fun h0 => by cases h0)
      split
      · intro x hx
        rcases List.mem_append.mp hx with hx | hx
        · have := manage_plain f x hx
          simp only [List.mem_cons, List.not_mem_nil, or_false] at this
          rcases this with rfl | rfl | rfl | rfl | rfl | rfl <;> rfl
        · simp only [List.mem_cons, List.not_mem_nil, or_false] at hx
          rcases hx with rfl | rfl <;> rfl
      · exact hoth ht

theorem ownerInv (hQ : ∀ t c, Q t c → Owner t c) (h : Reachable Owner Q s) : OwnerInv s := by
  induction h with
  | init =>
    refine ⟨Phase.tidy (b := false) .nil, ?_, ?_, rfl⟩ <;> intro t _ o ho <;> simp at ho
  | call _ hc e ih => exact ownerInv_call ih hc e
  | exec hr hc e ih => exact ownerInv_exec (lockInv hr) ih (fun c hm => hQ _ c (hc c hm)) e

end Scalopus.ManagerThreads
