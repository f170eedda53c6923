import Verif.Model.UnixFds

/-!
# C99, C100: descriptors of the unix transport
-/

namespace Scalopus.C99

open UnixFds

/-- The full property: the transport closes and shuts down only its own descriptors, and is never undefined. -/
def Harmless : Prop := ∀ as, run {} as ≠ .ub ∧ ∀ s, run {} as = .ok s → s.harmed = []

theorem run_append (as bs : List Act) (s : State) : run s (as ++ bs) = match run s as with
    | .ok s' => run s' bs
    | o => o := by
  induction as generalizing s with
  | nil => rfl
  | cons a as ih =>
    simp only [List.cons_append, run]
    cases step s a with
    | ok s' => exact ih s'
    | no => rfl
    | ub => rfl

/-! ### The property does not hold -/

/-- **C99 (negation).** Whenever the worker has closed a connection and not yet shut it down, and another thread then opens a file and is given the number that has become free, the file is shut down: the code
calls `close` before `shutdown`. -/
theorem shutdown_hits_other (as : List Act) (s : State) (h : run {} as = .ok s) (fd n : Nat) (rest : List Op) (ho : s.ops = .close fd :: .shutdown fd :: rest) (hown : ∃ f, s.table fd = some f ∧ f.own = true)
    (ok : Bool) : ∃ s', run {} (as ++ [.next ok, .openOther n fd, .next ok]) = .ok s' ∧ s'.harmed = n :: s.harmed ∧ s'.table fd = some (.other n) := by
  obtain ⟨f, hf, hown⟩ := hown
  have ht : touch s fd = s := by
    unfold touch; rw [hf]; cases f <;> simp_all [File.own]
  refine ⟨{ setFd (setFd s fd none) fd (some (.other n)) with conns := s.conns.filter (· != fd), ops := rest, harmed := n :: s.harmed }, ?_, rfl, by simp [setFd]⟩
  rw [run_append, h]
  simp only [run, step, ho, ht]
  simp [setFd, touch]

/-- **C99 (negation).** A connection that `select` reports both as readable and as exceptional, and cannot be read, is closed twice: another thread's file, opened in between, is closed. -/
theorem double_close_hits_other : ∃ s, run {} [.serve 3, .round [3] [], .accepted (some 4), .next true, .next true, .next true, .round [4] [4], .next true, .next false, .next true, .next true,
    .openOther 7 4, .next true] = .ok s ∧ s.harmed = [7] ∧ s.table 4 = none := ⟨_, rfl, rfl, rfl⟩

/-- It is so every time that the worker comes to a connection that `select` reported as both. -/
theorem double_close_always (as : List Act) (s : State) (h : run {} as = .ok s) (fd n : Nat) (rest : List Op) (ho : s.ops = .check fd true true :: rest) (h1 : fd ≠ s.serverFd) (h2 : fd ≠ s.clientFd)
    (hown : ∃ f, s.table fd = some f ∧ f.own = true) (ok : Bool) :
    ∃ s', run {} (as ++ [.next false, .next ok, .next ok, .openOther n fd, .next ok, .next ok]) = .ok s' ∧ s'.harmed = n :: s.harmed ∧ s'.table fd = none ∧ s'.ops = rest := by
  rw [run_append, h]
  obtain ⟨f, ht, hf⟩ := hown
  cases f with
  | other m => cases hf
  | _ => simp [run, step, ho, h1, h2, checks, closing, setFd, touch, ht]

/-- **C99 (negation).** With a connection whose descriptor is 1024 or more, the next round is undefined behaviour. -/
theorem high_descriptor (as : List Act) (s : State) (h : run {} as = .ok s) (hr : s.running = true) (hj : s.joined = false) (ho : s.ops = []) (fd : Nat) (hf : fd ∈ s.conns) (hh : 1024 ≤ fd) :
    run {} (as ++ [.round [] []]) = .ub := by
  rw [run_append, h]
  have : s.conns.any (1024 ≤ ·) = true := List.any_eq_true.2 ⟨fd, hf, by simpa using hh⟩
  simp [run, step, hr, hj, ho, this]

theorem not_Harmless : ¬ Harmless := fun h => by
  obtain ⟨s, hs, hh, _⟩ := double_close_hits_other
  have := (h _).2 s hs
  rw [hh] at this; cases this

/-! ### Invariants -/

def closeFds : List Op → List Nat
  | [] => []
  | .close fd :: l | .shutdown fd :: l => fd :: closeFds l
  | _ :: l => closeFds l

def checkFds : List Op → List Nat
  | [] => []
  | .check fd _ _ :: l => fd :: checkFds l
  | _ :: l => checkFds l

/-- Before the loop over the connections, or within. -/
def Before : List Op → Prop
  | [] => False
  | .accept :: l | .client :: l => Before l
  | .checkAll _ _ :: l => l = []
  | _ => False

def Within : List Op → Prop
  | [] => True
  | .accept :: _ | .client :: _ | .checkAll _ _ :: _ => False
  | _ :: l => Within l

structure Inv (s : State) : Prop where
  own : ∀ fd, fd ∈ s.conns ↔ ∃ f, s.table fd = some f ∧ f.own = true
  nodup : s.conns.Nodup
  shape : Before s.ops ∨ Within s.ops
  checks : (checkFds s.ops).Nodup ∧ ∀ fd ∈ checkFds s.ops, fd ∈ s.conns ∧ fd ∉ closeFds s.ops
  fresh : s.started = false → s.conns = [] ∧ s.ops = [] ∧ s.running = false

theorem before_fds {l : List Op} (h : Before l) : closeFds l = [] ∧ checkFds l = [] := by
  induction l with
  | nil => cases h
  | cons o l ih =>
    cases o with
    | accept => exact ih h
    | client => exact ih h
    | checkAll r e => simp only [Before] at h; subst h; exact ⟨rfl, rfl⟩
    | check _ _ _ => cases h
    | close _ => cases h
    | shutdown _ => cases h

theorem inv_init : Inv {} := ⟨fun fd => by simp, List.nodup_nil, Or.inr trivial, ⟨List.nodup_nil, fun _ h => (by cases h)⟩, fun _ => ⟨rfl, rfl, rfl⟩⟩

theorem closeFds_append (a b : List Op) : closeFds (a ++ b) = closeFds a ++ closeFds b := by
  induction a with
  | nil => rfl
  | cons o a ih => cases o <;> simp [closeFds, ih]

theorem checkFds_append (a b : List Op) : checkFds (a ++ b) = checkFds a ++ checkFds b := by
  induction a with
  | nil => rfl
  | cons o a ih => cases o <;> simp [checkFds, ih]

theorem within_append (a b : List Op) : Within (a ++ b) ↔ Within a ∧ Within b := by
  induction a with
  | nil => simp [Within]
  | cons o a ih => cases o <;> simp [Within, ih]

theorem checks_fds (fd : Nat) (r e ok : Bool) : (∀ i ∈ closeFds (UnixFds.checks fd r e ok), i = fd) ∧ checkFds (UnixFds.checks fd r e ok) = [] ∧ Within (UnixFds.checks fd r e ok) := by
  cases r <;> cases e <;> cases ok <;> simp [UnixFds.checks, closing, closeFds, checkFds, Within]

theorem map_check_fds (l : List Nat) (f g : Nat → Bool) : closeFds (l.map fun fd => .check fd (f fd) (g fd)) = [] ∧ checkFds (l.map fun fd => .check fd (f fd) (g fd)) = l ∧
    Within (l.map fun fd => .check fd (f fd) (g fd)) := by
  induction l with
  | nil => exact ⟨rfl, rfl, trivial⟩
  | cons a l ih => simp [closeFds, checkFds, Within, ih]

theorem closing_fds (l : List Nat) : checkFds (l.flatMap closing) = [] ∧ Within (l.flatMap closing) ∧ ∀ fd, fd ∈ closeFds (l.flatMap closing) ↔ fd ∈ l := by
  induction l with
  | nil => exact ⟨rfl, trivial, fun _ => Iff.rfl⟩
  | cons a l ih =>
    refine ⟨?_, ?_, fun fd => ?_⟩
    · simp [closing, checkFds]; exact ih.1
    · simp [closing, Within]; exact ih.2.1
    · simp only [List.flatMap_cons, closeFds_append, List.mem_append, List.mem_cons]
      rw [show (closeFds (List.flatMap closing l)) = closeFds (l.flatMap closing) from rfl, ih.2.2 fd]
      simp [closing, closeFds]

theorem not_free {s : State} (h : Inv s) {fd : Nat} (hf : s.table fd = none) : fd ∉ s.conns := fun hm => by
  obtain ⟨f, h1, _⟩ := (h.own fd).1 hm
  rw [hf] at h1; cases h1

/-- A file of others comes or goes. -/
theorem inv_other {s : State} (h : Inv s) {fd : Nat} {f : Option File} (hs : fd ∉ s.conns) (hf : ∀ x, f = some x → x.own = false) : Inv (setFd s fd f) := by
  refine ⟨fun i => ?_, h.nodup, h.shape, h.checks, h.fresh⟩
  simp only [setFd]
  split
  · rename_i hi; subst hi
    refine ⟨fun hm => absurd hm hs, fun ⟨x, h1, h2⟩ => ?_⟩
    rw [hf x h1] at h2; cases h2
  · exact h.own i

theorem touch_eq (s : State) (fd : Nat) : (touch s fd).table = s.table ∧ (touch s fd).conns = s.conns ∧ (touch s fd).ops = s.ops ∧ (touch s fd).started = s.started ∧
    (touch s fd).serverFd = s.serverFd ∧ (touch s fd).clientFd = s.clientFd ∧ (touch s fd).running = s.running ∧ (touch s fd).joined = s.joined := by
  unfold touch; split <;> exact ⟨rfl, rfl, rfl, rfl, rfl, rfl, rfl, rfl⟩

theorem started_of_ops {s : State} (h : Inv s) (ho : s.ops ≠ []) : s.started = true := by
  cases hs : s.started with
  | true => rfl
  | false => exact absurd (h.fresh hs).2.1 ho

theorem inv_step {s s' : State} (h : Inv s) {a : Act} (e : step s a = .ok s') : Inv s' := by
  have start : ∀ (x : State) (fd : Nat) (f : File), f.own = true → s.started = false → x.table = (setFd s fd (some f)).table → x.conns = [fd] → x.ops = s.ops → x.started = true → Inv x := by
    intro x fd f hf hst h1 h2 h3 h4
    obtain ⟨hc, ho, _⟩ := h.fresh hst
    refine ⟨fun i => ?_, by rw [h2]; simp, by rw [h3, ho]; exact Or.inr trivial, by rw [h3, ho]; exact ⟨List.nodup_nil, fun _ hh => (by cases hh)⟩, fun hh => by rw [h4] at hh; cases hh⟩
    rw [h1, h2]
    simp only [setFd, List.mem_singleton]
    split
    · rename_i hi; exact ⟨fun _ => ⟨f, rfl, hf⟩, fun _ => hi⟩
    · rename_i hi
      refine ⟨fun hh => absurd hh hi, fun hh => ?_⟩
      have := (h.own i).2 hh
      rw [hc] at this; cases this
  cases a with
  | serve fd =>
    simp only [step] at e; split at e
    · rename_i hc
      simp only [Out.ok.injEq] at e; subst e
      exact start _ fd .listen rfl hc.1 rfl rfl rfl rfl
    · cases e
  | connect fd =>
    simp only [step] at e; split at e
    · rename_i hc
      simp only [Out.ok.injEq] at e; subst e
      exact start _ fd .client rfl hc.1 rfl rfl rfl rfl
    · cases e
  | openOther n fd =>
    simp only [step] at e; split at e
    · rename_i hc
      simp only [Out.ok.injEq] at e; subst e
      exact inv_other h (not_free h hc) (fun x hx => by cases hx; rfl)
    · cases e
  | closeOther fd =>
    simp only [step] at e; split at e
    · rename_i n hc
      simp only [Out.ok.injEq] at e; subst e
      refine inv_other h (fun hm => ?_) (fun x hx => by cases hx)
      obtain ⟨f, h1, h2⟩ := (h.own fd).1 hm
      rw [hc] at h1; cases h1; cases h2
    · cases e
  | round r x =>
    simp only [step] at e; split at e
    · rename_i hc
      split at e
      · cases e
      · simp only [Out.ok.injEq] at e; subst e
        have hb : Before ((if s.serverFd ∈ r then [.accept] else []) ++ (if s.clientFd ∈ r then [.client] else []) ++ [.checkAll r x]) := by
          split <;> split <;> simp [Before]
        refine ⟨h.own, h.nodup, Or.inl hb, ?_, fun hst => ?_⟩
        · show (checkFds ((if s.serverFd ∈ r then [.accept] else []) ++ (if s.clientFd ∈ r then [.client] else []) ++ [.checkAll r x])).Nodup ∧ _
          rw [(before_fds hb).2]
          exact ⟨List.nodup_nil, fun fd hh => by cases hh⟩
        · have := (h.fresh hst).2.2
          rw [hc.1] at this; cases this
    · cases e
  | accepted o =>
    simp only [step] at e; split at e
    · rename_i rest ho
      have hst := started_of_ops h (by rw [ho]; simp)
      have hbef : Before rest := by
        have := h.shape
        rw [ho] at this
        rcases this with hh | hh
        · exact hh
        · cases hh
      split at e
      · simp only [Out.ok.injEq] at e; subst e
        exact ⟨h.own, h.nodup, Or.inr trivial, ⟨List.nodup_nil, fun _ hh => (by cases hh)⟩, fun hh => by rw [hst] at hh; cases hh⟩
      · rename_i f
        split at e
        · rename_i hf
          simp only [Out.ok.injEq] at e; subst e
          refine ⟨fun i => ?_, List.nodup_cons.2 ⟨not_free h hf.1, h.nodup⟩, Or.inl hbef, ?_, fun hh => absurd (hst.symm.trans hh) (by decide)⟩
          · simp only [setFd, List.mem_cons]
            split
            · rename_i hi; exact ⟨fun _ => ⟨.conn, rfl, rfl⟩, fun _ => Or.inl hi⟩
            · rename_i hi
              rw [← h.own i]
              exact ⟨fun hh => hh.resolve_left hi, Or.inr⟩
          · show (checkFds rest).Nodup ∧ _
            rw [(before_fds hbef).2]
            exact ⟨List.nodup_nil, fun fd hh => by cases hh⟩
        · cases e
    · cases e
  | next ok =>
    cases ho : s.ops with
    | nil => simp only [step, ho] at e; cases e
    | cons op rest =>
      have hst := started_of_ops h (by rw [ho]; simp)
      have hfresh : ∀ x : State, x.started = s.started → x.started = false → x.conns = [] ∧ x.ops = [] ∧ x.running = false := fun x h1 h2 => by rw [h1, hst] at h2; cases h2
      have hsh := h.shape
      have hck := h.checks
      rw [ho] at hsh hck
      simp only [step, ho] at e
      cases op with
      | accept => cases e
      | client =>
        have hbef : Before rest := by
          rcases hsh with hh | hh
          · exact hh
          · cases hh
        have hck' : (checkFds rest).Nodup ∧ ∀ fd ∈ checkFds rest, fd ∈ s.conns ∧ fd ∉ closeFds rest := hck
        change (if ok = true ∧ s.table s.clientFd ≠ some .listen then Out.ok { s with ops := rest } else .ok { s with ops := rest, running := false, clientFd := 0 }) = _ at e
        split at e
        · simp only [Out.ok.injEq] at e; subst e
          exact ⟨h.own, h.nodup, Or.inl hbef, hck', hfresh _ rfl⟩
        · simp only [Out.ok.injEq] at e; subst e
          exact ⟨h.own, h.nodup, Or.inl hbef, hck', hfresh _ rfl⟩
      | checkAll r x =>
        have hr : rest = [] := by
          rcases hsh with hh | hh
          · exact hh
          · cases hh
        subst hr
        simp only [Out.ok.injEq, List.append_nil] at e; subst e
        obtain ⟨m1, m2, m3⟩ := map_check_fds s.conns (fun fd => decide (fd ∈ r)) (fun fd => decide (fd ∈ x))
        refine ⟨h.own, h.nodup, Or.inr m3, ⟨by show (checkFds _).Nodup; rw [m2]; exact h.nodup, fun fd hh => ?_⟩, hfresh _ rfl⟩
        simp only [m2] at hh
        refine ⟨hh, ?_⟩
        show fd ∉ closeFds _
        rw [m1]; simp
      | check fd rd ex =>
        simp only [Out.ok.injEq] at e; subst e
        have hw : Within rest := by
          rcases hsh with hh | hh
          · cases hh
          · exact hh
        simp only [checkFds, closeFds, List.nodup_cons, List.mem_cons, forall_eq_or_imp] at hck
        obtain ⟨m1, m2, m3⟩ := checks_fds fd rd ex ok
        refine ⟨h.own, h.nodup, Or.inr ?_, ?_, hfresh _ rfl⟩
        · split
          · exact hw
          · exact (within_append _ _).2 ⟨m3, hw⟩
        · show (checkFds _).Nodup ∧ ∀ i ∈ checkFds _, i ∈ s.conns ∧ i ∉ closeFds _
          split
          · exact ⟨hck.1.2, hck.2.2⟩
          · rw [checkFds_append, closeFds_append, m2]
            refine ⟨hck.1.2, fun i hi => ⟨(hck.2.2 i hi).1, fun hc => ?_⟩⟩
            rcases List.mem_append.1 hc with hc | hc
            · rw [m1 i hc] at hi; exact hck.1.1 hi
            · exact (hck.2.2 i hi).2 hc
      | close fd =>
        simp only [Out.ok.injEq] at e; subst e
        have hw : Within rest := by
          rcases hsh with hh | hh
          · cases hh
          · exact hh
        obtain ⟨t1, t2, t3, t4, _⟩ := touch_eq s fd
        simp only [checkFds, closeFds, List.mem_cons, not_or] at hck
        refine ⟨fun i => ?_, List.Sublist.nodup List.filter_sublist h.nodup, Or.inr hw, ⟨hck.1, fun i hi => ⟨?_, (hck.2 i hi).2.2⟩⟩, hfresh _ t4⟩
        · simp only [setFd, List.mem_filter, bne_iff_ne, t1]
          split
          · rename_i hi; exact ⟨fun hh => absurd hi hh.2, fun ⟨f, h1, _⟩ => by cases h1⟩
          · rename_i hi; rw [← h.own i]; exact ⟨fun hh => hh.1, fun hh => ⟨hh, hi⟩⟩
        · exact List.mem_filter.2 ⟨(hck.2 i hi).1, by simpa using (hck.2 i hi).2.1⟩
      | shutdown fd =>
        simp only [Out.ok.injEq] at e; subst e
        have hw : Within rest := by
          rcases hsh with hh | hh
          · cases hh
          · exact hh
        obtain ⟨t1, t2, t3, t4, _⟩ := touch_eq s fd
        simp only [checkFds, closeFds, List.mem_cons, not_or] at hck
        refine ⟨fun i => by rw [show _ = (touch s fd).conns from rfl, t1, t2]; exact h.own i, by show (touch s fd).conns.Nodup; rw [t2]; exact h.nodup, Or.inr hw, ⟨hck.1, fun i hi => ⟨?_, (hck.2 i hi).2.2⟩⟩, hfresh _ t4⟩
        show i ∈ (touch s fd).conns
        rw [t2]; exact (hck.2 i hi).1
  | stop =>
    simp only [step] at e; split at e
    · rename_i hc
      simp only [Out.ok.injEq] at e; subst e; exact ⟨h.own, h.nodup, h.shape, h.checks, fun hh => absurd (hc.1.symm.trans hh) (by decide)⟩
    · cases e
  | join =>
    simp only [step] at e; split at e
    · rename_i hc
      simp only [Out.ok.injEq] at e; subst e
      obtain ⟨m1, m2, m3⟩ := closing_fds s.conns
      refine ⟨h.own, h.nodup, Or.inr m2, ⟨by show (checkFds _).Nodup; rw [m1]; exact List.nodup_nil, fun i hi => by simp only [m1] at hi; cases hi⟩, fun hh => absurd (hc.1.symm.trans hh) (by decide)⟩
    · cases e

theorem inv_run {as : List Act} {s s' : State} (h : Inv s) (e : run s as = .ok s') : Inv s' := by
  induction as generalizing s with
  | nil => cases e; exact h
  | cons a as ih =>
    simp only [run] at e
    split at e
    · rename_i t ht; exact ih (inv_step h ht) e
    · rename_i o hne; exact absurd e (hne s')

/-- Nothing of the process's other files changes while the transport is closing a connection: no other thread opens a file between `close` and `shutdown`. All descriptors the transport is given are below
`FD_SETSIZE`. -/
def Calm (s : State) : List Act → Prop
  | [] => True
  | a :: as => (match a with
      | .openOther _ _ => closeFds s.ops = []
      | .serve fd | .connect fd | .accepted (some fd) => fd < 1024
      | _ => True) ∧ ∀ s', step s a = .ok s' → Calm s' as

/-- Nothing that the transport is about to close belongs to others. -/
structure Safe (s : State) : Prop where
  mine : ∀ fd ∈ closeFds s.ops, ∀ n, s.table fd ≠ some (.other n)
  low : ∀ fd ∈ s.conns, fd < 1024
  none : s.harmed = []

theorem touch_safe {s : State} {fd : Nat} (h : ∀ n, s.table fd ≠ some (.other n)) : touch s fd = s := by
  unfold touch; split
  · rename_i n hn; exact absurd hn (h n)
  · rfl

theorem safe_step {s : State} (hi : Inv s) (h : Safe s) {a : Act} {as : List Act} (hc : Calm s (a :: as)) : step s a ≠ .ub ∧ ∀ s', step s a = .ok s' → Safe s' := by
  have hown : ∀ fd ∈ s.conns, ∀ n, s.table fd ≠ some (.other n) := fun fd hf n hn => by
    obtain ⟨f, h1, h2⟩ := (hi.own fd).1 hf
    rw [hn] at h1; cases h1; cases h2
  cases a with
  | serve fd =>
    simp only [step]; split
    · rename_i hs
      refine ⟨(by simp), fun s' e => ?_⟩
      simp only [Out.ok.injEq] at e; subst e
      refine ⟨fun i hm => ?_, fun i hm => ?_, h.none⟩
      · have := (hi.fresh hs.1).2.1
        change i ∈ closeFds s.ops at hm
        rw [this] at hm; cases hm
      · cases List.mem_singleton.1 hm; exact hc.1
    · exact ⟨(by simp), fun s' e => by cases e⟩
  | connect fd =>
    simp only [step]; split
    · rename_i hs
      refine ⟨(by simp), fun s' e => ?_⟩
      simp only [Out.ok.injEq] at e; subst e
      refine ⟨fun i hm => ?_, fun i hm => ?_, h.none⟩
      · have := (hi.fresh hs.1).2.1
        change i ∈ closeFds s.ops at hm
        rw [this] at hm; cases hm
      · cases List.mem_singleton.1 hm; exact hc.1
    · exact ⟨(by simp), fun s' e => by cases e⟩
  | openOther n fd =>
    simp only [step]; split
    · refine ⟨(by simp), fun s' e => ?_⟩
      simp only [Out.ok.injEq] at e; subst e
      refine ⟨fun i hm => ?_, h.low, h.none⟩
      change i ∈ closeFds s.ops at hm
      rw [hc.1] at hm; cases hm
    · exact ⟨(by simp), fun s' e => by cases e⟩
  | closeOther fd =>
    simp only [step]; split
    · refine ⟨(by simp), fun s' e => ?_⟩
      simp only [Out.ok.injEq] at e; subst e
      refine ⟨fun i hm m => ?_, h.low, h.none⟩
      simp only [setFd]; split
      · simp
      · exact h.mine i hm m
    · exact ⟨(by simp), fun s' e => by cases e⟩
  | round r x =>
    simp only [step]; split
    · split
      · rename_i hb
        simp only [List.any_eq_true, decide_eq_true_eq] at hb
        obtain ⟨i, h1, h2⟩ := hb
        exact absurd (h.low i h1) (by omega)
      · refine ⟨(by simp), fun s' e => ?_⟩
        simp only [Out.ok.injEq] at e; subst e
        refine ⟨fun i hm => ?_, h.low, h.none⟩
        have hb : Before ((if s.serverFd ∈ r then [.accept] else []) ++ (if s.clientFd ∈ r then [.client] else []) ++ [.checkAll r x]) := by
          split <;> split <;> simp [Before]
        simp only [(before_fds hb).1] at hm
        cases hm
    · exact ⟨(by simp), fun s' e => by cases e⟩
  | accepted o =>
    simp only [step]; split
    · rename_i rest ho
      have hbef : Before rest := by
        have := hi.shape
        rw [ho] at this
        rcases this with hh | hh
        · exact hh
        · cases hh
      split
      · refine ⟨(by simp), fun s' e => ?_⟩
        simp only [Out.ok.injEq] at e; subst e
        exact ⟨fun i hm => (by cases hm), h.low, h.none⟩
      · rename_i f
        split
        · refine ⟨(by simp), fun s' e => ?_⟩
          simp only [Out.ok.injEq] at e; subst e
          refine ⟨fun i hm => ?_, fun i hm => ?_, h.none⟩
          · simp only [(before_fds hbef).1] at hm
            cases hm
          · rcases List.mem_cons.1 hm with rfl | hm
            · exact hc.1
            · exact h.low i hm
        · exact ⟨(by simp), fun s' e => by cases e⟩
    · exact ⟨(by simp), fun s' e => by cases e⟩
  | next ok =>
    cases ho : s.ops with
    | nil => simp only [step, ho]; exact ⟨(by simp), fun s' e => by cases e⟩
    | cons op rest =>
      have hm := h.mine
      rw [ho] at hm
      simp only [step, ho]
      cases op with
      | accept => exact ⟨(by simp), fun s' e => by cases e⟩
      | client =>
        change (if ok = true ∧ s.table s.clientFd ≠ some .listen then Out.ok { s with ops := rest } else .ok { s with ops := rest, running := false, clientFd := 0 }) ≠ _ ∧
          ∀ s', (if ok = true ∧ s.table s.clientFd ≠ some .listen then Out.ok { s with ops := rest } else .ok { s with ops := rest, running := false, clientFd := 0 }) = .ok s' → Safe s'
        split
        · refine ⟨(by simp), fun s' e => ?_⟩
          simp only [Out.ok.injEq] at e; subst e
          exact ⟨hm, h.low, h.none⟩
        · refine ⟨(by simp), fun s' e => ?_⟩
          simp only [Out.ok.injEq] at e; subst e
          exact ⟨hm, h.low, h.none⟩
      | checkAll r x =>
        refine ⟨(by simp), fun s' e => ?_⟩
        simp only [Out.ok.injEq] at e; subst e
        refine ⟨fun i hh => ?_, h.low, h.none⟩
        simp only [closeFds_append, (map_check_fds s.conns (fun fd => decide (fd ∈ r)) (fun fd => decide (fd ∈ x))).1, List.nil_append] at hh
        exact hm i hh
      | check fd rd ex =>
        refine ⟨(by simp), fun s' e => ?_⟩
        simp only [Out.ok.injEq] at e; subst e
        refine ⟨fun i hh => ?_, h.low, h.none⟩
        have hfd : fd ∈ s.conns := by
          have := hi.checks.2 fd
          rw [ho] at this
          exact (this (List.mem_cons_self ..)).1
        change i ∈ closeFds ((if _ then [] else UnixFds.checks fd rd ex ok) ++ rest) at hh
        split at hh
        · exact hm i hh
        · rw [closeFds_append] at hh
          rcases List.mem_append.1 hh with hh | hh
          · cases (checks_fds fd rd ex ok).1 i hh
            exact hown _ hfd
          · exact hm i hh
      | close fd =>
        refine ⟨(by simp), fun s' e => ?_⟩
        simp only [Out.ok.injEq] at e
        rw [touch_safe (hm fd (List.mem_cons_self ..))] at e; subst e
        refine ⟨fun i hh m => ?_, fun i hh => h.low i (List.mem_filter.1 hh).1, h.none⟩
        simp only [setFd]; split
        · simp
        · exact hm i (List.mem_cons_of_mem _ hh) m
      | shutdown fd =>
        refine ⟨(by simp), fun s' e => ?_⟩
        simp only [Out.ok.injEq] at e
        rw [touch_safe (hm fd (List.mem_cons_self ..))] at e; subst e
        exact ⟨fun i hh m => hm i (List.mem_cons_of_mem _ hh) m, h.low, h.none⟩
  | stop =>
    simp only [step]; split
    · refine ⟨(by simp), fun s' e => ?_⟩
      simp only [Out.ok.injEq] at e; subst e
      exact ⟨h.mine, h.low, h.none⟩
    · exact ⟨(by simp), fun s' e => by cases e⟩
  | join =>
    simp only [step]; split
    · refine ⟨(by simp), fun s' e => ?_⟩
      simp only [Out.ok.injEq] at e; subst e
      exact ⟨fun i hh => hown i (((closing_fds s.conns).2.2 i).1 hh), h.low, h.none⟩
    · exact ⟨(by simp), fun s' e => by cases e⟩

theorem harmless_from {as : List Act} {s : State} (hi : Inv s) (h : Safe s) (hc : Calm s as) : run s as ≠ .ub ∧ ∀ s', run s as = .ok s' → s'.harmed = [] := by
  induction as generalizing s with
  | nil => exact ⟨(by simp [run]), fun s' e => by cases e; exact h.none⟩
  | cons a as ih =>
    obtain ⟨h1, h2⟩ := safe_step hi h hc
    simp only [run]
    split
    · rename_i t ht; exact ih (inv_step hi ht) (h2 t ht) (hc.2 t ht)
    · rename_i o hne
      refine ⟨fun hh => h1 hh, fun s' e => ?_⟩
      exact absurd e (hne s')

/-- Missing for the full property: files opened by other threads while a connection is being closed, and descriptors from 1024 on. -/
theorem harmless_partial {as : List Act} (hc : Calm {} as) : run {} as ≠ .ub ∧ ∀ s, run {} as = .ok s → s.harmed = [] :=
  harmless_from inv_init ⟨fun _ hm => (by cases hm), fun _ hm => (by cases hm), rfl⟩ hc

/-- While the destructor runs, every connection is still to be closed. -/
def Closing (s : State) : Prop := s.joined = true → s.started = true ∧ Within s.ops ∧ ∀ fd ∈ s.conns, Op.close fd ∈ s.ops

theorem closing_mem {fd : Nat} {l : List Nat} (h : fd ∈ l) : Op.close fd ∈ l.flatMap closing := List.mem_flatMap.2 ⟨fd, h, List.mem_cons_self ..⟩

theorem closing_step {s s' : State} (h : Closing s) {a : Act} (e : step s a = .ok s') : Closing s' := by
  cases a with
  | serve fd =>
    simp only [step] at e; split at e
    · rename_i hs
      simp only [Out.ok.injEq] at e; subst e
      intro hj
      rw [(h hj).1] at hs; cases hs.1
    · cases e
  | connect fd =>
    simp only [step] at e; split at e
    · rename_i hs
      simp only [Out.ok.injEq] at e; subst e
      intro hj
      rw [(h hj).1] at hs; cases hs.1
    · cases e
  | openOther n fd =>
    simp only [step] at e; split at e
    · simp only [Out.ok.injEq] at e; subst e; exact h
    · cases e
  | closeOther fd =>
    simp only [step] at e; split at e
    · simp only [Out.ok.injEq] at e; subst e; exact h
    · cases e
  | round r x =>
    simp only [step] at e; split at e
    · rename_i hc
      split at e
      · cases e
      · simp only [Out.ok.injEq] at e; subst e
        intro hj
        exact absurd (hc.2.1.symm.trans hj) (by decide)
    · cases e
  | accepted o =>
    simp only [step] at e; split at e
    · rename_i rest ho
      have hj : s.joined = false := by
        cases hj : s.joined with
        | false => rfl
        | true =>
          have := (h hj).2.1
          rw [ho] at this; cases this
      split at e
      · simp only [Out.ok.injEq] at e; subst e
        exact fun hh => absurd (hj.symm.trans hh) (by decide)
      · split at e
        · simp only [Out.ok.injEq] at e; subst e
          exact fun hh => absurd (hj.symm.trans hh) (by decide)
        · cases e
    · cases e
  | next ok =>
    cases ho : s.ops with
    | nil => simp only [step, ho] at e; cases e
    | cons op rest =>
      have hw := h
      unfold Closing at hw
      rw [ho] at hw
      simp only [step, ho] at e
      cases op with
      | accept => cases e
      | client =>
        change (if ok = true ∧ s.table s.clientFd ≠ some .listen then Out.ok { s with ops := rest } else .ok { s with ops := rest, running := false, clientFd := 0 }) = _ at e
        split at e
        · simp only [Out.ok.injEq] at e; subst e
          intro hj; cases (hw hj).2.1
        · simp only [Out.ok.injEq] at e; subst e
          intro hj; cases (hw hj).2.1
      | checkAll r x =>
        simp only [Out.ok.injEq] at e; subst e
        intro hj; cases (hw hj).2.1
      | check fd rd ex =>
        simp only [Out.ok.injEq] at e; subst e
        intro hj
        obtain ⟨h1, h2, h3⟩ := hw hj
        refine ⟨h1, ?_, fun i hi => List.mem_append_right _ ?_⟩
        · refine (within_append _ _).2 ⟨?_, h2⟩
          split
          · trivial
          · exact (checks_fds fd rd ex ok).2.2
        · rcases List.mem_cons.1 (h3 i hi) with hh | hh
          · cases hh
          · exact hh
      | close fd =>
        simp only [Out.ok.injEq] at e; subst e
        obtain ⟨t1, t2, t3, t4, _, _, _, t8⟩ := touch_eq s fd
        intro hj
        obtain ⟨h1, h2, h3⟩ := hw (t8.symm.trans hj)
        refine ⟨t4.trans h1, h2, fun i hi => ?_⟩
        obtain ⟨hi, hne⟩ := List.mem_filter.1 hi
        rcases List.mem_cons.1 (h3 i hi) with hh | hh
        · cases hh; simp at hne
        · exact hh
      | shutdown fd =>
        simp only [Out.ok.injEq] at e; subst e
        obtain ⟨t1, t2, t3, t4, _, _, _, t8⟩ := touch_eq s fd
        intro hj
        obtain ⟨h1, h2, h3⟩ := hw (t8.symm.trans hj)
        refine ⟨t4.trans h1, h2, fun i hi => ?_⟩
        change i ∈ (touch s fd).conns at hi
        rw [t2] at hi
        rcases List.mem_cons.1 (h3 i hi) with hh | hh
        · cases hh
        · exact hh
  | stop =>
    simp only [step] at e; split at e
    · simp only [Out.ok.injEq] at e; subst e; exact h
    · cases e
  | join =>
    simp only [step] at e; split at e
    · rename_i hc
      simp only [Out.ok.injEq] at e; subst e
      exact fun _ => ⟨hc.1, (closing_fds s.conns).2.1, fun i hi => closing_mem hi⟩
    · cases e

theorem closing_run {as : List Act} {s s' : State} (h : Closing s) (e : run s as = .ok s') : Closing s' := by
  induction as generalizing s with
  | nil => cases e; exact h
  | cons a as ih =>
    simp only [run] at e
    split at e
    · rename_i t ht; exact ih (closing_step h ht) e
    · rename_i o hne; exact absurd e (hne s')

/-- When the destructor has returned, no socket of the transport is open, whatever happened. -/
theorem no_leak {as : List Act} {s : State} (e : run {} as = .ok s) (hj : s.joined = true) (ho : s.ops = []) : ∀ fd f, s.table fd = some f → f.own = false := by
  intro fd f hf
  cases hown : f.own with
  | false => rfl
  | true =>
    have h1 := ((inv_run inv_init e).own fd).2 ⟨f, hf, hown⟩
    have h2 := (closing_run (s := {}) (fun hh => (by cases hh)) e hj).2.2 fd h1
    rw [ho] at h2; cases h2

/-- How much an operation may lead to. -/
def weight (n : Nat) : Op → Nat
  | .checkAll _ _ => 1 + 3 * n
  | .check _ _ _ => 3
  | _ => 1

def weights (n : Nat) : List Op → Nat
  | [] => 0
  | o :: l => weight n o + weights n l

theorem weights_append (n : Nat) (a b : List Op) : weights n (a ++ b) = weights n a + weights n b := by
  induction a with
  | nil => simp [weights]
  | cons o a ih => simp only [List.cons_append, weights, ih]; omega

theorem weights_mono {m n : Nat} (h : m ≤ n) (l : List Op) : weights m l ≤ weights n l := by
  induction l with
  | nil => exact Nat.le_refl _
  | cons o l ih =>
    have : weight m o ≤ weight n o := by cases o <;> simp only [weight] <;> omega
    simp only [weights]; omega

theorem weights_checks (n : Nat) (l : List Nat) (f g : Nat → Bool) : weights n (l.map fun fd => .check fd (f fd) (g fd)) = 3 * l.length := by
  induction l with
  | nil => rfl
  | cons a l ih => simp only [List.map_cons, weights, weight, ih, List.length_cons]; omega

/-- The worker gets to the end of what it does, and so does the destructor. -/
theorem drain (n : Nat) : ∀ s : State, weights s.conns.length s.ops ≤ n → ∃ bs s', run s bs = .ok s' ∧ s'.ops = [] ∧ s'.joined = s.joined ∧ s'.started = s.started ∧
    (s.running = false → s'.running = false) := by
  induction n with
  | zero =>
    intro s h
    refine ⟨[], s, rfl, ?_, rfl, rfl, id⟩
    cases ho : s.ops with
    | nil => rfl
    | cons o l => rw [ho] at h; cases o <;> simp [weights, weight] at h
  | succ n ih =>
    intro s h
    have go : ∀ (a : Act) (t : State), step s a = .ok t → weights t.conns.length t.ops ≤ n → t.joined = s.joined → t.started = s.started → (s.running = false → t.running = false) →
        ∃ bs s', run s bs = .ok s' ∧ s'.ops = [] ∧ s'.joined = s.joined ∧ s'.started = s.started ∧ (s.running = false → s'.running = false) := by
      intro a t ht hw h1 h2 h3
      obtain ⟨bs, s', e, k1, k2, k3, k4⟩ := ih t hw
      exact ⟨a :: bs, s', by simp only [run, ht]; exact e, k1, k2.trans h1, k3.trans h2, fun h => k4 (h3 h)⟩
    cases ho : s.ops with
    | nil => exact ⟨[], s, rfl, ho, rfl, rfl, id⟩
    | cons o rest =>
      rw [ho] at h
      cases o with
      | accept => exact go (.accepted none) { s with ops := [] } (by simp only [step, ho]) (Nat.zero_le _) rfl rfl id
      | client =>
        refine go (.next false) { s with ops := rest, running := false, clientFd := 0 } (by simp [step, ho]) ?_ rfl rfl fun _ => rfl
        simp only [weights, weight] at h ⊢
        omega
      | checkAll r x =>
        refine go (.next true) { s with ops := (s.conns.map fun fd => .check fd (decide (fd ∈ r)) (decide (fd ∈ x))) ++ rest } (by simp only [step, ho]) ?_ rfl rfl id
        simp only [weights, weight] at h
        simp only [weights_append]
        rw [weights_checks s.conns.length s.conns (fun fd => decide (fd ∈ r)) (fun fd => decide (fd ∈ x))]
        omega
      | check fd r x =>
        refine go (.next true) { s with ops := (if fd = s.serverFd ∨ fd = s.clientFd then [] else checks fd r x true) ++ rest } (by simp only [step, ho]) ?_ rfl rfl id
        simp only [weights, weight] at h
        simp only [weights_append]
        have : weights s.conns.length (if fd = s.serverFd ∨ fd = s.clientFd then [] else checks fd r x true) ≤ 2 := by
          split
          · exact Nat.zero_le _
          · cases r <;> cases x <;> simp [UnixFds.checks, closing, weights, weight]
        omega
      | close fd =>
        have ht := touch_eq s fd
        refine go (.next true) { setFd (touch s fd) fd none with conns := s.conns.filter (· != fd), ops := rest } (by simp only [step, ho]) ?_ ?_ ?_ ?_
        · simp only [weights, weight] at h
          have := weights_mono (List.length_filter_le (· != fd) s.conns) rest
          simp only
          omega
        all_goals unfold touch; split <;> first | rfl | exact id
      | shutdown fd =>
        have ht := touch_eq s fd
        refine go (.next true) { touch s fd with ops := rest } (by simp only [step, ho]) ?_ ?_ ?_ ?_
        · simp only [weights, weight] at h
          simp only [ht.2.1]
          omega
        all_goals unfold touch; split <;> first | rfl | exact id

/-- **C99, the destructor.** Whatever happened, the destructor of a transport can be run to its end, and then no socket of the transport is open. -/
theorem destructor_closes (as : List Act) (s : State) (e : run {} as = .ok s) (hs : s.started = true) :
    ∃ bs s', run s bs = .ok s' ∧ s'.joined = true ∧ s'.ops = [] ∧ ∀ fd f, s'.table fd = some f → f.own = false := by
  have fin : ∀ bs s', run s bs = .ok s' → s'.joined = true → s'.ops = [] → ∃ bs s', run s bs = .ok s' ∧ s'.joined = true ∧ s'.ops = [] ∧ ∀ fd f, s'.table fd = some f → f.own = false :=
    fun bs s' h h1 h2 => ⟨bs, s', h, h1, h2, no_leak (as := as ++ bs) (by rw [run_append, e]; exact h) h1 h2⟩
  cases hj : s.joined with
  | true =>
    obtain ⟨bs, s', h1, h2, h3, _⟩ := drain _ s (Nat.le_refl _)
    exact fin bs s' h1 (h3.trans hj) h2
  | false =>
    have h0 : step s .stop = .ok { s with running := false } := by simp only [step]; rw [if_pos ⟨hs, hj⟩]
    obtain ⟨bs, t, h1, h2, h3, h4, h5⟩ := drain _ { s with running := false } (Nat.le_refl _)
    have hjt : step t .join = .ok { t with joined := true, ops := t.conns.flatMap closing } := by
      simp only [step]
      rw [if_pos ⟨h4.trans hs, h3.trans hj, h5 rfl, h2⟩]
    obtain ⟨cs, u, k1, k2, k3, _⟩ := drain _ { t with joined := true, ops := t.conns.flatMap closing } (Nat.le_refl _)
    refine fin (.stop :: (bs ++ .join :: cs)) u ?_ k3 k2
    simp only [run, h0]
    rw [run_append, h1]
    simp only [run, hjt]
    exact k1

/-! ### The hypotheses can be met -/

/-- A server with a client, which ends; another thread opens and closes files; the server is destroyed. -/
def story : List Act := [.openOther 1 0, .serve 3, .openOther 2 4, .round [3] [], .accepted (some 5), .next true, .next true, .next true, .closeOther 4, .round [5] [], .next true, .next false, .next true, .next true,
  .next true, .openOther 9 5, .stop, .join, .next true, .next true]

example : Calm {} story ∧ ∃ s, run {} story = .ok s ∧ s.joined = true ∧ s.ops = [] ∧ s.table 5 = some (.other 9) ∧ s.table 3 = none := by
  refine ⟨?_, _, rfl, rfl, rfl, rfl, rfl⟩
  simp only [story, Calm]
  repeat' (first | exact trivial | apply And.intro | (intro s h; cases h) | decide | rfl)

/-- Before the connection of `story` is closed. -/
example : ∃ s rest, run {} (story.take 12) = .ok s ∧ s.ops = .close 5 :: .shutdown 5 :: rest ∧ ∃ f, s.table 5 = some f ∧ f.own = true := ⟨_, _, rfl, rfl, _, rfl, rfl⟩

example : ∃ s, run {} [.serve 1500] = .ok s ∧ s.running = true ∧ s.joined = false ∧ s.ops = [] ∧ 1500 ∈ s.conns := ⟨_, rfl, rfl, rfl, rfl, by simp [setFd]⟩

end Scalopus.C99

namespace Scalopus.C100

open UnixFds C99

/-- The full property: a server works until it is destroyed, and a transport that was created says that it is connected, whatever descriptors it is given. -/
def Works : Prop := ∀ fd as s, run {} (.serve fd :: as) = .ok s → .stop ∉ as → s.running = true ∧ isConnected s = true

/-- **C100 (negation).** A server whose socket is descriptor 0 stops when the first client connects: 0 also stands for "no connection to a server", and it tries to read a message from its own socket. -/
theorem server_on_zero (as : List Act) (s : State) (h : run {} as = .ok s) (hr : s.running = true) (hj : s.joined = false) (ho : s.ops = []) (h1 : s.serverFd = 0) (h2 : s.clientFd = 0)
    (h3 : 0 ∈ s.conns) (h4 : s.table 0 = some .listen) (hlow : ∀ fd ∈ s.conns, fd < 1024) (f : Nat) (hf : s.table f = none) (ok : Bool) :
    ∃ s', run {} (as ++ [.round [0] [], .accepted (some f), .next ok]) = .ok s' ∧ s'.running = false ∧ isConnected s' = false := by
  have hany : s.conns.any (1024 ≤ ·) = false := by
    rw [List.any_eq_false]; intro x hx; have := hlow x hx; simp; omega
  have hf0 : f ≠ 0 := fun hh => by rw [hh, h4] at hf; cases hf
  refine ⟨{ setFd s f (some .conn) with conns := f :: s.conns, ops := [.checkAll [0] []], running := false, clientFd := 0 }, ?_, rfl, by simp [isConnected, setFd, h1]⟩
  rw [run_append, h]
  simp [run, step, hr, hj, ho, h1, h2, h3, hany, hf, h4, setFd, hf0.symm]

/-- **C100 (negation).** A server that is given descriptor 0 for a client stops when that client goes. -/
theorem client_on_zero (as : List Act) (s : State) (h : run {} as = .ok s) (hr : s.running = true) (hj : s.joined = false) (ho : s.ops = []) (h1 : s.serverFd ≠ 0) (h2 : s.clientFd = 0)
    (h3 : 0 ∈ s.conns) (hlow : ∀ fd ∈ s.conns, fd < 1024) : ∃ s', run {} (as ++ [.round [0] [], .next false]) = .ok s' ∧ s'.running = false := by
  have hany : s.conns.any (1024 ≤ ·) = false := by
    rw [List.any_eq_false]; intro x hx; have := hlow x hx; simp; omega
  refine ⟨{ s with ops := [.checkAll [0] []], running := false, clientFd := 0 }, ?_, rfl⟩
  rw [run_append, h]
  simp [run, step, hr, hj, ho, h1, h2, h3, hany]

/-- **C100 (negation).** A client that is given descriptor 0 says at once that it is not connected, although it is. -/
theorem connected_on_zero : ∃ s, run {} [.connect 0] = .ok s ∧ s.running = true ∧ s.table 0 = some .client ∧ isConnected s = false := ⟨_, rfl, rfl, rfl, rfl⟩

/-- It is so for every client that is given descriptor 0, whatever the process has done. -/
theorem connected_on_zero_always (s : State) (hs : s.started = false) (h0 : s.table 0 = none) (h1 : s.serverFd = 0) :
    ∃ s', run s [.connect 0] = .ok s' ∧ s'.running = true ∧ s'.table 0 = some .client ∧ isConnected s' = false := by
  refine ⟨_, by simp [run, step, hs, h0]; rfl, rfl, ?_, ?_⟩
  · simp [setFd]
  · simp [isConnected, setFd, h1]

example : ∃ s, run {} [.openOther 1 3] = .ok s ∧ s.started = false ∧ s.table 0 = none ∧ s.serverFd = 0 := ⟨_, rfl, rfl, rfl, rfl⟩

/-- A server with a client on descriptor 4, which is reported as readable and exceptional. -/
example : ∃ s, run {} [.serve 3, .round [3] [], .accepted (some 4), .next true, .next true, .next true, .round [4] [4], .next true] = .ok s ∧ s.ops = [.check 4 true true, .check 3 false false] ∧
    4 ≠ s.serverFd ∧ 4 ≠ s.clientFd ∧ ∃ f, s.table 4 = some f ∧ f.own = true := ⟨_, rfl, rfl, by decide, by decide, .conn, rfl, rfl⟩

theorem not_Works : ¬ Works := fun h => by
  have := (h 0 [.round [0] [], .accepted (some 4), .next true] _ rfl (by decide)).1
  cases this

/-- Descriptor 0 belongs to others. -/
structure Held (s : State) : Prop where
  zero : ∃ n, s.table 0 = some (.other n)
  stay : 0 ∉ closeFds s.ops
  server : s.serverFd ≠ 0
  client : s.clientFd = 0
  none : Op.client ∉ s.ops
  run : s.running = true
  started : s.started = true

theorem zero_not_conn {s : State} (hi : Inv s) (h : Held s) : 0 ∉ s.conns := fun hm => by
  obtain ⟨f, h1, h2⟩ := (hi.own 0).1 hm
  obtain ⟨n, hn⟩ := h.zero
  rw [hn] at h1; cases h1; cases h2

theorem held_step {s s' : State} (hi : Inv s) (h : Held s) {a : Act} (ha : a ≠ .stop) (hz : a ≠ .closeOther 0) (e : step s a = .ok s') : Held s' := by
  obtain ⟨n, hn⟩ := h.zero
  have h0 := zero_not_conn hi h
  cases a with
  | serve fd => simp only [step, h.started] at e; simp at e
  | connect fd => simp only [step, h.started] at e; simp at e
  | openOther m fd =>
    simp only [step] at e; split at e
    · rename_i hf
      simp only [Out.ok.injEq] at e; subst e
      refine ⟨⟨n, ?_⟩, h.stay, h.server, h.client, h.none, h.run, h.started⟩
      simp only [setFd]; split
      · rename_i hh; rw [← hh, hn] at hf; cases hf
      · exact hn
    · cases e
  | closeOther fd =>
    simp only [step] at e; split at e
    · simp only [Out.ok.injEq] at e; subst e
      refine ⟨⟨n, ?_⟩, h.stay, h.server, h.client, h.none, h.run, h.started⟩
      simp only [setFd]; split
      · rename_i hh; exact absurd (by rw [hh]) hz
      · exact hn
    · cases e
  | round r x =>
    simp only [step] at e; split at e
    · rename_i hc
      split at e
      · cases e
      · simp only [Out.ok.injEq] at e; subst e
        have hcl : ¬ s.clientFd ∈ r := fun hh => by rw [h.client] at hh; exact h0 (hc.2.2.2.1 hh)
        rw [if_neg hcl]
        refine ⟨⟨n, hn⟩, ?_, h.server, h.client, ?_, h.run, h.started⟩
        · show 0 ∉ closeFds _
          split <;> simp [closeFds]
        · show Op.client ∉ _
          split <;> simp
    · cases e
  | accepted o =>
    simp only [step] at e; split at e
    · rename_i rest ho
      have hst := h.stay
      have hno := h.none
      rw [ho] at hst hno
      split at e
      · simp only [Out.ok.injEq] at e; subst e
        exact ⟨⟨n, hn⟩, by simp [closeFds], h.server, h.client, by simp, h.run, h.started⟩
      · rename_i f
        split at e
        · rename_i hf
          simp only [Out.ok.injEq] at e; subst e
          refine ⟨⟨n, ?_⟩, hst, h.server, h.client, fun hh => hno (List.mem_cons_of_mem _ hh), h.run, h.started⟩
          simp only [setFd]; split
          · rename_i hh; rw [← hh, hn] at hf; cases hf.1
          · exact hn
        · cases e
    · cases e
  | next ok =>
    cases ho : s.ops with
    | nil => simp only [step, ho] at e; cases e
    | cons op rest =>
      have hst := h.stay
      have hno := h.none
      rw [ho] at hst hno
      have hno' : Op.client ∉ rest := fun hh => hno (List.mem_cons_of_mem _ hh)
      simp only [step, ho] at e
      cases op with
      | accept => cases e
      | client => exact absurd (List.mem_cons_self ..) hno
      | checkAll r x =>
        simp only [Out.ok.injEq] at e; subst e
        refine ⟨⟨n, hn⟩, ?_, h.server, h.client, ?_, h.run, h.started⟩
        · simp only [closeFds_append, (map_check_fds s.conns (fun fd => decide (fd ∈ r)) (fun fd => decide (fd ∈ x))).1, List.nil_append]
          exact hst
        · simp only [List.mem_append, List.mem_map, not_or]
          exact ⟨by simp, hno'⟩
      | check fd rd ex =>
        simp only [Out.ok.injEq] at e; subst e
        have hfd : fd ∈ s.conns := by
          have := hi.checks.2 fd
          rw [ho] at this
          exact (this (List.mem_cons_self ..)).1
        refine ⟨⟨n, hn⟩, ?_, h.server, h.client, ?_, h.run, h.started⟩
        · show 0 ∉ closeFds _
          rw [closeFds_append]
          split
          · exact hst
          · intro hh
            rcases List.mem_append.1 hh with hh | hh
            · rw [← (checks_fds fd rd ex ok).1 0 hh] at hfd; exact h0 hfd
            · exact hst hh
        · show Op.client ∉ _
          split
          · exact hno'
          · intro hh
            rcases List.mem_append.1 hh with hh | hh
            · simp [UnixFds.checks, closing] at hh
            · exact hno' hh
      | close fd =>
        simp only [Out.ok.injEq] at e; subst e
        obtain ⟨t1, t2, t3, t4, t5, t6, t7, _⟩ := touch_eq s fd
        simp only [closeFds, List.mem_cons, not_or] at hst
        refine ⟨⟨n, ?_⟩, hst.2, by simpa [setFd, t5] using h.server, by simpa [setFd, t6] using h.client, hno', by simpa [setFd, t7] using h.run, by simpa [setFd, t4] using h.started⟩
        simp only [setFd, t1]
        rw [if_neg hst.1]; exact hn
      | shutdown fd =>
        simp only [Out.ok.injEq] at e; subst e
        obtain ⟨t1, t2, t3, t4, t5, t6, t7, _⟩ := touch_eq s fd
        simp only [closeFds, List.mem_cons, not_or] at hst
        exact ⟨⟨n, by rw [← hn]; exact congrFun t1 0⟩, hst.2, by simpa [t5] using h.server, by simpa [t6] using h.client, hno', by simpa [t7] using h.run, by simpa [t4] using h.started⟩
  | stop => exact absurd rfl ha
  | join =>
    simp only [step, h.run] at e; simp at e

theorem held_run {as : List Act} {s s' : State} (hi : Inv s) (h : Held s) (ha : .stop ∉ as) (hz : .closeOther 0 ∉ as) (e : run s as = .ok s') : Held s' := by
  induction as generalizing s with
  | nil => cases e; exact h
  | cons a as ih =>
    simp only [List.mem_cons, not_or] at ha hz
    simp only [run] at e
    split at e
    · rename_i t ht; exact ih (inv_step hi ht) (held_step hi h (Ne.symm ha.1) (Ne.symm hz.1) ht) ha.2 hz.2 e
    · rename_i o hne; exact absurd e (hne s')

/-- **C100.** While descriptor 0 is open for something else, as it is in most processes, a server works until it is destroyed.
Missing for the full property: processes in which descriptor 0 is, or becomes, free. -/
theorem works_partial (n fd : Nat) (as : List Act) (s : State) (h : run {} (.openOther n 0 :: .serve fd :: as) = .ok s) (hs : .stop ∉ as) (hz : .closeOther 0 ∉ as) :
    s.running = true ∧ isConnected s = true := by
  have key : ∃ t, run {} [.openOther n 0, .serve fd] = .ok t ∧ run t as = .ok s := by
    have := run_append [.openOther n 0, .serve fd] as {}
    rw [show [Act.openOther n 0, .serve fd] ++ as = .openOther n 0 :: .serve fd :: as from rfl, h] at this
    cases ht : run {} [.openOther n 0, .serve fd] with
    | ok t => rw [ht] at this; exact ⟨t, rfl, this.symm⟩
    | no => rw [ht] at this; cases this
    | ub => rw [ht] at this; cases this
  obtain ⟨t, h1, h2⟩ := key
  have hi := inv_run inv_init h1
  have ht : Held t := by
    simp only [run, step, setFd, if_true] at h1
    split at h1
    · rename_i u hu
      cases h1
      split at hu
      · cases hu
      · rename_i hne
        cases hu
        exact ⟨⟨n, by simp [Ne.symm hne]⟩, by simp [closeFds], hne, rfl, by simp, rfl, rfl⟩
    · rename_i hne; exact absurd h1 (hne t)
  have := held_run hi ht hs hz h2
  exact ⟨this.run, by simp [isConnected, this.server]⟩

/-- The hypotheses can be met: the server of `C99.story`, before it is stopped; a server on descriptor 0; and one with a client on descriptor 0. -/
example : ∃ s, run {} (.openOther 1 0 :: .serve 3 :: (C99.story.take 16).drop 2) = .ok s ∧ .stop ∉ (C99.story.take 16).drop 2 ∧ .closeOther 0 ∉ (C99.story.take 16).drop 2 := ⟨_, rfl, by decide, by decide⟩

example : ∃ s, run {} [.serve 0] = .ok s ∧ s.running = true ∧ s.joined = false ∧ s.ops = [] ∧ s.serverFd = 0 ∧ s.clientFd = 0 ∧ 0 ∈ s.conns ∧ s.table 0 = some .listen ∧ (∀ fd ∈ s.conns, fd < 1024) ∧
    s.table 4 = none := ⟨_, rfl, rfl, rfl, rfl, rfl, rfl, by simp, rfl, by simp, rfl⟩

example : ∃ s, run {} [.serve 3, .round [3] [], .accepted (some 0), .next true, .next true, .next true] = .ok s ∧ s.running = true ∧ s.joined = false ∧ s.ops = [] ∧ s.serverFd ≠ 0 ∧ s.clientFd = 0 ∧
    0 ∈ s.conns ∧ ∀ fd ∈ s.conns, fd < 1024 := ⟨_, rfl, rfl, rfl, rfl, by simp [setFd], rfl, by simp, by simp⟩

end Scalopus.C100
