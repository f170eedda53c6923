import Verif.Proofs.UnixThreads

/-!
# Threads that use a unix transport get on

From every state in which the threads keep to the rules of the mutexes, each mutex can be made free, by the threads that hold it; so each thread can finish the call it is in.
-/

namespace Scalopus.UnixThreads

/-- What holds in every state that is reachable when the transport is used properly and endpoints make only light calls in `unsolicited`. -/
def Good (s : State) : Prop := LockInv true s ∧ WhoInv s

/-- Steps of threads in the calls they are in; endpoints that are called make no calls, and nothing new arrives. -/
inductive Path : State → State → Prop
  | refl (s : State) : Path s s
  | head {s s1 s' : State} (t : Nat) : step s (.exec t [] {}) = some s1 → Path s1 s' → Path s s'

theorem Path.trans {s s1 s2 : State} (h1 : Path s s1) (h2 : Path s1 s2) : Path s s2 := by
  induction h1 with
  | refl => exact h2
  | head t e _ ih => exact .head t e (ih h2)

theorem Path.leads {s s' : State} (h : Path s s') : Hangs.Leads s s' := by
  induction h with
  | refl => exact ⟨[], rfl⟩
  | head t e _ ih =>
    obtain ⟨as, ha⟩ := ih
    refine ⟨.exec t [] {} :: as, ?_⟩
    rw [List.foldlM_cons, e]
    exact ha

theorem good_step {s s' : State} {t : Nat} (h : Good s) (e : step s (.exec t [] {}) = some s') : Good s' :=
  ⟨lockInv_exec h.1 (fun _ _ c hc => by cases hc) e, whoInv_exec h.2 (fun c hc => by cases hc) e⟩

/-- A step that need not wait. -/
def Op.goes (running : Bool) : Op → Bool
  | .lock _ | .join => false
  | .loop => !running
  | _ => true

/-- What one step of thread `t` leaves as it is. -/
structure Kept (t : Nat) (s s' : State) : Prop where
  ops : ∀ u, u ≠ t → s'.ops u = s.ops u
  held : ∀ u, u ≠ t → hs s' u = hs s u
  running : s.running = false → s'.running = false

theorem goes_step {s : State} (h : Good s) {t : Nat} {o : Op} {rest : List Op} (e : s.ops t = o :: rest) (ho : o.goes s.running = true) :
    ∃ s', step s (.exec t [] {}) = some s' ∧ s'.ops t = rest ∧ Kept t s s' ∧ ((∀ m, o ≠ .unlock m) → hs s' t = hs s t) ∧ (∀ m, o = .unlock m → hs s' t = up (hs s t) m false) := by
  have hf := h.2.fine
  have keep : ∀ s' : State, s'.ops = (s.set t rest).ops → s'.holder = s.holder → (s.running = false → s'.running = false) → (∀ m, o ≠ .unlock m) →
      step s (.exec t [] {}) = some s' →
      ∃ s', step s (.exec t [] {}) = some s' ∧ s'.ops t = rest ∧ Kept t s s' ∧ ((∀ m, o ≠ .unlock m) → hs s' t = hs s t) ∧ (∀ m, o = .unlock m → hs s' t = up (hs s t) m false) := by
    intro s' h1 h2 h3 h4 e'
    refine ⟨s', e', by rw [h1]; simp, ⟨fun u hu => by rw [h1, set_ops, if_neg hu], fun u _ => by funext m; simp [hs, h2], h3⟩, fun _ => by funext m; simp [hs, h2], fun m hm => absurd hm (h4 m)⟩
  cases o with
  | lock m => cases ho
  | join => cases ho
  | unlock m =>
    have hl := h.1 t
    rw [e] at hl
    refine ⟨(s.set t rest).hold m none, by simp [step, hf, e, exec], by simp, ⟨fun u hu => by simp [hu], fun u hu => ?_, fun h => h⟩, fun hn => absurd rfl (hn m), ?_⟩
    · exact (hs_other (s := s.set t rest) hu (Or.inl rfl) (Or.inr (hs_iff.mp hl.1))).trans rfl
    · intro m' hm'
      cases hm'
      funext y; simp only [hs, hold_holder, up, set_holder]; split <;> simp
  | loop =>
    have hr : s.running = false := by simpa [Op.goes] using ho
    exact keep (s.set t rest) rfl rfl (fun h => h) (by simp) (by simp [step, hf, e, exec, hr])
  | handle => exact keep (s.set t rest) rfl rfl (fun h => h) (by simp) (by simp [step, hf, e, exec])
  | unsolicited => exact keep (s.set t rest) rfl rfl (fun h => h) (by simp) (by simp [step, hf, e, exec])
  | clearRunning => exact keep { s.set t rest with running := false } rfl rfl (fun _ => rfl) (by simp) (by simp [step, hf, e, exec])
  | read v => exact keep (s.set t rest) rfl rfl (fun h => h) (by simp) (by simp [step, hf, e, exec])
  | write v => exact keep (s.set t rest) rfl rfl (fun h => h) (by simp) (by simp [step, hf, e, exec])
  | lookup => exact keep (s.set t rest) rfl rfl (fun h => h) (by simp) (by simp [step, hf, e, exec])
  | closeAll => exact keep (s.set t rest) rfl rfl (fun h => h) (by simp) (by simp [step, hf, e, exec])

theorem lock_step {s : State} (h : Good s) {t : Nat} {m : Mutex} {rest : List Op} (e : s.ops t = .lock m :: rest) (hm : s.holder m = none) :
    ∃ s', step s (.exec t [] {}) = some s' ∧ s'.ops t = rest ∧ Kept t s s' ∧ hs s' t = up (hs s t) m true := by
  refine ⟨(s.set t rest).hold m (some t), by simp [step, h.2.fine, e, exec, hm], by simp, ⟨fun u hu => by simp [hu], fun u hu => ?_, fun h => h⟩, ?_⟩
  · exact (hs_other (s := s.set t rest) hu (Or.inr rfl) (Or.inl hm)).trans rfl
  · funext y; simp only [hs, hold_holder, up, set_holder]; split <;> simp

/-- Thread `u` holds only mutexes that come before `m`. -/
def Below (s : State) (m : Mutex) (u : Nat) : Prop := ∀ m', hs s u m' = true → rank m' < rank m

/-- The threads that hold only mutexes before `m` were left as they were. -/
structure Frame (m : Mutex) (s s' : State) : Prop where
  ops : ∀ u, Below s m u → s'.ops u = s.ops u
  held : ∀ u, Below s m u → hs s' u = hs s u
  running : s.running = false → s'.running = false

theorem Frame.trans {m : Mutex} {s s1 s2 : State} (h1 : Frame m s s1) (h2 : Frame m s1 s2) : Frame m s s2 where
  ops := fun u hu => (h2.ops u (fun m' hm => hu m' (by rw [← h1.held u hu]; exact hm))).trans (h1.ops u hu)
  held := fun u hu => (h2.held u (fun m' hm => hu m' (by rw [← h1.held u hu]; exact hm))).trans (h1.held u hu)
  running := fun h => h2.running (h1.running h)

theorem Frame.weaken {m m2 : Mutex} {s s' : State} (h : Frame m2 s s') (hr : rank m ≤ rank m2) : Frame m s s' where
  ops := fun u hu => h.ops u (fun m' hm => Nat.lt_of_lt_of_le (hu m' hm) hr)
  held := fun u hu => h.held u (fun m' hm => Nat.lt_of_lt_of_le (hu m' hm) hr)
  running := h.running

theorem Kept.frame {m : Mutex} {t : Nat} {s s' : State} (h : Kept t s s') (ht : hs s t m = true) : Frame m s s' := by
  have ne : ∀ u, Below s m u → u ≠ t := by
    rintro u hu rfl
    exact Nat.lt_irrefl _ (hu m ht)
  exact ⟨fun u hu => h.ops u (ne u hu), fun u hu => h.held u (ne u hu), h.running⟩

/-- Every mutex can be made free. -/
theorem frees : ∀ (k : Nat) (m : Mutex), 4 - rank m ≤ k → ∀ s, Good s → ∃ s', Path s s' ∧ Good s' ∧ s'.holder m = none ∧ Frame m s s' := by
  intro k
  induction k with
  | zero => intro m hk; cases m <;> simp [rank] at hk
  | succ k ih =>
    intro m hk
    -- by the length of what the holder has to do
    have inner : ∀ (n : Nat) (s : State) (t : Nat), (s.ops t).length = n → Good s → s.holder m = some t → ∃ s', Path s s' ∧ Good s' ∧ s'.holder m = none ∧ Frame m s s' := by
      intro n
      induction n with
      | zero =>
        intro s t hn hg ht
        have h0 : s.ops t = [] := List.length_eq_zero_iff.mp hn
        have := free_of_nil hg.1 h0
        have h1 := hs_iff.mpr ht
        rw [this] at h1
        cases h1
      | succ n ihn =>
        intro s t hn hg ht
        cases e : s.ops t with
        | nil => rw [e] at hn; cases hn
        | cons o rest =>
          have hlen : rest.length = n := by rw [e] at hn; simpa using hn
          have hm := hs_iff.mpr ht
          have hl := hg.1 t
          rw [e] at hl
          have nfree : hs s t ≠ free := by intro hf; rw [hf] at hm; cases hm
          -- a step that does not wait and keeps the mutex
          have go : o.goes s.running = true → (o ≠ .unlock m) → ∃ s', Path s s' ∧ Good s' ∧ s'.holder m = none ∧ Frame m s s' := by
            intro ho hne
            obtain ⟨s1, e1, h1, k1, h2, h3⟩ := goes_step hg e ho
            have hm1 : hs s1 t m = true := by
              by_cases hu : ∃ m', o = .unlock m'
              · obtain ⟨m', rfl⟩ := hu
                rw [h3 m' rfl]
                simp only [up]
                rw [if_neg (fun h => hne (by rw [h]))]
                exact hm
              · rw [h2 (fun m' h => hu ⟨m', h⟩)]
                exact hm
            obtain ⟨s2, p2, g2, f2, k2⟩ := ihn s1 t (by rw [h1]; exact hlen) (good_step hg e1) (hs_iff.mp hm1)
            exact ⟨s2, .head t e1 p2, g2, f2, (k1.frame hm).trans k2⟩
          cases o with
          | lock m2 =>
            rcases hl with ⟨_, hx⟩ | ⟨hf2, hr, _⟩
            · cases hx
            · have hlt := hr m hm
              have hk2 : 4 - rank m2 ≤ k := by
                have : rank m2 ≤ 3 := by cases m2 <;> decide
                omega
              obtain ⟨s1, p1, g1, f1, k1⟩ := ih m2 hk2 s hg
              have ho1 := k1.ops t hr
              have hh1 := k1.held t hr
              obtain ⟨s2, e2, h2, k2, hh2⟩ := lock_step g1 (ho1.trans e) f1
              have hm1 : hs s1 t m = true := by rw [hh1]; exact hm
              have hm2 : hs s2 t m = true := by
                rw [hh2]
                simp only [up]
                split
                · rfl
                · exact hm1
              obtain ⟨s3, p3, g3, f3, k3⟩ := ihn s2 t (by rw [h2]; exact hlen) (good_step g1 e2) (hs_iff.mp hm2)
              exact ⟨s3, p1.trans (.head t e2 p3), g3, f3, (k1.weaken (Nat.le_of_lt hlt)).trans ((k2.frame hm1).trans k3)⟩
          | unlock m2 =>
            by_cases hmm : m2 = m
            · subst hmm
              obtain ⟨s1, e1, h1, k1, _, h3⟩ := goes_step hg e rfl
              refine ⟨s1, .head t e1 (.refl _), good_step hg e1, ?_, k1.frame hm⟩
              have : s1 = (s.set t rest).hold m2 none := by
                simp [step, hg.2.fine, e, exec] at e1
                exact e1.symm
              rw [this]; simp
            · exact go rfl (by simpa using hmm)
          | join => exact absurd (hl.1 rfl) nfree
          | loop => exact absurd hl.1 nfree
          | _ => exact go rfl (by simp)
    intro s hg
    cases ht : s.holder m with
    | none => exact ⟨s, .refl s, hg, ht, ⟨fun _ _ => rfl, fun _ _ => rfl, fun h => h⟩⟩
    | some t => exact inner _ s t rfl hg ht

/-- A thread goes on until it would wait for the worker, or, being the worker, looks whether it should run. Threads that hold no mutex are left as they are. -/
theorem goes_on : ∀ (n : Nat) (s : State) (t : Nat), (s.ops t).length = n → Good s →
    ∃ s', Path s s' ∧ Good s' ∧ (s'.ops t = [] ∨ (s'.ops t).head? = some .join ∨ ((s'.ops t).head? = some .loop ∧ s'.running = true)) ∧
      (∀ u, u ≠ t → hs s u = free → s'.ops u = s.ops u ∧ hs s' u = free) ∧ (s.running = false → s'.running = false) := by
  intro n
  induction n with
  | zero => intro s t hn hg; exact ⟨s, .refl s, hg, Or.inl (List.length_eq_zero_iff.mp hn), fun _ _ h => ⟨rfl, h⟩, fun h => h⟩
  | succ n ih =>
    intro s t hn hg
    cases e : s.ops t with
    | nil => rw [e] at hn; cases hn
    | cons o rest =>
      have hlen : rest.length = n := by rw [e] at hn; simpa using hn
      have go : o.goes s.running = true → ∃ s', Path s s' ∧ Good s' ∧ (s'.ops t = [] ∨ (s'.ops t).head? = some .join ∨ ((s'.ops t).head? = some .loop ∧ s'.running = true)) ∧
          (∀ u, u ≠ t → hs s u = free → s'.ops u = s.ops u ∧ hs s' u = free) ∧ (s.running = false → s'.running = false) := by
        intro ho
        obtain ⟨s1, e1, h1, k1, _, _⟩ := goes_step hg e ho
        obtain ⟨s2, p2, g2, f2, k2, r2⟩ := ih s1 t (by rw [h1]; exact hlen) (good_step hg e1)
        refine ⟨s2, .head t e1 p2, g2, f2, fun u hu hf => ?_, fun h => r2 (k1.running h)⟩
        obtain ⟨a, b⟩ := k2 u hu ((k1.held u hu).trans hf)
        exact ⟨a.trans (k1.ops u hu), b⟩
      cases o with
      | lock m =>
        have hl := hg.1 t
        rw [e] at hl
        rcases hl with ⟨_, hx⟩ | ⟨_, hr, _⟩
        · cases hx
        · obtain ⟨s1, p1, g1, f1, k1⟩ := frees _ m (Nat.le_refl _) s hg
          obtain ⟨s2, e2, h2, k2, _⟩ := lock_step g1 ((k1.ops t hr).trans e) f1
          obtain ⟨s3, p3, g3, f3, k3, r3⟩ := ih s2 t (by rw [h2]; exact hlen) (good_step g1 e2)
          refine ⟨s3, p1.trans (.head t e2 p3), g3, f3, fun u hu hf => ?_, fun h => r3 (k2.running (k1.running h))⟩
          have hb : Below s m u := by intro m' hm'; rw [hf] at hm'; cases hm'
          have h1 := (k1.held u hb).trans hf
          obtain ⟨a, b⟩ := k3 u hu ((k2.held u hu).trans h1)
          exact ⟨a.trans ((k2.ops u hu).trans (k1.ops u hb)), b⟩
      | join => exact ⟨s, .refl s, hg, Or.inr (Or.inl (by rw [e]; rfl)), fun _ _ h => ⟨rfl, h⟩, fun h => h⟩
      | loop =>
        cases hr : s.running with
        | true => exact ⟨s, .refl s, hg, Or.inr (Or.inr ⟨by rw [e]; rfl, hr⟩), fun _ _ h => ⟨rfl, h⟩, fun h => by cases h⟩
        | false => rw [hr] at go; exact go rfl
      | _ => exact go rfl

theorem good {Q : Op → Call → Prop} (hQ : ∀ o c, Q o c → c.owner = false) (hU : ∀ c, Q .unsolicited c → Light c) {s : State} (h : Reachable Proper Q s) : Good s :=
  ⟨strictInv hU h, whoInv hQ h⟩

/-- The worker can get to the condition of its loop, or end. -/
theorem worker_gets_on {s : State} (h : Good s) : ∃ s', Path s s' ∧ Good s' ∧ (s'.ops 1 = [] ∨ ((s'.ops 1).head? = some .loop ∧ s'.running = true)) ∧
    (∀ u, u ≠ 1 → hs s u = free → s'.ops u = s.ops u ∧ hs s' u = free) ∧ (s.running = false → s'.running = false) := by
  obtain ⟨s', p, g, hd, k, r⟩ := goes_on _ s 1 rfl h
  refine ⟨s', p, g, ?_, k, r⟩
  rcases hd with hd | hd | hd
  · exact Or.inl hd
  · cases e : s'.ops 1 with
    | nil => exact Or.inl rfl
    | cons o rest =>
      rw [e] at hd
      simp only [List.head?_cons, Option.some.injEq] at hd
      subst hd
      have := g.2.worker .join (by rw [e]; simp)
      cases this
  · exact Or.inr hd

/-- Every thread can finish the call it is in. -/
theorem finishes {s : State} (h : Good s) {t : Nat} (ht : t ≠ 1) : ∃ s', Path s s' ∧ Good s' ∧ s'.ops t = [] := by
  obtain ⟨s1, p1, g1, hd, _, _⟩ := goes_on _ s t rfl h
  rcases hd with hd | hd | ⟨hd, _⟩
  · exact ⟨s1, p1, g1, hd⟩
  · -- the destructor waits for the worker
    cases e : s1.ops t with
    | nil => exact ⟨s1, p1, g1, e⟩
    | cons o rest =>
      rw [e] at hd
      simp only [List.head?_cons, Option.some.injEq] at hd
      subst hd
      have hj : s1.ops t = [.join, .closeAll] := by
        have := (in_destructor g1.2 ht (Or.inl (by rw [e]; simp))).2
        rw [e] at this
        rw [e]
        rcases this with h | h | h
        · simp at h
        · exact h
        · simp at h
      have hr := g1.2.told t ht (Or.inl hj)
      have hf : hs s1 t = free := by
        have := g1.1 t
        rw [e] at this
        exact this.1 rfl
      obtain ⟨s2, p2, g2, hw, k2, r2⟩ := worker_gets_on g1
      have h1 : s2.ops 1 = [] := by
        rcases hw with hw | ⟨_, hw⟩
        · exact hw
        · rw [r2 hr] at hw; cases hw
      have h2 := (k2 t ht hf).1.trans hj
      have e3 : step s2 (.exec t [] {}) = some (s2.set t [.closeAll]) := by simp [step, g2.2.fine, h2, exec, ht, h1]
      have g3 := good_step g2 e3
      have e4 : step (s2.set t [.closeAll]) (.exec t [] {}) = some ((s2.set t [.closeAll]).set t []) := by simp [step, g2.2.fine, exec]
      exact ⟨_, p1.trans (p2.trans (.head t e3 (.head t e4 (.refl _)))), good_step g3 e4, by simp⟩
  · cases e : s1.ops t with
    | nil => exact ⟨s1, p1, g1, e⟩
    | cons o rest =>
      rw [e] at hd
      simp only [List.head?_cons, Option.some.injEq] at hd
      subst hd
      obtain ⟨c, hc, _⟩ := g1.2.users t ht
      exact absurd (hc.subset (by rw [e]; simp)) (not_in_calls c).2.2.1

end Scalopus.UnixThreads
