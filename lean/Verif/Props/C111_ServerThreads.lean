import Verif.Model.ServerThreads
import Mathlib.Data.List.Induction

/-!
# C111: a viewer server can be set up while it runs

What a viewer should get: every provider that was added before it connected, and the logger that was set last.
-/

namespace Scalopus.C111

open ServerThreads

/-- The two threads access the same member at the same time, one of them to write it. -/
def Race (s : State) : Prop := ∃ v, ownerAccess s = some v ∧ webAccess s = some v

/-- The providers that were added by the calls in `as`, in order. -/
def added : List Act → List Nat
  | [] => []
  | .call (.addProvider p) :: as => p :: added as
  | _ :: as => added as

/-- The logger that was set last by the calls in `as`; before any call it is the one that does nothing. -/
def lastLogger (d : Nat) : List Act → Nat
  | [] => d
  | .call (.setLogger l) :: as => lastLogger l as
  | _ :: as => lastLogger d as

/-- **C111** in full: no history has a race. -/
def NoRace : Prop := ∀ as s, run {} as = some s → ¬ Race s

/-- A history in which the server is set up before it is started. -/
def SetUpFirst (as : List Act) : Prop := ∀ xs c ys, as = xs ++ .call c :: ys → .call .start ∈ xs → False

theorem run_append (as bs : List Act) (s : State) : run s (as ++ bs) = (run s as).bind fun t => run t bs := by
  induction as generalizing s with
  | nil => rfl
  | cons a as ih =>
    simp only [List.cons_append, run]
    cases step s a with
    | none => rfl
    | some t => exact ih t

theorem run_snoc {as : List Act} {a : Act} {s s' : State} (h : run s (as ++ [a]) = some s') : ∃ m, run s as = some m ∧ step m a = some s' := by
  rw [run_append] at h
  obtain ⟨m, h1, h2⟩ := Option.bind_eq_some_iff.1 h
  refine ⟨m, h1, ?_⟩
  simp only [run] at h2
  obtain ⟨k, h3, h4⟩ := Option.bind_eq_some_iff.1 h2
  rw [h3, ← Option.some.inj h4]

theorem added_append (as bs : List Act) : added (as ++ bs) = added as ++ added bs := by
  induction as with
  | nil => rfl
  | cons a as ih =>
    cases a with
    | call c => cases c <;> simp [added, ih]
    | owner => simpa [added] using ih
    | event e => simpa [added] using ih
    | web => simpa [added] using ih

theorem lastLogger_append (d : Nat) (as bs : List Act) : lastLogger d (as ++ bs) = lastLogger (lastLogger d as) bs := by
  induction as generalizing d with
  | nil => rfl
  | cons a as ih =>
    cases a with
    | call c => cases c <;> simp [lastLogger, ih]
    | owner => simpa [lastLogger] using ih d
    | event e => simpa [lastLogger] using ih d
    | web => simpa [lastLogger] using ih d

/-- The provider and the logger that the owner is about to store. -/
def pendingProviders : Owner → List Nat
  | .pushing p => [p]
  | _ => []

def pendingLogger (d : Nat) : Owner → Nat
  | .setting l => l
  | _ => d

/-- What the members hold and what the owner is about to store are together what was called. -/
theorem holds (as : List Act) : ∀ s, run {} as = some s → s.providers ++ pendingProviders s.owner = added as ∧ pendingLogger s.logger s.owner = lastLogger 0 as := by
  induction as using List.reverseRecOn with
  | nil => intro s h; obtain rfl := Option.some.inj h; exact ⟨rfl, rfl⟩
  | append_singleton as a ih =>
    intro s h
    obtain ⟨m, h1, h2⟩ := run_snoc h
    obtain ⟨i1, i2⟩ := ih m h1
    rw [added_append, lastLogger_append, ← i1, ← i2]
    cases a with
    | call c =>
      simp only [step] at h2
      split at h2
      · cases h2
      · rename_i hidle
        have hidle : m.owner = .idle := Classical.not_not.1 hidle
        cases c with
        | addProvider p => obtain rfl := Option.some.inj h2; simp [added, lastLogger, pendingProviders, pendingLogger, hidle]
        | setLogger l => obtain rfl := Option.some.inj h2; simp [added, lastLogger, pendingProviders, pendingLogger, hidle]
        | start =>
          simp only at h2
          split at h2
          · obtain rfl := Option.some.inj h2; simp [added, lastLogger]
          · cases h2
    | owner =>
      simp only [step, ownerStep] at h2
      split at h2
      · cases h2
      · rename_i p ho; obtain rfl := Option.some.inj h2; simp [added, lastLogger, pendingProviders, pendingLogger, ho]
      · rename_i l ho; obtain rfl := Option.some.inj h2; simp [added, lastLogger, pendingProviders, pendingLogger, ho]
    | event e =>
      simp only [step] at h2
      split at h2
      · cases e with
        | connect ws => obtain rfl := Option.some.inj h2; simp [added, lastLogger]
        | disconnect ws => obtain rfl := Option.some.inj h2; simp [added, lastLogger]
        | text ws =>
          simp only [eventStep] at h2
          split at h2 <;> (obtain rfl := Option.some.inj h2; simp [added, lastLogger])
        | binary ws => obtain rfl := Option.some.inj h2; simp [added, lastLogger]
      · cases h2
    | web =>
      simp only [step, webStep] at h2
      split at h2
      · cases h2
      · cases h2
      · split at h2 <;> (obtain rfl := Option.some.inj h2; simp [added, lastLogger])
      · obtain rfl := Option.some.inj h2; simp [added, lastLogger]
      · split at h2 <;> (obtain rfl := Option.some.inj h2; simp [added, lastLogger])
      · obtain rfl := Option.some.inj h2; simp [added, lastLogger]

theorem SetUpFirst.prefix {as : List Act} {a : Act} (h : SetUpFirst (as ++ [a])) : SetUpFirst as := fun xs c ys e hm => h xs c (ys ++ [a]) (by rw [e]; simp) hm

/-- The session of the web thread so far, and those that exist. -/
def making : Web → List Session
  | .adding _ x => [x]
  | _ => []

theorem started_of (as : List Act) : ∀ s, run {} as = some s → s.web ≠ .notStarted → .call .start ∈ as := by
  induction as using List.reverseRecOn with
  | nil => intro s h; obtain rfl := Option.some.inj h; simp
  | append_singleton as a ih =>
    intro s h hw
    obtain ⟨m, h1, h2⟩ := run_snoc h
    by_cases hm : m.web = .notStarted
    · cases a with
      | call c =>
        cases c with
        | start => simp
        | addProvider p =>
          simp only [step] at h2
          split at h2
          · cases h2
          · obtain rfl := Option.some.inj h2; exact absurd hm hw
        | setLogger l =>
          simp only [step] at h2
          split at h2
          · cases h2
          · obtain rfl := Option.some.inj h2; exact absurd hm hw
      | owner =>
        simp only [step, ownerStep] at h2
        split at h2
        · cases h2
        · obtain rfl := Option.some.inj h2; exact absurd hm hw
        · obtain rfl := Option.some.inj h2; exact absurd hm hw
      | event e => simp [step, hm] at h2
      | web => simp [step, webStep, hm] at h2
    · exact List.mem_append_left _ (ih m h1 hm)

/-- **C111, partial.** If the server is set up before it is started, there is no race, and every viewer gets a source of every provider, in order, and the logger that was set. Missing: calls after
    the start. -/
theorem set_up_first_partial (as : List Act) (s : State) (h : run {} as = some s) (hf : SetUpFirst as) :
    ¬ Race s ∧ (s.web ≠ .notStarted → s.providers = added as ∧ s.logger = lastLogger 0 as) ∧
    (∀ ws x, (ws, x) ∈ s.sessions → x.sources = added as ∧ x.logger = lastLogger 0 as) ∧ (∀ l ws, (l, ws) ∈ s.lines → l = lastLogger 0 as) := by
  have key : (s.web ≠ .notStarted → s.owner = .idle) ∧ (∀ ws x, (ws, x) ∈ s.sessions → x.sources = s.providers ∧ x.logger = s.logger ∧ s.web ≠ .notStarted) ∧
      (∀ ws x, s.web = .adding ws x → x.sources <+: s.providers ∧ x.logger = s.logger) ∧ (∀ l ws, (l, ws) ∈ s.lines → l = s.logger ∧ s.web ≠ .notStarted) := by
    induction as using List.reverseRecOn generalizing s with
    | nil => obtain rfl := Option.some.inj h; simp
    | append_singleton as a ih =>
      obtain ⟨m, h1, h2⟩ := run_snoc h
      obtain ⟨k1, k2, k3, k4⟩ := ih m h1 hf.prefix
      cases a with
      | call c =>
        have hn : m.web = .notStarted := Classical.byContradiction fun hn => hf as c [] rfl (started_of as m h1 hn)
        have e1 : ∀ ws x, (ws, x) ∉ m.sessions := fun ws x hx => (k2 ws x hx).2.2 hn
        have e2 : ∀ l ws, (l, ws) ∉ m.lines := fun l ws hx => (k4 l ws hx).2 hn
        simp only [step] at h2
        split at h2
        · cases h2
        · rename_i hidle
          have hidle : m.owner = .idle := Classical.not_not.1 hidle
          cases c with
          | addProvider p => obtain rfl := Option.some.inj h2; exact ⟨fun h => absurd hn h, fun ws x hx => absurd hx (e1 ws x), fun ws x hx => (by rw [hn] at hx; cases hx), fun l ws hx => absurd hx (e2 l ws)⟩
          | setLogger l => obtain rfl := Option.some.inj h2; exact ⟨fun h => absurd hn h, fun ws x hx => absurd hx (e1 ws x), fun ws x hx => (by rw [hn] at hx; cases hx), fun l ws hx => absurd hx (e2 l ws)⟩
          | start =>
            obtain rfl := Option.some.inj h2
            exact ⟨fun _ => hidle, fun ws x hx => absurd hx (e1 ws x), fun ws x hx => (by cases hx), fun l ws hx => absurd hx (e2 l ws)⟩
      | owner =>
        have hn : m.web = .notStarted := by
          refine Classical.byContradiction fun hn => ?_
          have := k1 hn
          simp [step, ownerStep, this] at h2
        have e1 : ∀ ws x, (ws, x) ∉ m.sessions := fun ws x hx => (k2 ws x hx).2.2 hn
        have e2 : ∀ l ws, (l, ws) ∉ m.lines := fun l ws hx => (k4 l ws hx).2 hn
        simp only [step, ownerStep] at h2
        split at h2
        · cases h2
        · obtain rfl := Option.some.inj h2; exact ⟨fun h => absurd hn h, fun ws x hx => absurd hx (e1 ws x), fun ws x hx => (by rw [hn] at hx; cases hx), fun l ws hx => absurd hx (e2 l ws)⟩
        · obtain rfl := Option.some.inj h2; exact ⟨fun h => absurd hn h, fun ws x hx => absurd hx (e1 ws x), fun ws x hx => (by rw [hn] at hx; cases hx), fun l ws hx => absurd hx (e2 l ws)⟩
      | event e =>
        simp only [step] at h2
        split at h2
        · rename_i hw
          have ho := k1 (by rw [hw]; simp)
          cases e with
          | connect ws =>
            obtain rfl := Option.some.inj h2
            exact ⟨fun _ => ho, fun w x hx => ⟨(k2 w x hx).1, (k2 w x hx).2.1, by simp⟩, fun w x hx => (by cases hx), fun l w hx => ⟨(k4 l w hx).1, by simp⟩⟩
          | disconnect ws =>
            obtain rfl := Option.some.inj h2
            exact ⟨fun _ => ho, fun w x hx => k2 w x (List.mem_filter.1 hx).1, fun w x hx => k3 w x hx, fun l w hx => k4 l w hx⟩
          | text ws =>
            simp only [eventStep] at h2
            split at h2
            · obtain rfl := Option.some.inj h2; exact ⟨k1, k2, k3, k4⟩
            · obtain rfl := Option.some.inj h2
              exact ⟨fun _ => ho, fun w x hx => ⟨(k2 w x hx).1, (k2 w x hx).2.1, by simp⟩, fun w x hx => (by cases hx), fun l w hx => ⟨(k4 l w hx).1, by simp⟩⟩
          | binary ws =>
            obtain rfl := Option.some.inj h2
            exact ⟨fun _ => ho, fun w x hx => ⟨(k2 w x hx).1, (k2 w x hx).2.1, by simp⟩, fun w x hx => (by cases hx), fun l w hx => ⟨(k4 l w hx).1, by simp⟩⟩
        · cases h2
      | web =>
        have line : ∀ ws l w, (l, w) ∈ m.lines ++ [(m.logger, ws)] → l = m.logger := by
          intro ws l w hx
          rcases List.mem_append.1 hx with hx | hx
          · exact (k4 l w hx).1
          · simp only [List.mem_singleton, Prod.mk.injEq] at hx; exact hx.1
        simp only [step, webStep] at h2
        split at h2
        · cases h2
        · cases h2
        · rename_i ws hw
          have ho := k1 (by rw [hw]; simp)
          split at h2 <;>
            (obtain rfl := Option.some.inj h2
             exact ⟨fun _ => ho, fun w x hx => ⟨(k2 w x hx).1, (k2 w x hx).2.1, by simp⟩, fun w x hx => (by cases hx), fun l w hx => ⟨line ws l w hx, by simp⟩⟩)
        · rename_i ws hw
          have ho := k1 (by rw [hw]; simp)
          obtain rfl := Option.some.inj h2
          refine ⟨fun _ => ho, fun w x hx => ⟨(k2 w x hx).1, (k2 w x hx).2.1, by simp⟩, fun w x hx => ?_, fun l w hx => ⟨(k4 l w hx).1, by simp⟩⟩
          obtain ⟨rfl, rfl⟩ : ws = w ∧ (⟨[], m.logger⟩ : Session) = x := by simpa using hx
          exact ⟨List.nil_prefix, rfl⟩
        · rename_i ws y hw
          have ho := k1 (by rw [hw]; simp)
          obtain ⟨⟨r, hr⟩, hy⟩ := k3 ws y hw
          split at h2
          · rename_i p hp
            obtain rfl := Option.some.inj h2
            refine ⟨fun _ => ho, fun w x hx => ⟨(k2 w x hx).1, (k2 w x hx).2.1, by simp⟩, fun w x hx => ?_, fun l w hx => ⟨(k4 l w hx).1, by simp⟩⟩
            simp only [Web.adding.injEq] at hx
            obtain ⟨rfl, rfl⟩ := hx
            refine ⟨?_, hy⟩
            rw [← hr] at hp ⊢
            rw [List.getElem?_append_right (Nat.le_refl _), Nat.sub_self] at hp
            cases r with
            | nil => cases hp
            | cons q r =>
              simp only [List.getElem?_cons_zero, Option.some.injEq] at hp
              subst hp
              exact ⟨r, by simp⟩
          · rename_i hp
            obtain rfl := Option.some.inj h2
            have hfull : y.sources = m.providers := by
              rw [← hr] at hp ⊢
              rw [List.getElem?_append_right (Nat.le_refl _), Nat.sub_self] at hp
              cases r with
              | nil => simp
              | cons q r => simp at hp
            refine ⟨fun _ => ho, fun w x hx => ?_, fun w x hx => (by cases hx), fun l w hx => ⟨(k4 l w hx).1, by simp⟩⟩
            rcases List.mem_append.1 hx with hx | hx
            · exact ⟨(k2 w x hx).1, (k2 w x hx).2.1, by simp⟩
            · simp only [List.mem_singleton, Prod.mk.injEq] at hx
              obtain ⟨rfl, rfl⟩ := hx
              exact ⟨hfull, hy, by simp⟩
        · rename_i ws hw
          have ho := k1 (by rw [hw]; simp)
          obtain rfl := Option.some.inj h2
          exact ⟨fun _ => ho, fun w x hx => ⟨(k2 w x hx).1, (k2 w x hx).2.1, by simp⟩, fun w x hx => (by cases hx), fun l w hx => ⟨line ws l w hx, by simp⟩⟩
  obtain ⟨k1, k2, k3, k4⟩ := key
  have members : s.web ≠ .notStarted → s.providers = added as ∧ s.logger = lastLogger 0 as := by
    intro hw
    have := holds as s h
    rw [k1 hw] at this
    simpa [pendingProviders, pendingLogger] using this
  refine ⟨?_, members, fun ws x hx => ?_, fun l ws hx => ?_⟩
  · rintro ⟨v, h1, h2⟩
    have : s.web ≠ .notStarted := by
      intro hc
      simp [webAccess, hc] at h2
    rw [ownerAccess, k1 this] at h1
    cases h1
  · obtain ⟨a, b, c⟩ := k2 ws x hx
    obtain ⟨d, e⟩ := members c
    exact ⟨a.trans d, b.trans e⟩
  · obtain ⟨a, b⟩ := k4 l ws hx
    exact a.trans (members b).2

/-- **C111 fails:** whenever the web thread is about to look at the providers, the owner can be about to add one; and whenever it is about to log, the owner can be about to set the logger. -/
theorem late_call_races (as : List Act) (s : State) (_h : run {} as = some s) (ho : s.owner = .idle) (v : Var) (hw : webAccess s = some v) :
    ∃ c s', step s (.call c) = some s' ∧ c ≠ .start ∧ Race s' := by
  cases v with
  | providers => exact ⟨.addProvider 0, { s with owner := .pushing 0 }, by simp [step, ho], by simp, .providers, rfl, hw⟩
  | logger => exact ⟨.setLogger 0, { s with owner := .setting 0 }, by simp [step, ho], by simp, .logger, rfl, hw⟩

theorem not_NoRace : ¬ NoRace := by
  intro h
  have e : run {} [.call .start, .event (.connect 1)] = some { web := .logging 1 } := rfl
  obtain ⟨c, s', h1, _, h3⟩ := late_call_races _ _ e rfl .logger rfl
  exact h ([.call .start, .event (.connect 1)] ++ [.call c]) s' (by rw [run_append, e]; simp [run, h1]) h3

/-- The owner's calls return after one more step, whatever the web thread does. -/
theorem call_returns (s : State) (h : s.owner ≠ .idle) : ∃ s', step s .owner = some s' ∧ s'.owner = .idle ∧ s'.web = s.web ∧ s'.sessions = s.sessions := by
  simp only [step, ownerStep]
  split
  · rename_i h1; exact absurd h1 h
  · exact ⟨_, rfl, rfl, rfl, rfl⟩
  · exact ⟨_, rfl, rfl, rfl, rfl⟩

/-- A viewer that is connected keeps the sources and the logger that it has: what the owner does later does not change them, race or not. -/
theorem connected_unchanged (as : List Act) (s s' : State) (h : run s as = some s') (ws : Nat) (x : Session) (hx : (ws, x) ∈ s.sessions) (hd : .event (.disconnect ws) ∉ as) :
    (ws, x) ∈ s'.sessions := by
  induction as generalizing s with
  | nil => obtain rfl := Option.some.inj h; exact hx
  | cons a as ih =>
    obtain ⟨m, h1, h2⟩ := Option.bind_eq_some_iff.1 h
    refine ih m h2 ?_ fun hm => hd (List.mem_cons_of_mem _ hm)
    cases a with
    | call c =>
      simp only [step] at h1
      split at h1
      · cases h1
      · cases c with
        | addProvider p => obtain rfl := Option.some.inj h1; exact hx
        | setLogger l => obtain rfl := Option.some.inj h1; exact hx
        | start =>
          simp only at h1
          split at h1
          · obtain rfl := Option.some.inj h1; exact hx
          · cases h1
    | owner =>
      simp only [step, ownerStep] at h1
      split at h1
      · cases h1
      · obtain rfl := Option.some.inj h1; exact hx
      · obtain rfl := Option.some.inj h1; exact hx
    | event e =>
      simp only [step] at h1
      split at h1
      · cases e with
        | connect w => obtain rfl := Option.some.inj h1; exact hx
        | disconnect w =>
          obtain rfl := Option.some.inj h1
          refine List.mem_filter.2 ⟨hx, ?_⟩
          simp only [decide_eq_true_eq]
          rintro rfl
          exact hd List.mem_cons_self
        | text w =>
          simp only [eventStep] at h1
          split at h1 <;> (obtain rfl := Option.some.inj h1; exact hx)
        | binary w => obtain rfl := Option.some.inj h1; exact hx
      · cases h1
    | web =>
      simp only [step, webStep] at h1
      split at h1
      · cases h1
      · cases h1
      · split at h1 <;> (obtain rfl := Option.some.inj h1; exact hx)
      · obtain rfl := Option.some.inj h1; exact hx
      · split at h1
        · obtain rfl := Option.some.inj h1; exact hx
        · obtain rfl := Option.some.inj h1; exact List.mem_append_left _ hx
      · obtain rfl := Option.some.inj h1; exact hx

/-- Making a session takes the web thread one step per provider and three more; then the viewer has a source of each provider there is. This is also so for providers added after the start, as long as
    the owner does nothing meanwhile. -/
theorem connect_gets_all (s : State) (hw : s.web = .idle) (ws : Nat) (hn : s.sessions.lookup ws = none) :
    ∃ s', run s ([.event (.connect ws)] ++ List.replicate (s.providers.length + 3) .web) = some s' ∧ s'.web = .idle ∧ s'.sessions = s.sessions ++ [(ws, ⟨s.providers, s.logger⟩)] ∧
      s'.lines = s.lines ++ [(s.logger, ws)] := by
  have loop : ∀ (k : Nat) (t : State) (x : Session), t.web = .adding ws x → x.sources.length + k = t.providers.length → x.sources <+: t.providers →
      run t (List.replicate (k + 1) .web) = some { t with web := .idle, sessions := t.sessions ++ [(ws, { x with sources := t.providers })] } := by
    intro k
    induction k with
    | zero =>
      intro t x hx hl hp
      obtain ⟨r, hr⟩ := hp
      have : r = [] := by
        have := congrArg List.length hr
        simp only [List.length_append] at this
        exact List.eq_nil_of_length_eq_zero (by omega)
      subst this
      simp only [List.append_nil] at hr
      have hnone : t.providers[x.sources.length]? = none := by rw [List.getElem?_eq_none_iff]; omega
      simp [run, List.replicate, step, webStep, hx, hnone, ← hr]
    | succ k ih =>
      intro t x hx hl hp
      obtain ⟨r, hr⟩ := hp
      cases r with
      | nil =>
        have := congrArg List.length hr
        simp only [List.length_append, List.length_nil] at this
        omega
      | cons q r =>
        have hq : t.providers[x.sources.length]? = some q := by
          rw [← hr, List.getElem?_append_right (Nat.le_refl _), Nat.sub_self]; rfl
        have e1 : step t .web = some { t with web := .adding ws { x with sources := x.sources ++ [q] } } := by simp [step, webStep, hx, hq]
        rw [List.replicate_succ]
        simp only [run, e1, Option.bind_some]
        have := ih { t with web := .adding ws { x with sources := x.sources ++ [q] } } { x with sources := x.sources ++ [q] } rfl (by simp; omega) ⟨r, by simp [← hr]⟩
        exact this
  refine ⟨{ s with web := .idle, sessions := s.sessions ++ [(ws, ⟨s.providers, s.logger⟩)], lines := s.lines ++ [(s.logger, ws)] }, ?_, rfl, rfl, rfl⟩
  have e0 : step s (.event (.connect ws)) = some { s with web := .logging ws } := by simp [step, hw, eventStep]
  have e1 : step { s with web := .logging ws } .web = some { s with web := .copying ws, lines := s.lines ++ [(s.logger, ws)] } := by simp [step, webStep, hn]
  have e2 : step { s with web := .copying ws, lines := s.lines ++ [(s.logger, ws)] } .web = some { s with web := .adding ws ⟨[], s.logger⟩, lines := s.lines ++ [(s.logger, ws)] } := rfl
  simp only [List.cons_append, List.nil_append, run, e0, Option.bind_some, List.replicate_succ, e1, e2]
  have := loop s.providers.length { s with web := .adding ws ⟨[], s.logger⟩, lines := s.lines ++ [(s.logger, ws)] } ⟨[], s.logger⟩ rfl (by simp) List.nil_prefix
  rw [List.replicate_succ] at this
  exact this

/-- Two providers and a logger, then the start, and a viewer. -/
example : ∃ s, run {} ([.call (.addProvider 5), .owner, .call (.addProvider 6), .owner, .call (.setLogger 2), .owner, .call .start, .event (.connect 1)] ++ List.replicate 5 .web) = some s ∧
    s.sessions = [(1, ⟨[5, 6], 2⟩)] ∧ s.lines = [(2, 1)] := ⟨_, rfl, rfl, rfl⟩

/-- The history above is set up first; one with a provider added while a viewer connects is not, and has a race. -/
example : ∃ s, run {} [.call (.addProvider 5), .owner, .call .start, .event (.connect 1), .web, .web, .web, .call (.addProvider 6)] = some s ∧ Race s ∧ s.web = .adding 1 ⟨[5], 0⟩ :=
  ⟨_, rfl, ⟨.providers, rfl, rfl⟩, rfl⟩

end Scalopus.C111
