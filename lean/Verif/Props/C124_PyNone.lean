import Verif.Model.PyNone

/-!
# C124: what `None` does where Python may give an object

The specification looks only at the calls that a program made before: `managersOf`, `provsOf`, `serversOf`, `given`, `lastLogger` and `clientsOf` read them off the list of calls.
-/

namespace Scalopus.C124

open PyNone

/-! ## Specification -/

/-- The managers made: whether each was given a factory. -/
def managersOf (h : List Op) : List Bool := h.filterMap fun | .newManager f => some f | _ => none

/-- The providers made, with their managers. -/
def provsOf (h : List Op) : List Prov := h.filterMap fun | .newGeneral m => some (.general m) | .newNative m => some (.native m) | _ => none

/-- The number of servers made. -/
def serversOf (h : List Op) : Nat := h.countP fun | .newServer => true | _ => false

/-- What was given to `addProvider` of the server `v`. -/
def given (v : Nat) (h : List Op) : List (Option Nat) := h.filterMap fun | .addProvider v' p => if v' = v then some p else none | _ => none

/-- What was given to `setLogger` of the server `v`: functions (`true`) and `None` (`false`). -/
def loggers (v : Nat) (h : List Op) : List Bool := h.filterMap fun | .serverLogger v' f => if v' = v then some f else none | _ => none

/-- The endpoints made by a `factory` function: whether each was given a transport. -/
def clientsOf (h : List Op) : List Bool := h.filterMap fun | .clientFor t => some t | _ => none

/-- The call `o` after the calls `h` uses a null pointer. -/
def Undefined (h : List Op) : Op → Prop
  | .addEndpoint e => e = false
  | .round m => (managersOf h)[m]? = some false
  | .update p => (provsOf h)[p]? = some (.general none)
  | .viewer v => v < serversOf h ∧ none ∈ given v h ∧ (loggers v h).getLast? ≠ some false
  | _ => False

/-- The call `o` after the calls `h` ends the process: a viewer connects to a server whose logger is `None`. -/
def Ends (h : List Op) : Op → Prop
  | .viewer v => v < serversOf h ∧ (loggers v h).getLast? = some false
  | _ => False

/-- No call of the program gives `None` for an endpoint, the factory of a manager, the manager of a `GeneralProvider`, a provider or the logger of a server. -/
def Careful (h : List Op) : Prop :=
  ∀ o ∈ h, o ≠ .addEndpoint false ∧ o ≠ .newManager false ∧ o ≠ .newGeneral none ∧ (∀ v, o ≠ .addProvider v none) ∧ (∀ v, o ≠ .serverLogger v false)

/-- The property wanted: whatever objects or `None` a Python program gives, its calls return or raise. -/
def NoneIsSafe : Prop := ∀ h, run {} h ≠ .ub ∧ run {} h ≠ .terminate

/-! ## The state follows the calls -/

def logOf (l : List Bool) : Log :=
  match l.getLast? with
  | none => .initial
  | some true => .fn
  | some false => .none

structure Inv (h : List Op) (s : State) : Prop where
  managers : s.managers = managersOf h
  provs : s.provs = provsOf h
  clients : s.clients = clientsOf h
  servers : s.servers.length = serversOf h
  given : ∀ v, v < s.servers.length → (s.servers.getD v {}).providers = given v h
  logs : ∀ v, v < s.servers.length → (s.servers.getD v {}).log = logOf (loggers v h)
  later : ∀ v, s.servers.length ≤ v → C124.given v h = [] ∧ loggers v h = []

theorem inv_init : Inv [] {} := by
  constructor <;> simp [managersOf, provsOf, clientsOf, serversOf, given, loggers]

theorem getD_modify (l : List Server) (v w : Nat) (f : Server → Server) (h : w < l.length) :
    (l.modify v f).getD w {} = if v = w then f (l.getD w {}) else l.getD w {} := by
  simp only [List.getD_eq_getElem?_getD, List.getElem?_modify, List.getElem?_eq_getElem h]
  split <;> simp_all

theorem getD_append (l : List Server) (x : Server) (w : Nat) : (l ++ [x]).getD w {} = if w = l.length then x else l.getD w {} := by
  simp only [List.getD_eq_getElem?_getD, List.getElem?_append]
  by_cases h : w < l.length
  · have : w ≠ l.length := by omega
    simp [h, this]
  · by_cases h2 : w = l.length
    · subst h2; simp
    · have h3 : l.length ≤ w := by omega
      have h4 : [x].length ≤ w - l.length := by simp; omega
      simp [h, h2, List.getElem?_eq_none h3, List.getElem?_eq_none h4]

theorem logOf_snoc (l : List Bool) (f : Bool) : logOf (l ++ [f]) = if f then .fn else .none := by
  cases f <;> simp [logOf]

theorem inv_step {h : List Op} {s : State} {o : Op} {r : State × Bool} (hi : Inv h s) (he : exists_ s o = true) (hs : step s o = .ok r) : Inv (h ++ [o]) r.1 := by
  obtain ⟨h1, h2, h3, h4, h5, h6, h7⟩ := hi
  cases o <;> simp only [step] at hs
  case addProvider v p =>
    cases hs
    have hv : v < s.servers.length := by simp [exists_] at he; exact he.1
    refine ⟨by simp [h1, managersOf], by simp [h2, provsOf], by simp [h3, clientsOf], by simp [h4, serversOf], ?_, ?_, ?_⟩
    · intro w hw
      simp only [List.length_modify] at hw
      rw [getD_modify _ _ _ _ hw]
      by_cases hvw : v = w
      · subst hvw
        simp only [if_true, h5 v hw]
        simp [given]
      · simp only [hvw, if_false]; rw [h5 w hw]; simp [given, hvw]
    · intro w hw
      simp only [List.length_modify] at hw
      rw [getD_modify _ _ _ _ hw]
      by_cases hvw : v = w
      · subst hvw
        simp only [if_true, h6 v hw]
        simp [loggers]
      · simp only [hvw, if_false]; rw [h6 w hw]; simp [loggers, hvw]
    · intro w hw
      simp only [List.length_modify] at hw
      have hne : v ≠ w := by omega
      simpa [given, loggers, hne] using h7 w hw
  case serverLogger v f =>
    cases hs
    have hv : v < s.servers.length := by simpa [exists_] using he
    refine ⟨by simp [h1, managersOf], by simp [h2, provsOf], by simp [h3, clientsOf], by simp [h4, serversOf], ?_, ?_, ?_⟩
    · intro w hw
      simp only [List.length_modify] at hw
      rw [getD_modify _ _ _ _ hw]
      by_cases hvw : v = w
      · subst hvw
        simp only [if_true, h5 v hw]
        simp [given]
      · simp only [hvw, if_false]; rw [h5 w hw]; simp [given, hvw]
    · intro w hw
      simp only [List.length_modify] at hw
      rw [getD_modify _ _ _ _ hw]
      by_cases hvw : v = w
      · subst hvw
        simp only [if_true]
        have : loggers v (h ++ [.serverLogger v f]) = loggers v h ++ [f] := by simp [loggers]
        rw [this, logOf_snoc]
      · simp only [hvw, if_false]; rw [h6 w hw]; simp [loggers, hvw]
    · intro w hw
      simp only [List.length_modify] at hw
      have hne : v ≠ w := by omega
      simpa [given, loggers, hne] using h7 w hw
  case newServer =>
    cases hs
    have hg : ∀ v, given v (h ++ [.newServer]) = given v h := by intro v; simp [given]
    have hl : ∀ v, loggers v (h ++ [.newServer]) = loggers v h := by intro v; simp [loggers]
    refine ⟨by simp [h1, managersOf], by simp [h2, provsOf], by simp [h3, clientsOf], by simp [h4, serversOf], ?_, ?_, ?_⟩
    · intro w hw
      simp only [List.length_append, List.length_singleton] at hw
      rw [getD_append, hg]
      by_cases hwl : w = s.servers.length
      · simp [hwl, (h7 s.servers.length (Nat.le_refl _)).1]
      · simp only [hwl, if_false]; exact h5 w (by omega)
    · intro w hw
      simp only [List.length_append, List.length_singleton] at hw
      rw [getD_append, hl]
      by_cases hwl : w = s.servers.length
      · simp [hwl, (h7 s.servers.length (Nat.le_refl _)).2, logOf]
      · simp only [hwl, if_false]; exact h6 w (by omega)
    · intro w hw
      simp only [List.length_append, List.length_singleton] at hw
      rw [hg, hl]
      exact h7 w (by omega)
  all_goals
    (repeat' split at hs)
    all_goals first
      | (cases hs; done)
      | (cases hs
         refine ⟨by simp [h1, managersOf], by simp [h2, provsOf], by simp [h3, clientsOf], by simp [h4, serversOf], ?_, ?_, ?_⟩
         · intro v hv; simpa [given] using h5 v hv
         · intro v hv; simpa [loggers] using h6 v hv
         · intro v hv; simpa [given, loggers] using h7 v hv)

theorem inv_throws {h : List Op} {s : State} {o : Op} {e : String} (hi : Inv h s) (hs : step s o = .throws e) : Inv (h ++ [o]) s := by
  obtain ⟨h1, h2, h3, h4, h5, h6, h7⟩ := hi
  cases o <;> simp only [step] at hs
  all_goals
    (repeat' split at hs)
    all_goals first
      | (cases hs; done)
      | (refine ⟨by simp [h1, managersOf], by simp [h2, provsOf], by simp [h3, clientsOf], by simp [h4, serversOf], ?_, ?_, ?_⟩
         · intro v hv; simpa [given] using h5 v hv
         · intro v hv; simpa [loggers] using h6 v hv
         · intro v hv; simpa [given, loggers] using h7 v hv)

theorem inv_run {os : List Op} : ∀ {h : List Op} {s s' : State}, Inv h s → run s os = .ok s' → Inv (h ++ os) s' := by
  induction os with
  | nil => intro h s s' hi hr; simp only [run] at hr; cases hr; simpa using hi
  | cons o os ih =>
    intro h s s' hi hr
    simp only [run] at hr
    split at hr
    · rename_i he
      split at hr
      · rename_i s1 b hs
        have := ih (inv_step hi he hs) hr
        simpa using this
      · rename_i e hs
        have := ih (inv_throws hi hs) hr
        simpa using this
      · cases hr
      · cases hr
    · cases hr

theorem run_append (a b : List Op) : ∀ {s s' : State}, run s a = .ok s' → run s (a ++ b) = run s' b := by
  induction a with
  | nil => intro s s' h; simp only [run] at h; cases h; rfl
  | cons o os ih =>
    intro s s' h
    simp only [run, List.cons_append] at h ⊢
    split at h
    · rename_i he
      simp only [he, if_true]
      split at h
      · exact ih h
      · exact ih h
      · cases h
      · cases h
    · cases h

/-- What a program of one call does. -/
theorem run_one (s : State) (o : Op) : run s [o] = if exists_ s o then (match step s o with | .ok r => .ok r.1 | .throws _ => .ok s | .ub => .ub | .terminate => .terminate) else .throws "no such object" := by
  simp only [run]
  split
  · split <;> rename_i hs <;> simp [hs]
  · rfl

theorem log_none_iff (l : List Bool) : logOf l = .none ↔ l.getLast? = some false := by
  simp only [logOf]
  split <;> simp_all

/-! ## Theorems -/

/-- The behaviour of a call after any calls that returned is undefined exactly if the calls before say so: `None` was given for an endpoint, for the factory of the manager that makes a round, for the manager of
the `GeneralProvider` that is brought up to date, or for a provider of the server a viewer connects to. -/
theorem undefined_iff {h : List Op} {s : State} (hr : run {} h = .ok s) (o : Op) : run {} (h ++ [o]) = .ub ↔ Undefined h o := by
  have hi : Inv h s := by simpa using inv_run inv_init hr
  rw [run_append h [o] hr, run_one]
  obtain ⟨h1, h2, h3, h4, h5, h6, h7⟩ := hi
  cases o
  case round m =>
    simp only [exists_, step, Undefined, h1]
    by_cases hm : m < (managersOf h).length
    · simp only [hm, decide_true, if_true, List.getElem?_eq_getElem hm, List.getD_eq_getElem?_getD, Option.getD_some]
      cases (managersOf h)[m] <;> simp
    · simp [hm, List.getElem?_eq_none (Nat.le_of_not_lt hm)]
  case update p =>
    simp only [exists_, step, Undefined, h2]
    by_cases hp : p < (provsOf h).length
    · simp only [hp, decide_true, if_true, List.getElem?_eq_getElem hp, List.getD_eq_getElem?_getD, Option.getD_some]
      rcases (provsOf h)[p] with (_ | _) | (_ | _) <;> simp
    · simp [hp, List.getElem?_eq_none (Nat.le_of_not_lt hp)]
  case viewer v =>
    simp only [exists_, step, Undefined]
    by_cases hv : v < s.servers.length
    · have hl := log_none_iff (loggers v h)
      simp only [hv, decide_true, if_true, h5 v hv, h6 v hv, hl]
      rw [h4] at hv
      by_cases hn : (loggers v h).getLast? = some false
      · simp [hn]
      · by_cases hg : none ∈ given v h <;> simp [hn, hg, hv]
    · have : ¬ v < serversOf h := by rw [← h4]; exact hv
      simp [hv, this]
  case ask c =>
    simp only [step, Undefined]
    cases s.clients.getD c true <;> cases exists_ s (.ask c) <;> simp
  case request d => cases d <;> simp [exists_, step, Undefined]
  case addEndpoint e => cases e <;> simp [exists_, step, Undefined]
  all_goals
    simp only [step, Undefined]
    split <;> simp

example : run {} [.newManager false, .endpoints 0] = .ok { managers := [false] } ∧ Undefined [.newManager false, .endpoints 0] (.round 0) :=
  ⟨rfl, rfl⟩

/-- A call ends the process exactly if a viewer connects to a server whose logger was last set to `None`. -/
theorem ends_iff {h : List Op} {s : State} (hr : run {} h = .ok s) (o : Op) : run {} (h ++ [o]) = .terminate ↔ Ends h o := by
  have hi : Inv h s := by simpa using inv_run inv_init hr
  rw [run_append h [o] hr, run_one]
  obtain ⟨h1, h2, h3, h4, h5, h6, h7⟩ := hi
  cases o
  case viewer v =>
    simp only [exists_, step, Ends]
    by_cases hv : v < s.servers.length
    · have hl := log_none_iff (loggers v h)
      simp only [hv, decide_true, if_true, h6 v hv, hl]
      rw [h4] at hv
      by_cases hn : (loggers v h).getLast? = some false
      · simp [hn, hv]
      · simp only [hn, if_false, and_false, iff_false]
        rw [h5 v (by omega)]
        by_cases hg : none ∈ given v h <;> simp [hg]
    · have : ¬ v < serversOf h := by rw [← h4]; exact hv
      simp [hv, this]
  all_goals
    simp only [step, Ends, iff_false]
    clear h1 h2 h3 h4 h5 h6 h7
    intro hx
    repeat' split at hx
    all_goals first
      | (cases hx; done)
      | (rename_i hy; repeat' split at hy
         all_goals cases hy)

/-- A program goes wrong at some call: before it all calls returned or raised. -/
theorem first_bad (h : List Op) : ∀ s : State, (run s h = .ub ∨ run s h = .terminate) → ∃ a o b s', h = a ++ o :: b ∧ run s a = .ok s' ∧ (run s (a ++ [o]) = run s h) := by
  induction h with
  | nil => intro s hr; simp [run] at hr
  | cons o os ih =>
    intro s hr
    by_cases he : exists_ s o = true
    · cases hs : step s o with
      | ok r =>
        simp only [run, he, if_true, hs] at hr
        obtain ⟨a, o', b, s', h1, h2, h3⟩ := ih r.1 hr
        refine ⟨o :: a, o', b, s', by simp [h1], by simp [run, he, hs, h2], ?_⟩
        simp only [List.cons_append, run, he, if_true, hs]
        exact h3
      | throws e =>
        simp only [run, he, if_true, hs] at hr
        obtain ⟨a, o', b, s', h1, h2, h3⟩ := ih s hr
        refine ⟨o :: a, o', b, s', by simp [h1], by simp [run, he, hs, h2], ?_⟩
        simp only [List.cons_append, run, he, if_true, hs]
        exact h3
      | ub => exact ⟨[], o, os, s, rfl, rfl, by simp [run, he, hs]⟩
      | terminate => exact ⟨[], o, os, s, rfl, rfl, by simp [run, he, hs]⟩
    · simp [run, he] at hr

/-- Programs that give `None` for none of these five never go wrong, whatever else they give `None` for: every call returns or raises. Missing: the calls that take `None` and use it. -/
theorem safe_partial {h : List Op} (hc : Careful h) : run {} h ≠ .ub ∧ run {} h ≠ .terminate := by
  have key : ¬ (run {} h = .ub ∨ run {} h = .terminate) := by
    intro hb
    obtain ⟨a, o, b, s', h1, h2, h3⟩ := first_bad h {} hb
    have hca : ∀ x ∈ a, x ∈ h := by intro x hx; simp [h1, hx]
    have ho : o ∈ h := by simp [h1]
    have hco := hc o ho
    have hlog : ∀ v, (loggers v a).getLast? ≠ some false := by
      intro v hl
      have hm := List.mem_of_getLast? hl
      simp only [loggers, List.mem_filterMap] at hm
      obtain ⟨x, hx, hx2⟩ := hm
      cases x <;> simp at hx2
      rename_i v' f
      obtain ⟨hv, hf⟩ := hx2
      subst hf
      exact (hc _ (hca _ hx)).2.2.2.2 v' rfl
    rcases hb with hb | hb
    · rw [hb, undefined_iff h2] at h3
      cases o <;> simp only [Undefined] at h3
      case addEndpoint e => subst h3; exact hco.1 rfl
      case round m =>
        have hm := List.mem_of_getElem? h3
        simp only [managersOf, List.mem_filterMap] at hm
        obtain ⟨x, hx, hx2⟩ := hm
        cases x <;> simp at hx2
        subst hx2
        exact (hc _ (hca _ hx)).2.1 rfl
      case update p =>
        have hm := List.mem_of_getElem? h3
        simp only [provsOf, List.mem_filterMap] at hm
        obtain ⟨x, hx, hx2⟩ := hm
        cases x <;> simp at hx2
        subst hx2
        exact (hc _ (hca _ hx)).2.2.1 rfl
      case viewer v =>
        have hm := h3.2.1
        simp only [given, List.mem_filterMap] at hm
        obtain ⟨x, hx, hx2⟩ := hm
        cases x <;> simp at hx2
        rename_i v' p
        obtain ⟨_, hp⟩ := hx2
        subst hp
        exact (hc _ (hca _ hx)).2.2.2.1 v' rfl
    · rw [hb, ends_iff h2] at h3
      cases o <;> simp only [Ends] at h3
      exact hlog _ h3.2
  exact ⟨fun h => key (.inl h), fun h => key (.inr h)⟩

example : Careful [.newManager true, .managerLogger 0 false, .newNative none, .update 0, .connect false, .request false, .newServer, .addProvider 0 (some 0), .viewer 0] := by
  intro o ho
  simp only [List.mem_cons, List.not_mem_nil, or_false] at ho
  rcases ho with rfl | rfl | rfl | rfl | rfl | rfl | rfl | rfl | rfl <;> simp

/-- `None` is looked at by `connect` (which gives `None`), the logger of a manager, a provider of native traces and its update, endpoints without a transport (asking them raises) and `request` (which raises):
after any calls that returned the program goes on with the objects it had. -/
theorem looked_at {h : List Op} {s : State} (hr : run {} h = .ok s) :
    (∃ r, step s (.connect false) = .ok (r, true) ∧ run {} (h ++ [.connect false]) = .ok s ∧ r = s) ∧
    (∀ m, m < (managersOf h).length → run {} (h ++ [.managerLogger m false]) = .ok s ∧ run {} (h ++ [.endpoints m]) = .ok s) ∧
    (∃ s', run {} (h ++ [.newNative none]) = .ok s' ∧ run {} (h ++ [.newNative none, .update (provsOf h).length]) = .ok s') ∧
    (∃ s' e, run {} (h ++ [.clientFor false]) = .ok s' ∧ step s' (.ask (clientsOf h).length) = .throws e ∧ run {} (h ++ [.clientFor false, .ask (clientsOf h).length]) = .ok s') ∧
    (∃ e, step s (.request false) = .throws e ∧ run {} (h ++ [.request false]) = .ok s) := by
  have hi : Inv h s := by simpa using inv_run inv_init hr
  refine ⟨⟨s, rfl, by rw [run_append _ _ hr]; rfl, rfl⟩, ?_, ?_, ?_, ⟨_, rfl, by rw [run_append _ _ hr]; rfl⟩⟩
  · intro m hm
    rw [← hi.managers] at hm
    rw [run_append _ _ hr, run_append _ _ hr]
    simp [run, exists_, step, hm]
  · refine ⟨{ s with provs := s.provs ++ [.native none] }, ?_, ?_⟩
    · rw [run_append _ _ hr]; simp [run, exists_, step]
    · rw [run_append _ _ hr, ← hi.provs]; simp [run, exists_, step]
  · refine ⟨{ s with clients := s.clients ++ [false] }, "communication_error", ?_, ?_, ?_⟩
    · rw [run_append _ _ hr]; simp [run, exists_, step]
    · simp [step, ← hi.clients]
    · rw [run_append _ _ hr, ← hi.clients]; simp [run, exists_, step]

/-- Objects that were given everything work, whatever other objects were given: a manager with a factory makes its rounds, a `GeneralProvider` with a manager is brought up to date, endpoints with a transport can
be asked, and a viewer can connect to a server that has got no `None`. -/
theorem others_work {h : List Op} {s : State} (hr : run {} h = .ok s) :
    (∀ m, (managersOf h)[m]? = some true → run {} (h ++ [.round m]) = .ok s) ∧
    (∀ p m, (provsOf h)[p]? = some (.general (some m)) → run {} (h ++ [.update p]) = .ok s) ∧
    (∀ c, (clientsOf h)[c]? = some true → ∃ r, step s (.ask c) = .ok r ∧ run {} (h ++ [.ask c]) = .ok s) ∧
    (∀ v, v < serversOf h → none ∉ given v h → (loggers v h).getLast? ≠ some false → run {} (h ++ [.viewer v]) = .ok s) ∧
    run {} (h ++ [.addEndpoint true]) = .ok s := by
  have hi : Inv h s := by simpa using inv_run inv_init hr
  refine ⟨?_, ?_, ?_, ?_, by rw [run_append _ _ hr]; rfl⟩
  · intro m hm
    rw [← hi.managers] at hm
    obtain ⟨hlt, heq⟩ := List.getElem?_eq_some_iff.mp hm
    rw [run_append _ _ hr]
    simp [run, exists_, step, hlt, heq]
  · intro p m hp
    rw [← hi.provs] at hp
    obtain ⟨hlt, heq⟩ := List.getElem?_eq_some_iff.mp hp
    rw [run_append _ _ hr]
    simp [run, exists_, step, hlt, heq]
  · intro c hc
    rw [← hi.clients] at hc
    obtain ⟨hlt, heq⟩ := List.getElem?_eq_some_iff.mp hc
    refine ⟨(s, false), ?_, ?_⟩
    · simp [step, hc]
    · rw [run_append _ _ hr]
      simp [run, exists_, step, hlt, heq]
  · intro v hv hg hl
    rw [← hi.servers] at hv
    rw [run_append _ _ hr, run_one]
    have hl' : logOf (loggers v h) ≠ .none := fun hn => hl ((log_none_iff _).mp hn)
    simp only [exists_, step, hv, decide_true, if_true, hi.given v hv, hi.logs v hv, hl', if_false]
    simp [hg]

/-- Where `None` is kept, the call that takes it returns and a later one is undefined: for every program whose calls returned, making a manager without a factory and letting it look for processes is undefined, as are
bringing a `GeneralProvider` without a manager up to date, and a viewer of a new server that was given `None` as provider. Giving `None` as an endpoint is undefined at once. With `None` as logger the first viewer ends
the process. -/
theorem kept {h : List Op} {s : State} (hr : run {} h = .ok s) :
    ((∃ s', run {} (h ++ [.newManager false]) = .ok s') ∧ run {} (h ++ [.newManager false, .round (managersOf h).length]) = .ub) ∧
    ((∃ s', run {} (h ++ [.newGeneral none]) = .ok s') ∧ run {} (h ++ [.newGeneral none, .update (provsOf h).length]) = .ub) ∧
    ((∃ s', run {} (h ++ [.newServer, .addProvider (serversOf h) none]) = .ok s') ∧ run {} (h ++ [.newServer, .addProvider (serversOf h) none, .viewer (serversOf h)]) = .ub) ∧
    ((∃ s', run {} (h ++ [.newServer, .serverLogger (serversOf h) false]) = .ok s') ∧ run {} (h ++ [.newServer, .serverLogger (serversOf h) false, .viewer (serversOf h)]) = .terminate) ∧
    run {} (h ++ [.addEndpoint false]) = .ub := by
  have hi : Inv h s := by simpa using inv_run inv_init hr
  have hm := hi.managers
  have hp := hi.provs
  have hv := hi.servers
  simp only [run_append _ _ hr]
  rw [← hm, ← hp, ← hv]
  simp [run, exists_, step]

/-- So the wanted property fails. -/
theorem not_NoneIsSafe : ¬ NoneIsSafe := fun h => (h [.newManager false, .round 0]).1 rfl

/-- `None` comes back only from `connect(None)`. -/
theorem gives_none (s s' : State) (o : Op) (b : Bool) (h : step s o = .ok (s', b)) : b = true ↔ o = .connect false := by
  cases o <;> simp only [step] at h
  case connect d => simp only [Res.ok.injEq, Prod.mk.injEq] at h; rw [← h.2]; simp
  all_goals (repeat' split at h) <;> first | (cases h; done) | (simp only [Res.ok.injEq, Prod.mk.injEq] at h; rw [← h.2]; simp)

end Scalopus.C124
