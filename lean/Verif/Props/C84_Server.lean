import Verif.Model.Server
import Verif.Proofs.Ctf
import Verif.Proofs.JsonText

/-!
# C84, C85, C86: the server for the viewer
-/

namespace Scalopus.C84

open Server

/-- The port that the arguments of scalopus_catapult_server ask for: the first one, in decimal; without arguments, 9222. -/
def Asked (args : List Text) (p : Nat) : Prop := 0 < p ∧ p < 65536 ∧ ((args = [] ∧ p = 9222) ∨ ∃ rest, args = Ctf.Spec.dec p :: rest)

/-- After these calls a web server was started, on this port, and it listens. -/
def ListensOn (calls : List Call) (p : Int) : Prop := ∃ s w, run {} calls = .ok s ∧ s.web = some w ∧ w.port = p ∧ w.listening = true

/-- **C84** in full: both programs listen on the port that they are asked for, if it can be listened on. -/
def OnAskedPort : Prop :=
  (∀ (listens : Int → Bool) (args : List Text) (p : Nat), Asked args p → listens p = true → ∃ a calls, main listens args = .ok (.started a calls) ∧ ListensOn calls p) ∧
  (∀ (listens : Int → Bool) (log : Bool) (p : Int), listens p = true → ListensOn (pyMain listens (some p) log) p) ∧
  (∀ (listens : Int → Bool) (log : Bool), listens 9222 = true → ListensOn (pyMain listens none log) 9222)

theorem atoi_dec (n : Nat) (h : n < 2 ^ 31) : atoi (Ctf.Spec.dec n) = .ok n := by
  unfold atoi Ctf.Spec.dec
  have h1 := Ctf.head_dec (Ctf.Spec.decimal n) (Ctf.decimal_lt n) (Ctf.decimal_ne n) []
  have h2 := Ctf.digits_append (Ctf.Spec.decimal n) (Ctf.decimal_lt n) []
  simp only [List.append_nil, Ctf.digits] at h1 h2
  rw [h1]
  simp only [h2, Ctf.decimal_number, Bool.false_eq_true, if_false]
  rw [if_pos (by omega)]

/-- `atoi` on a number that does not fit is undefined; the largest that fits is 2^31 - 1. -/
theorem atoi_dec_large (n : Nat) (h : 2 ^ 31 ≤ n) : atoi (Ctf.Spec.dec n) = .ub := by
  unfold atoi Ctf.Spec.dec
  have h1 := Ctf.head_dec (Ctf.Spec.decimal n) (Ctf.decimal_lt n) (Ctf.decimal_ne n) []
  have h2 := Ctf.digits_append (Ctf.Spec.decimal n) (Ctf.decimal_lt n) []
  simp only [List.append_nil, Ctf.digits] at h1 h2
  rw [h1]
  simp only [h2, Ctf.decimal_number, Bool.false_eq_true, if_false]
  rw [if_neg (by omega)]

/-- Negative numbers: converted if they fit, otherwise undefined. -/
theorem atoi_neg (n : Nat) : atoi ('-' :: Ctf.Spec.dec n) = if n ≤ 2 ^ 31 then .ok (-(n : Int)) else .ub := by
  unfold atoi Ctf.Spec.dec
  have h2 := Ctf.digits_append (Ctf.Spec.decimal n) (Ctf.decimal_lt n) []
  simp only [List.append_nil, Ctf.digits] at h2
  have h1 : Ctf.sign (Ctf.skipSpace ('-' :: (Ctf.Spec.decimal n).map Ctf.Spec.digitChar)) = (true, (Ctf.Spec.decimal n).map Ctf.Spec.digitChar) := rfl
  rw [h1]
  simp only [h2, Ctf.decimal_number, if_true]
  by_cases hn : n ≤ 2 ^ 31
  · rw [if_pos (by omega), if_pos hn]
  · rw [if_neg (by omega), if_neg hn]

/-- **C84.** A port that is too large for an `int` is undefined behaviour; every other number is announced, also one that cannot be a port, and the server is started on port 9222. -/
theorem any_number (listens : Int → Bool) (n : Nat) (rest : List Text) :
    main listens (Ctf.Spec.dec n :: rest) = (if 2 ^ 31 ≤ n then .ub else if n = 0 then .ok .usage
      else .ok (.started n [.addProvider 0, .addProvider 1, .setLogger 1, .setWarningLogger, .start 9222 (listens 9222)])) ∧
    main listens (('-' :: Ctf.Spec.dec n) :: rest) = (if 2 ^ 31 < n then .ub else if n = 0 then .ok .usage
      else .ok (.started (-n) [.addProvider 0, .addProvider 1, .setLogger 1, .setWarningLogger, .start 9222 (listens 9222)])) := by
  constructor
  · by_cases h : 2 ^ 31 ≤ n
    · rw [if_pos h]; simp only [main, atoi_dec_large n h, Res.bind]
    · rw [if_neg h]
      simp only [main, atoi_dec n (by omega), Res.bind]
      by_cases h0 : n = 0
      · rw [if_pos (by omega), if_pos h0]
      · rw [if_neg (by omega), if_neg h0]
  · by_cases h : 2 ^ 31 < n
    · rw [if_pos h]; simp only [main, atoi_neg, if_neg (Nat.not_le.2 h), Res.bind]
    · rw [if_neg h]
      simp only [main, atoi_neg, if_pos (Nat.not_lt.1 h), Res.bind]
      by_cases h0 : n = 0
      · rw [if_pos (by omega), if_pos h0]
      · rw [if_neg (by omega), if_neg h0]

/-- **C84, partial: Python.** The command catapult_server of the Python module listens on the port that was asked for. -/
theorem python_exact_partial (listens : Int → Bool) (log : Bool) (p : Int) (h : listens p = true) :
    ListensOn (pyMain listens (some p) log) p ∧ (p = 9222 → ListensOn (pyMain listens none log) p) := by
  constructor
  · cases log
    · exact ⟨_, _, rfl, rfl, rfl, h⟩
    · exact ⟨_, _, rfl, rfl, rfl, h⟩
  · rintro rfl
    cases log
    · exact ⟨_, _, rfl, rfl, rfl, h⟩
    · exact ⟨_, _, rfl, rfl, rfl, h⟩

/-- **C84 fails:** whatever port is asked for, scalopus_catapult_server says that it uses it, and starts the server on port 9222. -/
theorem always_default (listens : Int → Bool) (args : List Text) (p : Nat) (h : Asked args p) (hl : listens 9222 = true) :
    ∃ calls, main listens args = .ok (.started p calls) ∧ ListensOn calls 9222 := by
  obtain ⟨h0, h1, h2⟩ := h
  have e : main listens args = .ok (.started p [.addProvider 0, .addProvider 1, .setLogger 1, .setWarningLogger, .start 9222 (listens 9222)]) := by
    rcases h2 with ⟨rfl, rfl⟩ | ⟨rest, rfl⟩
    · rfl
    · simp only [main, atoi_dec p (by omega), Res.bind]
      rw [if_neg (by omega)]
  exact ⟨_, e, _, _, rfl, rfl, rfl, hl⟩

/-- **C84, partial: the default port.** Missing: all other ports, see `always_default`. -/
theorem default_port_partial (listens : Int → Bool) (args : List Text) (h : Asked args 9222) (hl : listens 9222 = true) :
    ∃ a calls, main listens args = .ok (.started a calls) ∧ ListensOn calls 9222 := by
  obtain ⟨calls, e, h'⟩ := always_default listens args 9222 h hl
  exact ⟨_, calls, e, h'⟩

/-- Only one port can be listened on after given calls. -/
theorem ListensOn.unique {calls : List Call} {p q : Int} (h1 : ListensOn calls p) (h2 : ListensOn calls q) : p = q := by
  obtain ⟨s, w, e1, e2, rfl, _⟩ := h1
  obtain ⟨s', w', f1, f2, rfl, _⟩ := h2
  rw [e1] at f1
  cases f1
  rw [e2] at f2
  cases f2
  rfl

/-- Asking for port 8080. -/
theorem asked_8080 : Asked ["8080".toList] 8080 := ⟨by decide, by decide, .inr ⟨[], by decide +kernel⟩⟩

theorem not_OnAskedPort : ¬ OnAskedPort := by
  rintro ⟨h, _⟩
  obtain ⟨a, calls, e, h1⟩ := h (fun _ => true) ["8080".toList] 8080 asked_8080 rfl
  obtain ⟨calls', e', h2⟩ := always_default (fun _ => true) ["8080".toList] 8080 asked_8080 rfl
  rw [e] at e'
  cases e'
  have := h1.unique h2
  omega

/-- An argument that does not begin like a number makes the program print its usage and end, without a server. -/
theorem other_argument (listens : Int → Bool) (c : Char) (r : Text) (rest : List Text) (h1 : Ctf.isSpace c = false) (h2 : c ∉ "+-0123456789".toList) :
    main listens ((c :: r) :: rest) = .ok .usage := by
  have e : ("+-0123456789".toList : Text) = ['+', '-', '0', '1', '2', '3', '4', '5', '6', '7', '8', '9'] := by decide
  rw [e] at h2
  simp only [List.mem_cons, List.not_mem_nil, or_false, not_or] at h2
  obtain ⟨n1, n2, hd⟩ := h2
  have hdig : Ctf.digit 10 c = none := by
    have key : ∀ n, 48 ≤ n → n ≤ 57 → c.toNat = n → False := by
      intro n h3 h4 h5
      have : c = Char.ofNat n := by rw [← h5, Char.ofNat_toNat]
      have : n = 48 ∨ n = 49 ∨ n = 50 ∨ n = 51 ∨ n = 52 ∨ n = 53 ∨ n = 54 ∨ n = 55 ∨ n = 56 ∨ n = 57 := by omega
      rcases this with rfl | rfl | rfl | rfl | rfl | rfl | rfl | rfl | rfl | rfl <;> simp_all
    simp only [Ctf.digit]
    rw [if_neg (fun h => key _ h.1 h.2 rfl)]
    split
    · rename_i v hv
      split at hv
      · simp only [Option.some.injEq] at hv
        rw [if_neg (by omega)]
      · split at hv
        · simp only [Option.some.injEq] at hv
          rw [if_neg (by omega)]
        · cases hv
    · rfl
  simp only [main, atoi]
  rw [Ctf.sign_skip_of_head h1 n2 n1]
  simp only [Ctf.digits, hdig, Ctf.number, List.foldl_nil, Bool.false_eq_true, if_false]
  rw [if_pos (by omega)]
  rfl

example := other_argument (fun _ => true) '?' [] [] (by decide) (by decide)

/-- The providers that the calls add before the server is started. -/
def addedFirst : List Call → List Nat
  | [] => []
  | .start _ _ :: _ => []
  | .addProvider p :: l => p :: addedFirst l
  | _ :: l => addedFirst l

/-- Both programs add both providers (0 for the native tracepoints, 1 for the names of processes and threads) before they start the server. -/
theorem both_providers (listens : Int → Bool) : (∀ args a calls, main listens args = .ok (.started a calls) → addedFirst calls = [0, 1]) ∧ ∀ port log, addedFirst (pyMain listens port log) = [0, 1] := by
  constructor
  · intro args a calls h
    have key : ∀ r : Res Int, (r.bind fun port => if port = 0 then .ok .usage else .ok (.started port [.addProvider 0, .addProvider 1, .setLogger 1, .setWarningLogger, .start 9222 (listens 9222)])) = Res.ok (Outcome.started a calls) → addedFirst calls = [0, 1] := by
      intro r h
      cases r with
      | ok p =>
        simp only [Res.bind] at h
        split at h
        · cases h
        · cases h; rfl
      | _ => cases h
    exact key _ h
  · intro port log
    cases log <;> rfl

end Scalopus.C84

namespace Scalopus.C85

open Server

/-- The value that the last of the calls gave, if any did. -/
def last {α : Type} (f : Call → Option α) (default : α) (l : List Call) : α := (l.filterMap f).getLast?.getD default

def givesWebLogger : Call → Option Nat
  | .setWebLogger l => some l
  | .setWarningLogger => some 1
  | _ => none

def givesBuffer : Call → Option Nat
  | .setMaxBuffersize n => some n
  | _ => none

def givesLogger : Call → Option Nat
  | .setLogger l => some l
  | _ => none

def givesProvider : Call → Option Nat
  | .addProvider p => some p
  | _ => none

def isStart : Call → Bool
  | .start _ _ => true
  | _ => false

/-- **C85** in full: whatever is called, in any order, every call returns, the destructor too, and after `start` has returned the server listens. -/
def Serves : Prop := ∀ l : List Call, ∃ s, run {} l = .ok s ∧ destroy s = .ok () ∧ ((∃ c ∈ l, isStart c = true) → ∃ w, s.web = some w ∧ w.listening = true)

theorem run_append (l l' : List Call) : ∀ s : State, run s (l ++ l') = (run s l).bind fun s => run s l' := by
  induction l with
  | nil => intro s; rfl
  | cons c l ih =>
    intro s
    simp only [List.cons_append, run]
    cases step s c with
    | ok s => exact ih s
    | _ => rfl

theorem last_append {α : Type} (f : Call → Option α) (d : α) (l : List Call) (c : Call) : last f d (l ++ [c]) = (f c).getD (last f d l) := by
  unfold last
  rw [List.filterMap_append]
  cases h : f c with
  | none => simp [h]
  | some x => simp [h]

/-- The settings before `start`. -/
theorem settings (l : List Call) (h : ∀ c ∈ l, isStart c = false) : ∃ s, run {} l = .ok s ∧ s.web = none ∧ s.joinable = false ∧ s.providers = l.filterMap givesProvider ∧
    s.logger = last givesLogger 0 l ∧ s.webLogger = last givesWebLogger 0 l ∧ s.maxBuffer = last givesBuffer (128 * 1024 * 1024) l := by
  induction l using List.reverseRecOn with
  | nil => exact ⟨{}, rfl, rfl, rfl, rfl, rfl, rfl, rfl⟩
  | append_singleton l c ih =>
    obtain ⟨s, e, h1, h2, h3, h4, h5, h6⟩ := ih (fun x hx => h x (by simp [hx]))
    have hc := h c (by simp)
    rw [run_append, e]
    simp only [last_append, List.filterMap_append]
    cases c with
    | start p b => exact absurd hc (by simp [isStart])
    | _ => exact ⟨_, rfl, by simp [h1, h2, h3, h4, h5, h6, givesProvider, givesLogger, givesWebLogger, givesBuffer]⟩

/-- **C85, partial.** If `start` is called once, after all settings, every call returns, and the destructor too; the web server uses the port given, and the logger and buffer size that were set last; the
    sessions get the providers that were added, in this order. It listens if that is possible. Missing: a second `start` (`second_start_terminates`) and ports that cannot be listened on
    (`failure_unnoticed`). -/
theorem start_exact_partial (l : List Call) (h : ∀ c ∈ l, isStart c = false) (port : Int) (listens : Bool) :
    ∃ s, run {} (l ++ [.start port listens]) = .ok s ∧ destroy s = .ok () ∧ s.providers = l.filterMap givesProvider ∧ s.logger = last givesLogger 0 l ∧
      s.web = some { port := port, listening := listens, logger := last givesWebLogger 0 l, buffer := last givesBuffer (128 * 1024 * 1024) l } := by
  obtain ⟨s, e, h1, h2, h3, h4, h5, h6⟩ := settings l h
  refine ⟨{ s with web := some { port := port, listening := listens, logger := s.webLogger, buffer := s.maxBuffer }, joinable := true }, ?_, ?_, ?_, ?_, ?_⟩
  · rw [run_append, e]
    simp [Res.bind, run, step, h2]
  · rfl
  · exact h3
  · exact h4
  · simp only [h5, h6]

example := start_exact_partial [.setMaxBuffersize 10, .addProvider 3, .setWarningLogger, .setMaxBuffersize 20, .addProvider 4] (by decide) 9222 true

/-- A server that was never started can be destroyed. -/
theorem never_started (l : List Call) (h : ∀ c ∈ l, isStart c = false) : ∃ s, run {} l = .ok s ∧ destroy s = .ok () := by
  obtain ⟨s, e, h1, h2, _⟩ := settings l h
  exact ⟨s, e, by simp [destroy, h1, h2]⟩

/-- Settings after `start` do not change the web server. -/
theorem late_settings_ignored (s s' : State) (l : List Call) (h : ∀ c ∈ l, isStart c = false) (e : run s l = .ok s') : s'.web = s.web ∧ s'.joinable = s.joinable := by
  induction l generalizing s with
  | nil => cases e; exact ⟨rfl, rfl⟩
  | cons c l ih =>
    have hc := h c (by simp)
    simp only [run] at e
    cases c with
    | start p b => exact absurd hc (by simp [isStart])
    | _ => simp only [step, Res.bind] at e; have := ih _ (fun x hx => h x (by simp [hx])) e; exact this

/-- **C85 fails:** calling `start` a second time ends the process, whatever is called in between. -/
theorem second_start_terminates (l l' : List Call) (h : ∀ c ∈ l, isStart c = false) (h' : ∀ c ∈ l', isStart c = false) (p q : Int) (a b : Bool) (rest : List Call) :
    run {} (l ++ .start p a :: l' ++ .start q b :: rest) = .terminate := by
  obtain ⟨s, e, _⟩ := start_exact_partial l h p a
  have e1 : l ++ .start p a :: l' ++ .start q b :: rest = (l ++ [.start p a]) ++ (l' ++ .start q b :: rest) := by simp
  rw [e1, run_append, e]
  have hj : s.joinable = true := by
    obtain ⟨s0, e0, _, h2, _⟩ := settings l h
    rw [run_append, e0] at e
    simp only [Res.bind, run, step, h2, Bool.false_eq_true, if_false, Res.ok.injEq] at e
    rw [← e]
  show run s (l' ++ .start q b :: rest) = .terminate
  rw [run_append]
  have key : ∀ (l' : List Call) (s : State), (∀ c ∈ l', isStart c = false) → ∃ s', run s l' = .ok s' := by
    intro l'
    induction l' with
    | nil => intro s _; exact ⟨s, rfl⟩
    | cons c l' ih =>
      intro s h'
      have hc := h' c (by simp)
      cases c with
      | start p b => exact absurd hc (by simp [isStart])
      | _ => exact ih _ (fun x hx => h' x (by simp [hx]))
  obtain ⟨s', e'⟩ := key l' s h'
  rw [e']
  have := (late_settings_ignored s s' l' h' e').2
  simp [Res.bind, run, step, this, hj]

/-- **C85 fails:** if the port cannot be listened on, `start` returns as if it could, and nothing listens. -/
theorem failure_unnoticed (port : Int) : ∃ s w, run {} [.start port false] = .ok s ∧ s.web = some w ∧ w.listening = false := ⟨_, _, rfl, rfl, rfl⟩

theorem not_Serves : ¬ Serves := by
  intro h
  obtain ⟨s, e, _⟩ := h [.start 1 true, .start 1 true]
  cases e

end Scalopus.C85

namespace Scalopus.C86

open Server
open JsonText (J Clean dump read written_of_clean read_of)

/-- The value of a member of a JSON object. -/
def member (k : String) : J → Option J
  | .obj l => (l.find? fun m => m.1 = some k.toList).map (·.2)
  | _ => none

theorem clean_str (s : String) : Clean (str s) := .str _

theorem clean_members (l : List (String × J)) (h : ∀ x ∈ l, Clean x.2) : Clean (members l) := by
  refine .obj _ ?_ ?_
  · intro m hm
    obtain ⟨x, _, rfl⟩ := List.mem_map.mp hm
    rfl
  · intro m hm
    obtain ⟨x, hx, rfl⟩ := List.mem_map.mp hm
    exact h x hx

theorem read_dump (j : J) (h : Clean j) : ∃ t, dump j = some t ∧ read t = some j := by
  obtain ⟨t, h1, _, n, hn, hr⟩ := written_of_clean j h
  have := read_of t j n hr [] [] rfl rfl (by simp; omega)
  exact ⟨t, h1, by simpa using this⟩

/-- **C86: the version page.** It is JSON, and names a websocket that the server has. -/
theorem version_page (favicon : Text) : ∃ t j url, page favicon "/json/version".toList = some t ∧ read t = some j ∧
    member "webSocketDebuggerUrl" j = some (.str (some url)) ∧ '/' :: url ∈ websockets := by
  obtain ⟨t, h1, h2⟩ := read_dump version (clean_members _ (by simp [clean_str]))
  refine ⟨t, version, "devtools/page/bar".toList, ?_, h2, ?_, ?_⟩
  · simp only [page, if_true]; exact h1
  · simp only [member, version, members, List.map_cons, List.map_nil]
    rfl
  · simp only [websockets, List.mem_cons]
    exact .inl (by decide)

/-- **C86: the list of targets.** Every address that begins with /json/list gives JSON, an array of one target with a title and an icon. -/
theorem list_page (favicon uri rest : Text) (h : uri = "/json/list".toList ++ rest) : ∃ t j, page favicon uri = some t ∧ read t = some (.arr [j]) ∧
    member "type" j = some (.str (some "tab".toList)) ∧ member "faviconUrl" j = some (.str (some favicon)) ∧ (member "title" j).isSome = true := by
  obtain ⟨t, h1, h2⟩ := read_dump (targets favicon) (by
    refine .arr _ ?_
    intro j hj
    simp only [List.mem_cons, List.not_mem_nil, or_false] at hj
    subst hj
    refine clean_members _ ?_
    intro x hx
    simp only [List.mem_cons, List.not_mem_nil, or_false] at hx
    rcases hx with rfl | rfl | rfl | rfl | rfl | rfl | rfl | rfl <;> exact .str _)
  refine ⟨t, _, ?_, h2, ?_, ?_, ?_⟩
  · subst h
    have hp : ("/json/list".toList).isPrefixOf ("/json/list".toList ++ rest) = true := by simp
    have hn : "/json/list".toList ++ rest ≠ "/json/version".toList := by
      intro e
      have := congrArg (fun l => l[6]?) e
      simp at this
    simp only [page]
    rw [if_neg hn, if_pos hp]
    exact h1
  · simp only [member, members, List.map_cons, List.map_nil]; rfl
  · simp only [member, members, List.map_cons, List.map_nil]; rfl
  · simp only [member, members, List.map_cons, List.map_nil]; rfl

/-- **C86: all other addresses** are not handled. -/
theorem other_pages (favicon uri : Text) (h1 : uri ≠ "/json/version".toList) (h2 : ∀ rest, uri ≠ "/json/list".toList ++ rest) : page favicon uri = none := by
  unfold page
  rw [if_neg h1, if_neg]
  intro h
  obtain ⟨rest, e⟩ := List.isPrefixOf_iff_prefix.mp h
  exact h2 rest e.symm

example := other_pages [] "/json/version2".toList (by decide) (by
  intro rest e
  have := congrArg (fun l => l[6]?) e
  simp at this)

end Scalopus.C86
