import Verif.Model.CommandLine

/-!
# C140: a command line is done as written, or not at all

`python3 -m scalopus` runs the command that its arguments name, with exactly the settings that they spell, or runs none and says so by its exit status. False: without arguments the status says that all is well, and an option between the
state and the ids of `trace_configure` is an error.
-/

namespace Scalopus.C140
open Scalopus.CommandLine

/-! ## Specification -/

/-- An argument that is not mistaken for an option: it does not begin with a dash, or is a negative number. -/
def Value (t : Text) : Prop := t.head? ≠ some '-' ∨ ∃ d : Text, t = '-' :: d ∧ d ≠ [] ∧ d.all Char.isDigit = true

/-- The ways to write an option with a value. -/
inductive Spells (long : String) (short : Option Char) (v : Text) : List Text → Prop where
  | apart : Value v → Spells long short v [long.toList, v]
  | equals : Spells long short v [long.toList ++ '=' :: v]
  | short {c : Char} : short = some c → Value v → Spells long short v [['-', c], v]
  | joined {c : Char} : short = some c → v ≠ [] → v.head? ≠ some '=' → Spells long short v ['-' :: c :: v]
  | joinedEquals {c : Char} : short = some c → Spells long short v ['-' :: c :: '=' :: v]

/-- A setting of the server, as it is written and what it means. -/
inductive Setting {F : Type} (cv : Conv F) (lttng : Bool) : List Text → (Args F → Args F) → Prop where
  | port {v : Text} {n : Int} {w : List Text} : cv.int v = some n → Spells "--port" (some 'p') v w → Setting cv lttng w fun a => { a with port := n }
  | interval {v : Text} {x : F} {w : List Text} : cv.float v = some x → Spells "--poll-interval" none v w → Setting cv lttng w fun a => { a with interval := x }
  | noPollLog : Setting cv lttng ["--no-poll-log".toList] fun a => { a with pollLog := false }
  | noCatapultLog : Setting cv lttng ["--no-catapult-log".toList] fun a => { a with catapultLog := false }
  | session {v : Text} {w : List Text} : lttng = true → Spells "--lttng-session" none v w → Setting cv lttng w fun a => { a with lttng := v }

/-- Several settings, one after the other. -/
inductive Settings {F : Type} (cv : Conv F) (lttng : Bool) : List Text → (Args F → Args F) → Prop where
  | nil : Settings cv lttng [] id
  | cons {w ws : List Text} {f g : Args F → Args F} : Setting cv lttng w f → Settings cv lttng ws g → Settings cv lttng (w ++ ws) (g ∘ f)

/-- The values that are used if nothing else is said. -/
def defaults {F : Type} (cv : Conv F) : Args F := { port := 9222, interval := cv.one, pollLog := true, catapultLog := true, lttng := "scalopus_target_session".toList, state := none, unmatched := none, ids := [] }

/-- "on" or "off" -/
def onOff (b : Bool) : Text := if b then "on".toList else "off".toList

/-- What is said about processes that are not named: `-u` in any spelling, some number of times; the last one counts. -/
inductive Unmatched : List Text → Option Bool → Option Bool → Prop where
  | nil (u : Option Bool) : Unmatched [] u u
  | cons {w ws : List Text} {b : Bool} {u u' : Option Bool} : Spells "--unmatched-pid" (some 'u') (onOff b) w → Unmatched ws (some b) u' → Unmatched (w ++ ws) u u'

/-- Numbers, as they are written. -/
inductive Numbers {F : Type} (cv : Conv F) : List Text → List Int → Prop where
  | nil : Numbers cv [] []
  | cons {t : Text} {n : Int} {ts : List Text} {ns : List Int} : Value t → cv.int t = some n → Numbers cv ts ns → Numbers cv (t :: ts) (n :: ns)

/-- An argument that asks for help: `-h` and what is written with it, or the beginning of `--help`. -/
def AsksHelp (t : Text) : Prop := (∃ r, t = '-' :: 'h' :: r) ∨ ∃ r, t ++ r = "--help".toList ∧ 3 ≤ t.length

/-- An option that does not exist: two dashes, and then, before any `=`, what no option begins with. `--lttng-session` is an option only if the library was built with LTTng. -/
def NoOption (lttng : Bool) (t : Text) : Prop := ∃ x : Text, t = '-' :: '-' :: x ∧ ' ' ∉ x ∧
  ∀ n ∈ ["help", "port", "poll-interval", "no-poll-log", "no-catapult-log", "unmatched-pid"] ++ (if lttng then ["lttng-session"] else []), ¬ x.takeWhile (· ≠ '=') <+: n.toList

/-! ## How arguments are classified -/

theorem find_mem {os : List Opt} {n : Text} {k : Kind} (h : find os n = some k) : (n, k) ∈ allNames os := by
  simp only [find, Option.map_eq_some_iff] at h
  obtain ⟨o, h1, rfl⟩ := h
  have h2 := List.find?_some h1
  simp only [decide_eq_true_eq] at h2
  exact List.mem_flatMap.2 ⟨o, List.mem_of_find?_eq_some h1, List.mem_map.2 ⟨n, h2, rfl⟩⟩

theorem find_none {os : List Opt} {n : Text} (h : ∀ x ∈ allNames os, x.1 ≠ n) : find os n = none := by
  cases hf : find os n with
  | none => rfl
  | some k => exact absurd rfl (h _ (find_mem hf))

theorem splitEq_append (n v : Text) (h : '=' ∉ n) : splitEq (n ++ '=' :: v) = some (n, v) := by
  induction n with
  | nil => simp [splitEq]
  | cons c n ih =>
    simp only [List.mem_cons, not_or] at h
    simp [splitEq, Ne.symm h.1, ih h.2]

theorem splitEq_none (t : Text) (h : '=' ∉ t) : splitEq t = none := by
  induction t with
  | nil => rfl
  | cons c t ih =>
    simp only [List.mem_cons, not_or] at h
    simp [splitEq, Ne.symm h.1, ih h.2]

/-- Every name of an option of a command: two dashes, or a dash and one letter. -/
theorem names_ok (lttng : Bool) (c : Cmd) : ∀ x ∈ allNames (options lttng c), '=' ∉ x.1 ∧ (x.1.take 2 = ['-', '-'] ∨ x.1 ∈ [['-', 'h'], ['-', 'p'], ['-', 'u']]) := by
  cases lttng <;> cases c <;> decide

theorem isPrefixOf_take2 {c : Char} {r n : Text} (h : ('-' :: c :: r).isPrefixOf n = true) : n.take 2 = ['-', c] := by
  match n, h with
  | [], h => simp at h
  | [a], h => simp at h
  | a :: b :: n, h =>
    simp only [List.isPrefixOf, Bool.and_eq_true, beq_iff_eq] at h
    simp [← h.1, ← h.2.1]

theorem filterMap_same {α β : Type} {l : List α} {f g : α → Option β} (h : ∀ x ∈ l, f x = g x) : l.filterMap f = l.filterMap g := by
  induction l with
  | nil => rfl
  | cons x l ih => rw [List.filterMap_cons, List.filterMap_cons, h x List.mem_cons_self, ih fun y hy => h y (List.mem_cons_of_mem _ hy)]

/-- A dash and a character that no option has. -/
theorem classify_other {os : List Opt} {c : Char} {r : Text} (hc : c ≠ '-') (he : c ≠ '=') (h : ∀ x ∈ allNames os, x.1.take 2 ≠ ['-', c]) :
    classify os ('-' :: c :: r) = if negativeNumber ('-' :: c :: r) || ('-' :: c :: r).contains ' ' then .arg else .unknown := by
  have h1 : find os ('-' :: c :: r) = none := find_none fun x hx e => h x hx (by rw [e]; rfl)
  have h2 : ((splitEq ('-' :: c :: r)).bind fun x => (find os x.1).map fun k => (k, x)) = none := by
    have e : splitEq ('-' :: c :: r) = (splitEq r).map fun x => ('-' :: c :: x.1, x.2) := by
      simp [splitEq, he, Function.comp_def]
    rw [e]
    cases splitEq r with
    | none => rfl
    | some x =>
      simp only [Option.map_some, Option.bind_some, Option.map_eq_none_iff]
      exact find_none fun y hy e => h y hy (by rw [e]; rfl)
  have h3 : abbreviations os ('-' :: c :: r) = [] := by
    unfold abbreviations
    split
    · next e => simp only [List.cons.injEq] at e; exact absurd e.2.1 hc
    · next c' r' _ e =>
      simp only [List.cons.injEq, true_and] at e
      obtain ⟨rfl, rfl⟩ := e
      rw [List.filterMap_eq_nil_iff]
      intro x hx
      rw [if_neg (fun e => h x hx (by rw [e]; rfl)), if_neg (fun e => h x hx (isPrefixOf_take2 e))]
    · rfl
  simp [classify, h1, h2, h3, hc]

/-- A value is not taken for an option, by any command. -/
theorem value_arg (lttng : Bool) (cmd : Cmd) {t : Text} (h : Value t) : classify (options lttng cmd) t = .arg := by
  rcases h with h | ⟨d, rfl, h1, h2⟩
  · simp [classify, h]
  · cases d with
    | nil => exact absurd rfl h1
    | cons c d =>
      have hc : c.isDigit = true := by simp only [List.all_cons, Bool.and_eq_true] at h2; exact h2.1
      have hd : c ≠ '-' ∧ c ≠ 'h' ∧ c ≠ 'p' ∧ c ≠ 'u' ∧ c ≠ '=' := by
        refine ⟨?_, ?_, ?_, ?_, ?_⟩ <;> (rintro rfl; revert hc; decide)
      rw [classify_other hd.1 hd.2.2.2.2 ?_]
      · have hn : negativeNumber ('-' :: c :: d) = true := by
          simp only [negativeNumber, decide_eq_true_eq]
          exact .inl ⟨by simp, h2⟩
        simp [hn]
      · intro x hx e
        rcases (names_ok lttng cmd x hx).2 with h | h
        · rw [h] at e; simp only [List.cons.injEq, true_and, and_true] at e; exact hd.1 e.symm
        · simp only [List.mem_cons, List.not_mem_nil, or_false] at h
          rcases h with h | h | h <;> (rw [h] at e; simp only [List.take, List.cons.injEq, true_and, and_true] at e)
          · exact hd.2.1 e.symm
          · exact hd.2.2.1 e.symm
          · exact hd.2.2.2.1 e.symm

/-- A long name and a value in one argument. -/
theorem classify_equals {lttng : Bool} {cmd : Cmd} {n v : Text} {k : Kind} (hn : n.head? = some '-') (hf : find (options lttng cmd) n = some k) : classify (options lttng cmd) (n ++ '=' :: v) = .opt k n (some (true, v)) := by
  have hm := find_mem hf
  have he := (names_ok lttng cmd _ hm).1
  have h1 : find (options lttng cmd) (n ++ '=' :: v) = none := find_none fun x hx e => (names_ok lttng cmd x hx).1 (by rw [e]; simp)
  have h2 : (n ++ '=' :: v).head? = some '-' := by cases n <;> simp_all
  have h3 : ¬ (n.length + (v.length + 1) = 1) := by
    cases n with
    | nil => cases hn
    | cons c n => simp only [List.length_cons]; omega
  have h4 : n ++ '=' :: v ≠ ['-', '-'] := fun e => by
    have : '=' ∈ n ++ '=' :: v := by simp
    rw [e] at this
    exact absurd this (by decide)
  simp [classify, h1, h2, h3, h4, splitEq_append n v he, hf]

theorem classify_name {lttng : Bool} {cmd : Cmd} {n : Text} {k : Kind} (hn : n.head? = some '-') (hf : find (options lttng cmd) n = some k) : classify (options lttng cmd) n = .opt k n none := by
  have h : n ≠ ['-', '-'] := by
    rintro rfl
    have := find_mem hf
    revert this
    cases lttng <;> cases cmd <;> cases k <;> decide
  simp [classify, hn, hf, h]

/-- A short name and a value in one argument. -/
theorem classify_joined {lttng : Bool} {cmd : Cmd} {c : Char} {v : Text} {k : Kind} (hf : (cmd, c, k) ∈ [(.catapultServer, 'p', Kind.port), (Cmd.traceConfigure, 'u', .unmatched)]) (hv : v ≠ []) (he : v.head? ≠ some '=') :
    classify (options lttng cmd) ('-' :: c :: v) = .opt k ['-', c] (some (false, v)) := by
  have hc : c ≠ '-' ∧ c ≠ '=' := by
    simp only [List.mem_cons, Prod.mk.injEq, List.not_mem_nil, or_false] at hf
    rcases hf with ⟨_, rfl, _⟩ | ⟨_, rfl, _⟩ <;> decide
  have hlen : ∀ x ∈ allNames (options lttng cmd), x.1.take 2 = ['-', c] → x.1 = ['-', c] := by
    intro x hx e
    rcases (names_ok lttng cmd x hx).2 with h | h
    · rw [h] at e; simp only [List.cons.injEq, true_and, and_true] at e; exact absurd e.symm hc.1
    · simp only [List.mem_cons, List.not_mem_nil, or_false] at h
      rcases h with h | h | h <;> (rw [h] at e ⊢; exact e)
  have h0 : ∀ u : Text, u ≠ [] → ∀ x ∈ allNames (options lttng cmd), x.1 ≠ '-' :: c :: u := by
    intro u hu x hx e
    have := hlen x hx (by rw [e]; rfl)
    rw [this] at e
    simp only [List.cons.injEq, true_and] at e
    exact hu e.symm
  have h1 : find (options lttng cmd) ('-' :: c :: v) = none := find_none (h0 v hv)
  have h2 : ((splitEq ('-' :: c :: v)).bind fun x => (find (options lttng cmd) x.1).map fun k => (k, x)) = none := by
    cases v with
    | nil => exact absurd rfl hv
    | cons b v =>
      have hb : b ≠ '=' := by simpa using he
      have e : splitEq ('-' :: c :: b :: v) = (splitEq v).map fun x => ('-' :: c :: b :: x.1, x.2) := by
        simp [splitEq, hc.2, hb, Function.comp_def]
      rw [e]
      cases splitEq v with
      | none => rfl
      | some x =>
        simp only [Option.map_some, Option.bind_some, Option.map_eq_none_iff]
        exact find_none (h0 _ (by simp))
  have hp : ∀ x ∈ allNames (options lttng cmd), x.1 ≠ ['-', c] → ('-' :: c :: v).isPrefixOf x.1 = false := by
    intro x hx hne
    cases e : ('-' :: c :: v).isPrefixOf x.1 with
    | false => rfl
    | true => exact absurd (hlen x hx (isPrefixOf_take2 e)) hne
  have h3 : abbreviations (options lttng cmd) ('-' :: c :: v) = [(k, ['-', c], some (false, v))] := by
    have e1 : abbreviations (options lttng cmd) ('-' :: c :: v) = (allNames (options lttng cmd)).filterMap fun x => if x.1 = ['-', c] then some (x.2, x.1, some (false, v)) else none := by
      unfold abbreviations
      split
      · next e => simp only [List.cons.injEq] at e; exact absurd e.2.1 hc.1
      · next c' r' _ e =>
        simp only [List.cons.injEq, true_and] at e
        obtain ⟨rfl, rfl⟩ := e
        apply filterMap_same
        intro x hx
        by_cases hx2 : x.1 = ['-', c]
        · rw [if_pos hx2, if_pos hx2]
        · rw [if_neg hx2, if_neg hx2, hp x hx hx2]; rfl
      · next h4 h5 => exact absurd rfl (h5 c v)
    rw [e1]
    simp only [List.mem_cons, Prod.mk.injEq, List.not_mem_nil, or_false] at hf
    rcases hf with ⟨rfl, rfl, rfl⟩ | ⟨rfl, rfl, rfl⟩ <;> cases lttng <;> rfl
  simp [classify, h1, h2, h3, hc.1]

/-! ## Options of a command -/

/-- The arguments, classified. -/
def classified (lttng : Bool) (cmd : Cmd) (l : List Text) : List (Text × Cls) := l.map fun t => (t, classify (options lttng cmd) t)

theorem classified_append (lttng : Bool) (cmd : Cmd) (l l' : List Text) : classified lttng cmd (l ++ l') = classified lttng cmd l ++ classified lttng cmd l' := List.map_append

/-- After an option, arguments are no longer taken as ids. -/
def passed (p : Place) : Place := if p = .inside then .after else p

theorem loop_flag {F : Type} (cv : Conv F) (os : List Opt) (p : Place) (a a' : Args F) (ex : List Text) (t n : Text) (k : Kind) (l : List (Text × Cls)) (hk : k.arity = .none) (ha : act cv k none a = .ok a') :
    loop cv os p a ex ((t, .opt k n none) :: l) = loop cv os (passed p) a' ex l := by
  cases l with
  | nil => simp [loop, hk, ha]
  | cons x l => obtain ⟨t', c⟩ := x; simp [loop, hk, ha, passed]

theorem loop_explicit {F : Type} (cv : Conv F) (os : List Opt) (p : Place) (a a' : Args F) (ex : List Text) (t n v : Text) (e : Bool) (k : Kind) (l : List (Text × Cls)) (hk : k.arity ≠ .none) (ha : act cv k (some v) a = .ok a') :
    loop cv os p a ex ((t, .opt k n (some (e, v))) :: l) = loop cv os (passed p) a' ex l := by
  have : explicit cv os (l.head?.any fun x => x.2 = .arg) k n (e, v) a = .ok a' := by
    unfold explicit
    cases h : k.arity with
    | none => exact absurd h hk
    | one => exact ha
    | optional => exact ha
  simp [loop, this, passed]

theorem loop_apart {F : Type} (cv : Conv F) (os : List Opt) (p : Place) (a a' : Args F) (ex : List Text) (t n v : Text) (k : Kind) (l : List (Text × Cls)) (hk : k.arity ≠ .none) (ha : act cv k (some v) a = .ok a') :
    loop cv os p a ex ((t, .opt k n none) :: (v, .arg) :: l) = loop cv os (passed p) a' ex l := by
  cases h : k.arity with
  | none => exact absurd h hk
  | one => simp [loop, h, ha, passed]
  | optional => simp [loop, h, ha, passed]

/-- An option with a value, in any spelling. -/
theorem loop_spells {F : Type} (cv : Conv F) {lttng : Bool} {cmd : Cmd} {long : String} {short : Option Char} {v : Text} {w : List Text} {k : Kind} (hw : Spells long short v w) (hl : long.toList.head? = some '-')
    (hf : find (options lttng cmd) long.toList = some k) (hs : ∀ c, short = some c → find (options lttng cmd) ['-', c] = some k ∧ (cmd, c, k) ∈ [(.catapultServer, 'p', Kind.port), (Cmd.traceConfigure, 'u', .unmatched)])
    (hk : k.arity ≠ .none) {a a' : Args F} (ha : act cv k (some v) a = .ok a') (p : Place) (ex : List Text) (l : List (Text × Cls)) :
    loop cv (options lttng cmd) p a ex (classified lttng cmd w ++ l) = loop cv (options lttng cmd) (passed p) a' ex l := by
  cases hw with
  | apart hv =>
    simp only [classified, List.map_cons, List.map_nil, List.cons_append, List.nil_append, classify_name hl hf, value_arg lttng cmd hv]
    exact loop_apart cv _ p a a' ex _ _ v k l hk ha
  | equals =>
    simp only [classified, List.map_cons, List.map_nil, List.cons_append, List.nil_append, classify_equals hl hf]
    exact loop_explicit cv _ p a a' ex _ _ v _ k l hk ha
  | short hc hv =>
    simp only [classified, List.map_cons, List.map_nil, List.cons_append, List.nil_append, classify_name (n := ['-', _]) rfl (hs _ hc).1, value_arg lttng cmd hv]
    exact loop_apart cv _ p a a' ex _ _ v k l hk ha
  | joined hc h1 h2 =>
    simp only [classified, List.map_cons, List.map_nil, List.cons_append, List.nil_append, classify_joined (hs _ hc).2 h1 h2]
    exact loop_explicit cv _ p a a' ex _ _ v _ k l hk ha
  | @joinedEquals c hc =>
    have := classify_equals (v := v) (n := ['-', c]) rfl (hs _ hc).1
    simp only [List.cons_append, List.nil_append] at this
    simp only [classified, List.map_cons, List.map_nil, List.cons_append, List.nil_append, this]
    exact loop_explicit cv _ p a a' ex _ _ v _ k l hk ha

/-- No argument in the spelling of an option is ambiguous. -/
theorem spells_clear {lttng : Bool} {cmd : Cmd} {long : String} {short : Option Char} {v : Text} {w : List Text} {k : Kind} (hw : Spells long short v w) (hl : long.toList.head? = some '-')
    (hf : find (options lttng cmd) long.toList = some k) (hs : ∀ c, short = some c → find (options lttng cmd) ['-', c] = some k ∧ (cmd, c, k) ∈ [(.catapultServer, 'p', Kind.port), (Cmd.traceConfigure, 'u', .unmatched)]) :
    ∀ t ∈ w, classify (options lttng cmd) t ≠ .ambiguous := by
  intro t ht
  cases hw with
  | apart hv =>
    simp only [List.mem_cons, List.not_mem_nil, or_false] at ht
    rcases ht with rfl | rfl
    · rw [classify_name hl hf]; exact fun e => by cases e
    · rw [value_arg lttng cmd hv]; exact fun e => by cases e
  | equals =>
    rcases List.mem_singleton.1 ht with rfl
    rw [classify_equals hl hf]; exact fun e => by cases e
  | short hc hv =>
    simp only [List.mem_cons, List.not_mem_nil, or_false] at ht
    rcases ht with rfl | rfl
    · rw [classify_name (n := ['-', _]) rfl (hs _ hc).1]; exact fun e => by cases e
    · rw [value_arg lttng cmd hv]; exact fun e => by cases e
  | joined hc h1 h2 =>
    rcases List.mem_singleton.1 ht with rfl
    rw [classify_joined (hs _ hc).2 h1 h2]; exact fun e => by cases e
  | @joinedEquals c hc =>
    rcases List.mem_singleton.1 ht with rfl
    have := classify_equals (v := v) (n := ['-', c]) rfl (hs _ hc).1
    simp only [List.cons_append, List.nil_append] at this
    rw [this]; exact fun e => by cases e

/-! ## The server -/

theorem setting_loop {F : Type} (cv : Conv F) {lttng : Bool} {w : List Text} {f : Args F → Args F} (h : Setting cv lttng w f) :
    (∀ t ∈ w, classify (options lttng .catapultServer) t ≠ .ambiguous) ∧
    ∀ (a : Args F) (ex : List Text) (l : List (Text × Cls)), loop cv (options lttng .catapultServer) .after a ex (classified lttng .catapultServer w ++ l) = loop cv (options lttng .catapultServer) .after (f a) ex l := by
  cases h with
  | port hv hw =>
    have hf : find (options lttng .catapultServer) "--port".toList = some .port := by cases lttng <;> decide
    have hs : ∀ c, some 'p' = some c → find (options lttng .catapultServer) ['-', c] = some .port ∧ (Cmd.catapultServer, c, Kind.port) ∈ [(.catapultServer, 'p', Kind.port), (Cmd.traceConfigure, 'u', .unmatched)] := by
      intro c hc; cases hc; exact ⟨by cases lttng <;> decide, by decide⟩
    exact ⟨spells_clear hw (by decide) hf hs, fun a ex l => loop_spells cv hw (by decide) hf hs (by decide) (by simp [act, hv]) .after ex l⟩
  | interval hv hw =>
    have hf : find (options lttng .catapultServer) "--poll-interval".toList = some .interval := by cases lttng <;> decide
    exact ⟨spells_clear hw (by decide) hf (fun _ hc => by cases hc), fun a ex l => loop_spells cv hw (by decide) hf (fun _ hc => by cases hc) (by decide) (by simp [act, hv]) .after ex l⟩
  | session hl hw =>
    subst hl
    have hf : find (options true .catapultServer) "--lttng-session".toList = some .lttng := by decide
    exact ⟨spells_clear hw (by decide) hf (fun _ hc => by cases hc), fun a ex l => loop_spells cv hw (by decide) hf (fun _ hc => by cases hc) (by decide) (by simp [act]) .after ex l⟩
  | noPollLog =>
    have hf : find (options lttng .catapultServer) "--no-poll-log".toList = some .noPollLog := by cases lttng <;> decide
    refine ⟨fun t ht => ?_, fun a ex l => ?_⟩
    · rcases List.mem_singleton.1 ht with rfl
      rw [classify_name (by decide) hf]; exact fun e => by cases e
    · simp only [classified, List.map_cons, List.map_nil, List.cons_append, List.nil_append, classify_name (n := "--no-poll-log".toList) (by decide) hf]
      exact loop_flag cv _ .after a _ ex _ _ _ l (by decide) (by simp [act])
  | noCatapultLog =>
    have hf : find (options lttng .catapultServer) "--no-catapult-log".toList = some .noCatapultLog := by cases lttng <;> decide
    refine ⟨fun t ht => ?_, fun a ex l => ?_⟩
    · rcases List.mem_singleton.1 ht with rfl
      rw [classify_name (by decide) hf]; exact fun e => by cases e
    · simp only [classified, List.map_cons, List.map_nil, List.cons_append, List.nil_append, classify_name (n := "--no-catapult-log".toList) (by decide) hf]
      exact loop_flag cv _ .after a _ ex _ _ _ l (by decide) (by simp [act])

theorem settings_loop {F : Type} (cv : Conv F) {lttng : Bool} {w : List Text} {f : Args F → Args F} (h : Settings cv lttng w f) :
    (∀ t ∈ w, classify (options lttng .catapultServer) t ≠ .ambiguous) ∧
    ∀ (a : Args F) (ex : List Text) (l : List (Text × Cls)), loop cv (options lttng .catapultServer) .after a ex (classified lttng .catapultServer w ++ l) = loop cv (options lttng .catapultServer) .after (f a) ex l := by
  induction h with
  | nil => exact ⟨(fun t ht => by cases ht), fun a ex l => rfl⟩
  | cons h1 _ ih =>
    have h2 := setting_loop cv h1
    refine ⟨fun t ht => (List.mem_append.1 ht).elim (h2.1 t) (ih.1 t), fun a ex l => ?_⟩
    rw [classified_append, List.append_assoc]
    exact (h2.2 a ex _).trans (ih.2 _ ex l)

theorem top_command {F : Type} (cv : Conv F) (lttng : Bool) (n : Text) (c : Cmd) (hn : commands.lookup n = some c) (ha : classify [helpOpt] n = .arg) (l : List Text) : main cv lttng (n :: l) = match parseCommand cv lttng c l with
    | .error e => .exits e
    | .ok (a, more) => if more = [] then .runs c a else .exits .usage := by
  simp only [main, top, ha, hn, List.nil_append]
  rfl

/-- **C140, the server.** With any settings, in any number and any spelling, the server is run, and each setting has the last value that was given for it, or its default. -/
theorem server_as_written {F : Type} (cv : Conv F) (lttng : Bool) {w : List Text} {f : Args F → Args F} (h : Settings cv lttng w f) : main cv lttng ("catapult_server".toList :: w) = .runs .catapultServer (f (defaults cv)) := by
  rw [top_command cv lttng _ .catapultServer (by decide) (by decide)]
  have h2 := settings_loop cv h
  have h3 : (w.any fun t => decide (classify (options lttng .catapultServer) t = .ambiguous)) = false := by
    rw [List.any_eq_false]; intro t ht; simpa using h2.1 t ht
  have h4 := h2.2 (defaults cv) [] []
  rw [List.append_nil] at h4
  have h5 : parseCommand cv lttng .catapultServer w = .ok (f (defaults cv), []) := by
    unfold parseCommand
    simp only [h3, Bool.false_eq_true, if_false]
    exact h4.trans rfl
  rw [h5]; rfl

/-! ## `trace_configure` -/

theorem value_onOff (b : Bool) : Value (onOff b) := .inl (by cases b <;> decide)

theorem choice_onOff (b : Bool) : choice (onOff b) = .ok b := by cases b <;> rfl

theorem unmatched_loop {F : Type} (cv : Conv F) {lttng : Bool} {w : List Text} {u u' : Option Bool} (h : Unmatched w u u') :
    (∀ t ∈ w, classify (options lttng .traceConfigure) t ≠ .ambiguous) ∧
    ∀ (p : Place) (a : Args F) (ex : List Text) (l : List (Text × Cls)), a.unmatched = u →
      loop cv (options lttng .traceConfigure) p a ex (classified lttng .traceConfigure w ++ l) = loop cv (options lttng .traceConfigure) (if w = [] then p else passed p) { a with unmatched := u' } ex l := by
  induction h with
  | nil u => exact ⟨(fun t ht => by cases ht), fun p a ex l hu => by subst hu; rfl⟩
  | @cons w ws b u u' h1 _ ih =>
    have hf : find (options lttng .traceConfigure) "--unmatched-pid".toList = some .unmatched := by cases lttng <;> decide
    have hs : ∀ c, some 'u' = some c → find (options lttng .traceConfigure) ['-', c] = some .unmatched ∧ (Cmd.traceConfigure, c, Kind.unmatched) ∈ [(.catapultServer, 'p', Kind.port), (Cmd.traceConfigure, 'u', .unmatched)] := by
      intro c hc; cases hc; exact ⟨by cases lttng <;> decide, by decide⟩
    refine ⟨fun t ht => (List.mem_append.1 ht).elim (spells_clear h1 (by decide) hf hs t) (ih.1 t), fun p a ex l hu => ?_⟩
    have hne : w ≠ [] := by cases h1 <;> simp
    rw [classified_append, List.append_assoc, loop_spells cv h1 (by decide) hf hs (by decide) (a' := { a with unmatched := some b }) (by simp [act, choice_onOff, Except.map]), ih.2 _ _ _ _ rfl]
    have hp : passed (passed p) = passed p := by cases p <;> decide
    simp [hne, hp]

theorem numbers_loop {F : Type} (cv : Conv F) {lttng : Bool} {ts : List Text} {ns : List Int} (h : Numbers cv ts ns) :
    (∀ t ∈ ts, classify (options lttng .traceConfigure) t ≠ .ambiguous) ∧
    ∀ (a : Args F) (ex : List Text) (l : List (Text × Cls)),
      loop cv (options lttng .traceConfigure) .inside a ex (classified lttng .traceConfigure ts ++ l) = loop cv (options lttng .traceConfigure) .inside { a with ids := a.ids ++ ns } ex l := by
  induction h with
  | nil => exact ⟨(fun t ht => by cases ht), fun a ex l => by simp [classified]⟩
  | @cons t n ts ns hv hn _ ih =>
    refine ⟨fun t' ht => ?_, fun a ex l => ?_⟩
    · rcases List.mem_cons.1 ht with rfl | ht
      · rw [value_arg lttng _ hv]; exact fun e => by cases e
      · exact ih.1 t' ht
    · have := ih.2 { a with ids := a.ids ++ [n] } ex l
      simp only [classified, List.map_cons, List.cons_append, value_arg lttng _ hv, loop, hn] at this ⊢
      rw [this]
      simp

theorem parse_of_loop {F : Type} {cv : Conv F} {lttng : Bool} {c : Cmd} {l : List Text} {r : Except Exit (Args F × List Text)} (h1 : ∀ t ∈ l, classify (options lttng c) t ≠ .ambiguous)
    (h2 : loop cv (options lttng c) (if c = .traceConfigure then .before else .after) (defaults cv) [] (classified lttng c l) = r) : parseCommand cv lttng c l = r := by
  have h3 : (l.any fun t => decide (classify (options lttng c) t = .ambiguous)) = false := by
    rw [List.any_eq_false]; intro t ht; simpa using h1 t ht
  unfold parseCommand
  simp only [h3, Bool.false_eq_true, if_false]
  exact h2

/-- **C140, `trace_configure`.** With a state and ids, and any number of options before and after them, the command is run with exactly these. -/
theorem configure_as_written {F : Type} (cv : Conv F) (lttng : Bool) {before after ids : List Text} {u u' : Option Bool} {b : Bool} {ns : List Int} (h1 : Unmatched before none u) (h2 : Numbers cv ids ns) (h3 : Unmatched after u u') :
    main cv lttng ("trace_configure".toList :: before ++ onOff b :: ids ++ after) = .runs .traceConfigure { defaults cv with state := some b, unmatched := u', ids := ns } := by
  have hl1 := unmatched_loop cv (lttng := lttng) h1
  have hl2 := numbers_loop cv (lttng := lttng) h2
  have hl3 := unmatched_loop cv (lttng := lttng) h3
  have key : parseCommand cv lttng .traceConfigure (before ++ onOff b :: ids ++ after) = .ok ({ defaults cv with state := some b, unmatched := u', ids := ns }, []) := by
    refine parse_of_loop (fun t ht => ?_) ?_
    · simp only [List.mem_append, List.mem_cons] at ht
      rcases ht with (ht | rfl | ht) | ht
      · exact hl1.1 t ht
      · rw [value_arg lttng _ (value_onOff b)]; exact fun e => by cases e
      · exact hl2.1 t ht
      · exact hl3.1 t ht
    · rw [if_pos rfl, List.append_assoc, classified_append, hl1.2 _ _ _ _ rfl]
      have hp : (if before = [] then Place.before else passed .before) = .before := by split <;> rfl
      rw [hp, List.cons_append]
      simp only [classified, List.map_cons, List.map_append, value_arg lttng _ (value_onOff b), loop, choice_onOff]
      have e2 := hl2.2 { defaults cv with unmatched := u, state := some b } [] (classified lttng .traceConfigure after)
      simp only [classified] at e2
      rw [e2]
      have e3 := hl3.2 .inside { defaults cv with unmatched := u, state := some b, ids := (defaults cv).ids ++ ns } [] [] rfl
      rw [List.append_nil] at e3
      simp only [classified] at e3
      rw [e3]
      simp [loop, defaults]
  rw [List.cons_append, List.cons_append, top_command cv lttng _ .traceConfigure (by decide) (by decide), key]
  rfl

/-- Without a state, and so without ids. -/
theorem configure_without_state {F : Type} (cv : Conv F) (lttng : Bool) {w : List Text} {u : Option Bool} (h : Unmatched w none u) :
    main cv lttng ("trace_configure".toList :: w) = .runs .traceConfigure { defaults cv with unmatched := u } := by
  have hl := unmatched_loop cv (lttng := lttng) h
  have e := hl.2 .before (defaults cv) [] [] rfl
  rw [List.append_nil] at e
  have key : parseCommand cv lttng .traceConfigure w = .ok ({ defaults cv with unmatched := u }, []) := parse_of_loop hl.1 (by rw [if_pos rfl, e]; simp [loop])
  rw [top_command cv lttng _ .traceConfigure (by decide) (by decide), key]
  rfl

/-- Ids without a state are an error. -/
theorem ids_need_state {F : Type} (cv : Conv F) (lttng : Bool) {w l : List Text} {u : Option Bool} {t : Text} (h : Unmatched w none u) (hv : Value t) (ht : ∀ b, t ≠ onOff b) :
    main cv lttng ("trace_configure".toList :: w ++ t :: l) = .exits .usage := by
  have hl := unmatched_loop cv (lttng := lttng) h
  have key : parseCommand cv lttng .traceConfigure (w ++ t :: l) = .error .usage := by
    unfold parseCommand
    by_cases ha : ((w ++ t :: l).any fun t => decide (classify (options lttng .traceConfigure) t = .ambiguous)) = true
    · simp [ha]
    · simp only [ha, if_false, Bool.false_eq_true]
      have e := hl.2 .before (defaults cv) [] (classified lttng .traceConfigure (t :: l)) rfl
      rw [← classified_append] at e
      show loop cv _ (if True then .before else .after) (defaults cv) [] (classified lttng .traceConfigure (w ++ t :: l)) = _
      rw [if_pos trivial, e]
      have hp : (if w = [] then Place.before else passed .before) = .before := by split <;> rfl
      have hc : choice t = .error .usage := by
        show (if t = onOff true then Except.ok true else if t = onOff false then Except.ok false else .error .usage) = Except.error Exit.usage
        rw [if_neg (ht true), if_neg (ht false)]
      simp only [hp, classified, List.map_cons, value_arg lttng _ hv, loop, hc]
  rw [List.cons_append, top_command cv lttng _ .traceConfigure (by decide) (by decide), key]

/-- The full statement: options may stand in any place. -/
def AnyPlace : Prop := ∀ (F : Type) (cv : Conv F) (lttng : Bool) (b c : Bool) (ids w : List Text) (ns : List Int), Numbers cv ids ns → Spells "--unmatched-pid" (some 'u') (onOff c) w →
  main cv lttng ("trace_configure".toList :: onOff b :: w ++ ids) = .runs .traceConfigure { defaults cv with state := some b, unmatched := some c, ids := ns }

theorem extras_loop {F : Type} (cv : Conv F) {lttng : Bool} {ts : List Text} (h : ∀ t ∈ ts, Value t) : ∀ (a : Args F) (ex : List Text), loop cv (options lttng .traceConfigure) .after a ex (classified lttng .traceConfigure ts) = .ok (a, ex ++ ts) := by
  induction ts with
  | nil => intro a ex; simp [classified, loop]
  | cons t ts ih =>
    intro a ex
    have := ih (fun x hx => h x (List.mem_cons_of_mem _ hx)) a (ex ++ [t])
    simp only [classified] at this
    simp only [classified, List.map_cons, value_arg lttng _ (h t List.mem_cons_self), loop, this]
    simp

/-- **C140 fails**: an option between the state and the ids is always an error. -/
theorem option_between {F : Type} (cv : Conv F) (lttng : Bool) {b : Bool} {w ids : List Text} {u u' : Option Bool} (h1 : Unmatched w u u') (hw : w ≠ []) (hu : u = none) (h2 : ∀ t ∈ ids, Value t) (hi : ids ≠ []) :
    main cv lttng ("trace_configure".toList :: onOff b :: w ++ ids) = .exits .usage := by
  subst hu
  have hl := unmatched_loop cv (lttng := lttng) h1
  have key : parseCommand cv lttng .traceConfigure (onOff b :: w ++ ids) = .ok ({ defaults cv with state := some b, unmatched := u' }, ids) := by
    refine parse_of_loop (fun t ht => ?_) ?_
    · simp only [List.cons_append, List.mem_cons, List.mem_append] at ht
      rcases ht with rfl | ht | ht
      · rw [value_arg lttng _ (value_onOff b)]; exact fun e => by cases e
      · exact hl.1 t ht
      · rw [value_arg lttng _ (h2 t ht)]; exact fun e => by cases e
    · rw [if_pos rfl]
      have e := hl.2 .inside { defaults cv with state := some b } [] (classified lttng .traceConfigure ids) rfl
      rw [← classified_append] at e
      have : classified lttng .traceConfigure (onOff b :: w ++ ids) = (onOff b, .arg) :: classified lttng .traceConfigure (w ++ ids) := by
        simp only [List.cons_append, classified, List.map_cons, value_arg lttng _ (value_onOff b)]
      rw [this]
      simp only [loop, choice_onOff]
      rw [e, if_neg hw]
      exact (extras_loop cv h2 _ _).trans rfl
  rw [List.cons_append, top_command cv lttng _ .traceConfigure (by decide) (by decide), key]
  exact if_neg hi

theorem not_AnyPlace : ¬ AnyPlace := by
  intro h
  have hn : Numbers (⟨fun _ => some 7, fun _ => none, ()⟩ : Conv Unit) [['7']] [7] := .cons (.inl (by decide)) rfl .nil
  have hs : Spells "--unmatched-pid" (some 'u') (onOff false) [['-', 'u'], onOff false] := .short rfl (value_onOff false)
  have h1 := h Unit _ false true false _ _ _ hn hs
  have h2 := option_between (⟨fun _ => some 7, fun _ => none, ()⟩ : Conv Unit) false (b := true) (w := [['-', 'u'], onOff false]) (ids := [['7']]) (u := none) (.cons (ws := []) hs (.nil _)) (by simp) rfl (fun t ht => by
    rcases List.mem_singleton.1 ht with rfl; exact .inl (by decide)) (by simp)
  rw [h1] at h2
  cases h2

/-! ## Nothing else is run -/

theorem top_runs {F : Type} {cv : Conv F} {lttng : Bool} {c : Cmd} {a : Args F} : ∀ {l ex : List Text}, top cv lttng ex l = .runs c a → ex = [] ∧ ∃ n r, l = n :: r ∧ commands.lookup n = some c ∧ parseCommand cv lttng c r = .ok (a, []) := by
  intro l
  induction l with
  | nil => intro ex h; simp only [top] at h; split at h <;> cases h
  | cons t l ih =>
    intro ex h
    simp only [top] at h
    split at h
    · split at h
      · cases h
      · next c' hc =>
        split at h
        · cases h
        · next a' more hp =>
          split at h
          · next he =>
            cases h
            simp only [List.append_eq_nil_iff] at he
            obtain ⟨rfl, rfl⟩ := he
            exact ⟨rfl, t, l, rfl, hc, hp⟩
          · cases h
    · have := (ih h).1; simp at this
    · cases h
    · cases h
    · cases h

theorem lookup_name {n : Text} {c : Cmd} (h : commands.lookup n = some c) : (n, c) ∈ commands := by
  have : ∀ l : List (Text × Cmd), l.lookup n = some c → (n, c) ∈ l := by
    intro l
    induction l with
    | nil => intro h; cases h
    | cons x l ih =>
      intro h
      obtain ⟨m, d⟩ := x
      simp only [List.lookup] at h
      split at h
      · next e => cases h; rw [beq_iff_eq] at e; subst e; exact List.mem_cons_self
      · exact List.mem_cons_of_mem _ (ih h)
  exact this _ h

/-- **C140.** A command is run only if its name is the first argument. -/
theorem run_was_named {F : Type} {cv : Conv F} {lttng : Bool} {c : Cmd} {a : Args F} {l : List Text} (h : main cv lttng l = .runs c a) :
    ∃ r, l = (match c with
      | .catapultServer => "catapult_server"
      | .discover => "discover"
      | .record => "record"
      | .traceConfigure => "trace_configure").toList :: r := by
  obtain ⟨_, n, r, rfl, hn, _⟩ := top_runs h
  have := lookup_name hn
  simp only [commands, List.mem_cons, Prod.mk.injEq, List.not_mem_nil, or_false] at this
  rcases this with ⟨rfl, rfl⟩ | ⟨rfl, rfl⟩ | ⟨rfl, rfl⟩ | ⟨rfl, rfl⟩ <;> exact ⟨r, rfl⟩

/-- A first argument that is neither a command nor begins with a dash is an error. -/
theorem unknown_command {F : Type} (cv : Conv F) (lttng : Bool) {t : Text} {l : List Text} (hd : t.head? ≠ some '-') (ht : t ∉ ["catapult_server".toList, "discover".toList, "record".toList, "trace_configure".toList]) :
    main cv lttng (t :: l) = .exits .usage := by
  have h1 : classify [helpOpt] t = .arg := by simp [classify, hd]
  have h2 : commands.lookup t = none := by
    cases h : commands.lookup t with
    | none => rfl
    | some c =>
      have := lookup_name h
      simp only [commands, List.mem_cons, Prod.mk.injEq, List.not_mem_nil, or_false] at this
      exact absurd (by rcases this with ⟨rfl, _⟩ | ⟨rfl, _⟩ | ⟨rfl, _⟩ | ⟨rfl, _⟩ <;> simp) ht
  simp [main, top, h1, h2]

theorem abbreviation_name {os : List Opt} {t : Text} {x : Kind × Text × Option (Bool × Text)} (h : x ∈ abbreviations os t) : (x.2.1, x.1) ∈ allNames os := by
  unfold abbreviations at h
  split at h
  · split at h
    · obtain ⟨y, hy, rfl⟩ := List.mem_map.1 h; exact (List.mem_filter.1 hy).1
    · obtain ⟨y, hy, rfl⟩ := List.mem_map.1 h; exact (List.mem_filter.1 hy).1
  · obtain ⟨y, hy, hx⟩ := List.mem_filterMap.1 h
    split at hx
    · cases hx; exact hy
    · split at hx
      · cases hx; exact hy
      · cases hx
  · cases h

/-- What is taken for an option is one. -/
theorem classify_names {os : List Opt} {t n : Text} {k : Kind} {v : Option (Bool × Text)} (h : classify os t = .opt k n v) : (n, k) ∈ allNames os := by
  unfold classify at h
  split at h
  · cases h
  · split at h
    · cases h
    · split at h
      · next hf => cases h; exact find_mem hf
      · split at h
        · cases h
        · split at h
          · next hb =>
            cases h
            simp only [Option.bind_eq_some_iff, Option.map_eq_some_iff] at hb
            obtain ⟨x, _, k', hk, e⟩ := hb
            cases e
            exact find_mem hk
          · split at h
            · next ha =>
              cases h
              exact abbreviation_name (x := (k, n, v)) (by rw [ha]; exact List.mem_cons_self)
            · cases h
            · split at h <;> cases h

/-- What was not recognised stays so. -/
theorem loop_extras {F : Type} {cv : Conv F} {os : List Opt} : ∀ {l : List (Text × Cls)} {p : Place} {a a' : Args F} {ex m : List Text}, loop cv os p a ex l = .ok (a', m) → ∃ m', m = ex ++ m' := by
  intro l
  induction hn : l.length using Nat.strongRecOn generalizing l with
  | ind n ih =>
    intro p a a' ex m h
    match l, hn, h with
    | [], _, h => simp only [loop, Except.ok.injEq, Prod.mk.injEq] at h; exact ⟨[], by simp [h.2]⟩
    | (t, .arg) :: l, hn, h =>
      simp only [List.length_cons] at hn
      simp only [loop] at h
      split at h
      · split at h
        · exact ih l.length (by omega) rfl h
        · cases h
      · split at h
        · exact ih l.length (by omega) rfl h
        · cases h
      · obtain ⟨m', rfl⟩ := ih l.length (by omega) rfl h
        exact ⟨t :: m', by simp⟩
    | (t, .unknown) :: l, hn, h =>
      simp only [List.length_cons] at hn
      simp only [loop] at h
      obtain ⟨m', rfl⟩ := ih l.length (by omega) rfl h
      exact ⟨t :: m', by simp⟩
    | (t, .ambiguous) :: l, _, h => simp only [loop] at h; cases h
    | (t, .opt k n (some v)) :: l, hn, h =>
      simp only [List.length_cons] at hn
      simp only [loop] at h
      split at h
      · exact ih l.length (by omega) rfl h
      · cases h
    | [(t, .opt k n none)], _, h =>
      simp only [loop] at h
      split at h
      · cases h
      · split at h
        · cases h; exact ⟨[], by simp⟩
        · cases h
    | (t, .opt k n none) :: (t', c) :: l, hn, h =>
      simp only [List.length_cons] at hn
      simp only [loop] at h
      split at h
      · split at h
        · exact ih (l.length + 1) (by omega) rfl h
        · cases h
      · split at h
        · split at h
          · exact ih l.length (by omega) rfl h
          · cases h
        · cases h
      · split at h
        · split at h
          · exact ih l.length (by omega) rfl h
          · cases h
        · split at h
          · exact ih (l.length + 1) (by omega) rfl h
          · cases h

theorem only_help_runs {F : Type} {cv : Conv F} {lttng : Bool} {c : Cmd} (hc : c = .discover ∨ c = .record) {l : List Text} {a : Args F} (h : parseCommand cv lttng c l = .ok (a, [])) : l = [] ∧ a = defaults cv := by
  have ho : options lttng c = [helpOpt] := by rcases hc with rfl | rfl <;> rfl
  have hp : (if c = .traceConfigure then Place.before else .after) = .after := by rcases hc with rfl | rfl <;> rfl
  unfold parseCommand at h
  simp only [ho, hp] at h
  split at h
  · cases h
  · cases l with
    | nil =>
      simp only [List.map_nil, loop, Except.ok.injEq, Prod.mk.injEq, and_true] at h
      exact ⟨rfl, h.symm⟩
    | cons t l =>
      exfalso
      simp only [List.map_cons] at h
      cases e : classify [helpOpt] t with
      | arg =>
        rw [e] at h
        simp only [loop] at h
        obtain ⟨m, hm⟩ := loop_extras h
        simp at hm
      | unknown =>
        rw [e] at h
        simp only [loop] at h
        obtain ⟨m, hm⟩ := loop_extras h
        simp at hm
      | ambiguous => rw [e] at h; simp only [loop] at h; cases h
      | opt k n v =>
        have hk : k = .help := by
          have := classify_names e
          simp only [allNames, helpOpt, List.flatMap_cons, List.flatMap_nil, List.append_nil, List.map_cons, List.map_nil, List.mem_cons, Prod.mk.injEq, List.not_mem_nil, or_false] at this
          rcases this with ⟨_, h⟩ | ⟨_, h⟩ <;> exact h
        subst hk
        rw [e] at h
        cases v with
        | none =>
          cases l with
          | nil => simp [loop, Kind.arity, act] at h
          | cons x l => simp [loop, Kind.arity, act] at h
        | some v => simp [loop, explicit, Kind.arity] at h

/-- **C140, `discover` and `record`.** They are run exactly if there is no other argument. -/
theorem alone {F : Type} (cv : Conv F) (lttng : Bool) (l : List Text) (a : Args F) :
    (main cv lttng l = .runs .discover a ↔ l = ["discover".toList] ∧ a = defaults cv) ∧ (main cv lttng l = .runs .record a ↔ l = ["record".toList] ∧ a = defaults cv) := by
  constructor
  · constructor
    · intro h
      obtain ⟨r, e⟩ := run_was_named h
      obtain ⟨_, n, r', e', _, hp⟩ := top_runs h
      rw [e] at e'; cases e'
      obtain ⟨rfl, ha⟩ := only_help_runs (.inl rfl) hp
      exact ⟨e, ha⟩
    · rintro ⟨rfl, rfl⟩
      rw [top_command cv lttng _ .discover (by decide) (by decide)]; rfl
  · constructor
    · intro h
      obtain ⟨r, e⟩ := run_was_named h
      obtain ⟨_, n, r', e', _, hp⟩ := top_runs h
      rw [e] at e'; cases e'
      obtain ⟨rfl, ha⟩ := only_help_runs (.inr rfl) hp
      exact ⟨e, ha⟩
    · rintro ⟨rfl, rfl⟩
      rw [top_command cv lttng _ .record (by decide) (by decide)]; rfl

theorem names_long (lttng : Bool) (c : Cmd) : ∀ x ∈ allNames (options lttng c), ∀ y : Text, x.1 = '-' :: '-' :: y →
    y ∈ ["help".toList, "port".toList, "poll-interval".toList, "no-poll-log".toList, "no-catapult-log".toList, "unmatched-pid".toList] ++ (if lttng then ["lttng-session".toList] else []) := by
  have : ∀ x ∈ allNames (options lttng c), x.1.take 2 = ['-', '-'] → x.1.drop 2 ∈ ["help".toList, "port".toList, "poll-interval".toList, "no-poll-log".toList, "no-catapult-log".toList, "unmatched-pid".toList] ++ (if lttng then ["lttng-session".toList] else []) := by
    cases lttng <;> cases c <;> decide
  intro x hx y hy
  have := this x hx (by rw [hy]; rfl)
  rw [hy] at this
  exact this

theorem splitEq_key {t a b : Text} (h : splitEq t = some (a, b)) : a = t.takeWhile (· ≠ '=') := by
  induction t generalizing a with
  | nil => cases h
  | cons c t ih =>
    simp only [splitEq] at h
    split at h
    · next e => cases h; simp [e]
    · next e =>
      simp only [Option.map_eq_some_iff] at h
      obtain ⟨y, hy, e2⟩ := h
      cases e2
      simp [e, ih hy]

theorem takeWhile_self {t : Text} (h : splitEq t = none) : t.takeWhile (· ≠ '=') = t := by
  induction t with
  | nil => rfl
  | cons c t ih =>
    simp only [splitEq] at h
    split at h
    · cases h
    · next e =>
      simp only [Option.map_eq_none_iff] at h
      rw [List.takeWhile_cons, if_pos (by simpa using e), ih h]

/-- It is not taken for an option of any command. -/
theorem noOption_unknown {t : Text} {lttng : Bool} (h : NoOption lttng t) (c : Cmd) : classify (options lttng c) t = .unknown := by
  obtain ⟨x, rfl, hs, hn⟩ := h
  have hlong : ∀ z ∈ allNames (options lttng c), ∀ y, z.1 = '-' :: '-' :: y → ¬ x.takeWhile (· ≠ '=') <+: y := by
    intro z hz y hy
    have := names_long lttng c z hz y hy
    simp only [List.mem_append, List.mem_cons, List.not_mem_nil, or_false] at this
    rcases this with (rfl | rfl | rfl | rfl | rfl | rfl) | this
    · exact hn "help" (by simp)
    · exact hn "port" (by simp)
    · exact hn "poll-interval" (by simp)
    · exact hn "no-poll-log" (by simp)
    · exact hn "no-catapult-log" (by simp)
    · exact hn "unmatched-pid" (by simp)
    · cases lttng with
      | false => cases this
      | true =>
        simp only [if_true, List.mem_cons, List.not_mem_nil, or_false] at this
        subst this
        exact hn "lttng-session" (by simp)
  have hne : x ≠ [] := by rintro rfl; exact hn "help" (by simp) (List.nil_prefix)
  have htw : ('-' :: '-' :: x).takeWhile (· ≠ '=') = '-' :: '-' :: x.takeWhile (· ≠ '=') := by simp
  have h1 : find (options lttng c) ('-' :: '-' :: x) = none := find_none fun z hz e => hlong z hz x e (List.takeWhile_prefix _)
  have h2 : ((splitEq ('-' :: '-' :: x)).bind fun y => (find (options lttng c) y.1).map fun k => (k, y)) = none := by
    cases he : splitEq ('-' :: '-' :: x) with
    | none => rfl
    | some y =>
      obtain ⟨a, b⟩ := y
      have := splitEq_key he
      rw [htw] at this
      simp only [Option.bind_some, Option.map_eq_none_iff]
      rw [this]
      exact find_none fun z hz e => hlong z hz _ e (List.prefix_refl _)
  have hp : ∀ z ∈ allNames (options lttng c), ('-' :: '-' :: x.takeWhile (· ≠ '=')).isPrefixOf z.1 = false := by
    intro z hz
    cases e : ('-' :: '-' :: x.takeWhile (· ≠ '=')).isPrefixOf z.1 with
    | false => rfl
    | true =>
      obtain ⟨r, hr⟩ := List.isPrefixOf_iff_prefix.1 e
      exact absurd ⟨r, rfl⟩ (hlong z hz (x.takeWhile (· ≠ '=') ++ r) (by rw [← hr]; rfl))
  have h3 : abbreviations (options lttng c) ('-' :: '-' :: x) = [] := by
    simp only [abbreviations]
    split
    · next n v he =>
      have := splitEq_key he
      rw [htw] at this
      subst this
      rw [List.map_eq_nil_iff, List.filter_eq_nil_iff]
      intro z hz
      rw [hp z hz]; decide
    · next he =>
      have := takeWhile_self he
      rw [htw] at this
      rw [List.map_eq_nil_iff, List.filter_eq_nil_iff]
      intro z hz
      rw [← this, hp z hz]; decide
  have h4 : negativeNumber ('-' :: '-' :: x) = false := by
    have hd : ('-' : Char).isDigit = false := by decide
    simp [negativeNumber, hd]
  have h5 : ('-' :: '-' :: x).contains ' ' = false := by simp [hs]
  simp [classify, h1, h2, h3, h4, hne]
  exact hs

theorem loop_unknown {F : Type} {cv : Conv F} {os : List Opt} {u : Text} : ∀ {l : List (Text × Cls)} {p : Place} {a a' : Args F} {ex m : List Text}, loop cv os p a ex l = .ok (a', m) → (u, Cls.unknown) ∈ l → u ∈ m := by
  intro l
  induction hn : l.length using Nat.strongRecOn generalizing l with
  | ind n ih =>
    intro p a a' ex m h hu
    match l, hn, h, hu with
    | (t, .arg) :: l, hn, h, hu =>
      simp only [List.length_cons] at hn
      simp only [List.mem_cons, Prod.mk.injEq, reduceCtorEq, and_false, false_or] at hu
      simp only [loop] at h
      split at h
      · split at h
        · exact ih l.length (by omega) rfl h hu
        · cases h
      · split at h
        · exact ih l.length (by omega) rfl h hu
        · cases h
      · exact ih l.length (by omega) rfl h hu
    | (t, .unknown) :: l, hn, h, hu =>
      simp only [List.length_cons] at hn
      simp only [loop] at h
      rcases List.mem_cons.1 hu with e | hu
      · cases e
        obtain ⟨m', rfl⟩ := loop_extras h
        simp
      · exact ih l.length (by omega) rfl h hu
    | (t, .ambiguous) :: l, _, h, _ => simp only [loop] at h; cases h
    | (t, .opt k n (some v)) :: l, hn, h, hu =>
      simp only [List.length_cons] at hn
      simp only [List.mem_cons, Prod.mk.injEq, reduceCtorEq, and_false, false_or] at hu
      simp only [loop] at h
      split at h
      · exact ih l.length (by omega) rfl h hu
      · cases h
    | [(t, .opt k n none)], _, h, hu => simp at hu
    | (t, .opt k n none) :: (t', c) :: l, hn, h, hu =>
      simp only [List.length_cons] at hn
      have hu1 : (u, Cls.unknown) ∈ (t', c) :: l := by
        rcases List.mem_cons.1 hu with e | hu
        · cases e
        · exact hu
      have hu2 : c = .arg → (u, Cls.unknown) ∈ l := by
        intro e
        rcases List.mem_cons.1 hu1 with e2 | h2
        · subst e; cases e2
        · exact h2
      simp only [loop] at h
      split at h
      · split at h
        · exact ih (l.length + 1) (by omega) rfl h hu1
        · cases h
      · split at h
        · next hc =>
          split at h
          · exact ih l.length (by omega) rfl h (hu2 hc)
          · cases h
        · cases h
      · split at h
        · next hc =>
          split at h
          · exact ih l.length (by omega) rfl h (hu2 hc)
          · cases h
        · split at h
          · exact ih (l.length + 1) (by omega) rfl h hu1
          · cases h

/-- **C140.** With an option that does not exist, in any place, nothing is run. -/
theorem unknown_option {F : Type} (cv : Conv F) (lttng : Bool) {l : List Text} {t : Text} (ht : t ∈ l) (hn : NoOption lttng t) (c : Cmd) (a : Args F) : main cv lttng l ≠ .runs c a := by
  intro h
  obtain ⟨_, n, r, rfl, hl, hp⟩ := top_runs h
  have hne : t ≠ n := by
    rintro rfl
    obtain ⟨x, rfl, _⟩ := hn
    have := lookup_name hl
    simp [commands] at this
  have hr : t ∈ r := by
    rcases List.mem_cons.1 ht with h | h
    · exact absurd h hne
    · exact h
  unfold parseCommand at hp
  simp only [] at hp
  split at hp
  · cases hp
  · have := loop_unknown hp (List.mem_map.2 ⟨t, hr, by rw [noOption_unknown hn c]⟩)
    cases this

example (lttng : Bool) : NoOption lttng "--verbose=3".toList := ⟨"verbose=3".toList, rfl, by decide, by cases lttng <;> decide +kernel⟩

example : NoOption false "--lttng-session=a".toList := ⟨"lttng-session=a".toList, rfl, by decide, by decide +kernel⟩


/-! ## Help and errors -/

theorem splitEq_spec {t : Text} {x : Text × Text} (h : splitEq t = some x) : t = x.1 ++ '=' :: x.2 := by
  induction t generalizing x with
  | nil => cases h
  | cons c t ih =>
    simp only [splitEq] at h
    split at h
    · next e => cases h; simp [e]
    · simp only [Option.map_eq_some_iff] at h
      obtain ⟨y, hy, rfl⟩ := h
      simp [ih hy]

theorem abbreviation_help {os : List Opt} {t n : Text} {v : Option (Bool × Text)} (hn : n = "-h".toList ∨ n = "--help".toList) (hd : t ≠ ['-', '-']) (hm : (Kind.help, n, v) ∈ abbreviations os t) :
    AsksHelp t ∨ n.take 2 = ['-', '-'] ∧ v ≠ none := by
  match t, hd, hm with
  | [], _, hm => simp [abbreviations] at hm
  | [a], _, hm =>
    unfold abbreviations at hm
    split at hm
    · next e => cases e
    · next e => cases e
    · cases hm
  | a :: c :: r, hd, hm =>
    by_cases ha : a = '-'
    · subst ha
      by_cases hc : c = '-'
      · subst hc
        simp only [abbreviations] at hm
        split at hm
        · next m w hs =>
          obtain ⟨⟨y1, y2⟩, hy, e⟩ := List.mem_map.1 hm
          simp only [Prod.mk.injEq] at e
          obtain ⟨rfl, rfl, rfl⟩ := e
          rcases hn with h1 | h1
          · exfalso
            have h2 := (List.mem_filter.1 hy).2
            have h3 := splitEq_spec hs
            subst h1
            match m, h2, h3 with
            | [], _, h3 => simp at h3
            | [a], _, h3 => simp at h3
            | a :: b :: m, h2, h3 =>
              simp only [List.cons_append, List.cons.injEq] at h3
              simp [List.isPrefixOf, ← h3.1, ← h3.2.1] at h2
          · exact .inr ⟨by rw [h1]; rfl, by simp⟩
        · obtain ⟨⟨y1, y2⟩, hy, e⟩ := List.mem_map.1 hm
          simp only [Prod.mk.injEq] at e
          obtain ⟨rfl, rfl, rfl⟩ := e
          have h2 := (List.mem_filter.1 hy).2
          rcases hn with h1 | h1
          · exfalso; subst h1; simp [List.isPrefixOf] at h2
          · left; right
            subst h1
            obtain ⟨u, hu⟩ := List.isPrefixOf_iff_prefix.1 h2
            refine ⟨u, hu, ?_⟩
            match r, hd with
            | [], hd => exact absurd rfl hd
            | c :: r, _ => simp
      · unfold abbreviations at hm
        split at hm
        · next e => simp only [List.cons.injEq] at e; exact absurd e.2.1 hc
        · next e =>
          simp only [List.cons.injEq, true_and] at e
          obtain ⟨rfl, rfl⟩ := e
          obtain ⟨⟨y1, y2⟩, hy, e⟩ := List.mem_filterMap.1 hm
          simp only [] at e
          split at e
          · next e1 =>
            simp only [Option.some.injEq, Prod.mk.injEq] at e
            obtain ⟨rfl, rfl, rfl⟩ := e
            rcases hn with h1 | h1
            · rw [h1] at e1
              simp at e1
              exact .inl (.inl ⟨r, by rw [← e1]⟩)
            · rw [h1] at e1; simp at e1
          · split at e
            · next e2 =>
              simp only [Option.some.injEq, Prod.mk.injEq] at e
              obtain ⟨rfl, rfl, rfl⟩ := e
              have h3 := isPrefixOf_take2 e2
              rcases hn with h1 | h1
              · rw [h1] at h3
                simp at h3
                exact .inl (.inl ⟨r, by rw [← h3]⟩)
              · rw [h1] at h3; simp at h3; exact absurd h3.symm hc
            · cases e
        · cases hm
    · unfold abbreviations at hm
      split at hm
      · next e => simp only [List.cons.injEq] at e; exact absurd e.1 ha
      · next e => simp only [List.cons.injEq] at e; exact absurd e.1 ha
      · cases hm

/-- What is taken for the option of the help. -/
theorem classify_help {os : List Opt} (hos : ∀ n, (n, Kind.help) ∈ allNames os → n = "-h".toList ∨ n = "--help".toList) {t n : Text} {v : Option (Bool × Text)} (h : classify os t = .opt .help n v) :
    AsksHelp t ∨ n.take 2 = ['-', '-'] ∧ v ≠ none := by
  have hn := hos n (classify_names h)
  unfold classify at h
  split at h
  · cases h
  · split at h
    · cases h
    · next hd =>
      split at h
      · cases h
        rcases hn with rfl | rfl
        · exact .inl (.inl ⟨[], rfl⟩)
        · exact .inl (.inr ⟨[], rfl, by decide⟩)
      · split at h
        · cases h
        · split at h
          · next hb =>
            cases h
            simp only [Option.bind_eq_some_iff, Option.map_eq_some_iff] at hb
            obtain ⟨x, hx, k', hk, e⟩ := hb
            cases e
            have := splitEq_spec hx
            rcases hn with rfl | rfl
            · exact .inl (.inl ⟨_, this⟩)
            · exact .inr ⟨rfl, by simp⟩
          · split at h
            · next ha =>
              cases h
              exact abbreviation_help hn hd (by rw [ha]; exact List.mem_cons_self)
            · cases h
            · split at h <;> cases h

/-- Classified arguments as they are for a command. -/
def Fits (l : List (Text × Cls)) : Prop := ∀ t k n v, (t, Cls.opt k n v) ∈ l → k.arity = .none → k ≠ .help → n.take 2 = ['-', '-']

theorem act_help {F : Type} {cv : Conv F} {k : Kind} {v : Option Text} {a : Args F} (h : act cv k v a = .error .help) : k = .help := by
  cases k with
  | help => rfl
  | noPollLog => cases h
  | noCatapultLog => cases h
  | port => cases v with
    | none => cases h
    | some t => simp only [act] at h; split at h <;> cases h
  | interval => cases v with
    | none => cases h
    | some t => simp only [act] at h; split at h <;> cases h
  | lttng => cases v <;> cases h
  | unmatched => cases v with
    | none => cases h
    | some t =>
      simp only [act, choice] at h
      split at h
      · cases h
      · split at h <;> cases h

theorem loop_help {F : Type} {cv : Conv F} {os : List Opt} : ∀ {l : List (Text × Cls)} {p : Place} {a : Args F} {ex : List Text}, Fits l → loop cv os p a ex l = .error .help →
    ∃ t n v, (t, Cls.opt .help n v) ∈ l ∧ (v = none ∨ n.take 2 ≠ ['-', '-']) := by
  intro l
  induction hn : l.length using Nat.strongRecOn generalizing l with
  | ind n ih =>
    intro p a ex hf h
    have up : ∀ {x : Text × Cls} {l' : List (Text × Cls)} {p : Place} {a : Args F} {ex : List Text}, l'.length < n → l = x :: l' → loop cv os p a ex l' = .error .help → ∃ t n v, (t, Cls.opt .help n v) ∈ l ∧ (v = none ∨ n.take 2 ≠ ['-', '-']) := by
      intro x l' p a ex hlt he hl
      obtain ⟨t, m, v, hm, hv⟩ := ih l'.length hlt rfl (fun t k m v hm => hf t k m v (by rw [he]; exact List.mem_cons_of_mem _ hm)) hl
      exact ⟨t, m, v, by rw [he]; exact List.mem_cons_of_mem _ hm, hv⟩
    have up2 : ∀ {x y : Text × Cls} {l' : List (Text × Cls)} {p : Place} {a : Args F} {ex : List Text}, l'.length < n → l = x :: y :: l' → loop cv os p a ex l' = .error .help → ∃ t n v, (t, Cls.opt .help n v) ∈ l ∧ (v = none ∨ n.take 2 ≠ ['-', '-']) := by
      intro x y l' p a ex hlt he hl
      obtain ⟨t, m, v, hm, hv⟩ := ih l'.length hlt rfl (fun t k m v hm => hf t k m v (by rw [he]; exact List.mem_cons_of_mem _ (List.mem_cons_of_mem _ hm))) hl
      exact ⟨t, m, v, by rw [he]; exact List.mem_cons_of_mem _ (List.mem_cons_of_mem _ hm), hv⟩
    match hl : l, hn, h with
    | [], _, h => simp only [loop] at h; cases h
    | (t, .arg) :: l', hn, h =>
      simp only [List.length_cons] at hn
      simp only [loop] at h
      split at h
      · split at h
        · exact up (by omega) rfl h
        · next e => cases h; simp only [choice] at e; split at e
                    · cases e
                    · split at e <;> cases e
      · split at h
        · exact up (by omega) rfl h
        · cases h
      · exact up (by omega) rfl h
    | (t, .unknown) :: l', hn, h =>
      simp only [List.length_cons] at hn
      simp only [loop] at h
      exact up (by omega) rfl h
    | (t, .ambiguous) :: l', _, h => simp only [loop] at h; cases h
    | (t, .opt k m (some v)) :: l', hn, h =>
      simp only [List.length_cons] at hn
      simp only [loop] at h
      split at h
      · exact up (by omega) rfl h
      · next e he =>
        cases h
        unfold explicit at he
        split at he
        · next ha =>
          simp only [Except.error.injEq] at he
          split at he
          · cases he
          · next hm =>
            by_cases hk : k = .help
            · subst hk; exact ⟨t, m, _, List.mem_cons_self, .inr hm⟩
            · exact absurd (hf t k m _ List.mem_cons_self ha hk) hm
        · next ha =>
          have := act_help he
          subst this
          exact absurd rfl ha
    | [(t, .opt k m none)], _, h =>
      simp only [loop] at h
      split at h
      · cases h
      · split at h
        · cases h
        · next e he =>
          cases h
          have := act_help he
          subst this
          exact ⟨t, m, none, List.mem_cons_self, .inl rfl⟩
    | (t, .opt k m none) :: (t', c) :: l', hn, h =>
      simp only [List.length_cons] at hn
      simp only [loop] at h
      have fin : ∀ {v : Option Text} {a : Args F}, act cv k v a = .error .help → ∃ t2 n v, (t2, Cls.opt .help n v) ∈ (t, Cls.opt k m none) :: (t', c) :: l' ∧ (v = none ∨ n.take 2 ≠ ['-', '-']) := by
        intro v a he
        have := act_help he
        subst this
        exact ⟨t, m, none, List.mem_cons_self, .inl rfl⟩
      split at h
      · split at h
        · exact up (by simp only [List.length_cons]; omega) rfl h
        · next he => cases h; exact fin he
      · split at h
        · split at h
          · exact up2 (by omega) rfl h
          · next he => cases h; exact fin he
        · cases h
      · split at h
        · split at h
          · exact up2 (by omega) rfl h
          · next he => cases h; exact fin he
        · split at h
          · exact up (by simp only [List.length_cons]; omega) rfl h
          · next he => cases h; exact fin he

theorem help_names (lttng : Bool) (c : Cmd) (n : Text) (h : (n, Kind.help) ∈ allNames (options lttng c)) : n = "-h".toList ∨ n = "--help".toList := by
  have : ∀ x ∈ allNames (options lttng c), x.2 = .help → x.1 = "-h".toList ∨ x.1 = "--help".toList := by cases lttng <;> cases c <;> decide
  exact this _ h rfl

theorem flag_names (lttng : Bool) (c : Cmd) (n : Text) (k : Kind) (h : (n, k) ∈ allNames (options lttng c)) (hk : k.arity = .none) (hh : k ≠ .help) : n.take 2 = ['-', '-'] := by
  have : ∀ x ∈ allNames (options lttng c), x.2.arity = .none → x.2 ≠ .help → x.1.take 2 = ['-', '-'] := by cases lttng <;> cases c <;> decide
  exact this _ h hk hh

theorem command_help {F : Type} {cv : Conv F} {lttng : Bool} {c : Cmd} {l : List Text} (h : parseCommand cv lttng c l = .error .help) : ∃ t ∈ l, AsksHelp t := by
  unfold parseCommand at h
  simp only [] at h
  split at h
  · cases h
  · obtain ⟨t, n, v, hm, hv⟩ := loop_help (fun t k n v hm hk hh => by
      obtain ⟨x, _, e⟩ := List.mem_map.1 hm
      simp only [Prod.mk.injEq] at e
      exact flag_names lttng c n k (classify_names e.2) hk hh) h
    obtain ⟨x, hx, e⟩ := List.mem_map.1 hm
    simp only [Prod.mk.injEq] at e
    refine ⟨x, hx, ?_⟩
    rcases classify_help (help_names lttng c) e.2 with h1 | h1
    · exact h1
    · rcases hv with hv | hv
      · exact absurd hv h1.2
      · exact absurd h1.1 hv

theorem top_help {F : Type} {cv : Conv F} {lttng : Bool} : ∀ {l ex : List Text}, top cv lttng ex l = .exits .help → (ex = [] ∧ l = []) ∨ ∃ t ∈ l, AsksHelp t := by
  intro l
  induction l with
  | nil =>
    intro ex h
    simp only [top] at h
    split at h
    · next e => exact .inl ⟨e, rfl⟩
    · cases h
  | cons t l ih =>
    intro ex h
    refine .inr ?_
    simp only [top] at h
    split at h
    · split at h
      · cases h
      · split at h
        · next he =>
          cases h
          obtain ⟨x, hx, h1⟩ := command_help he
          exact ⟨x, List.mem_cons_of_mem _ hx, h1⟩
        · split at h <;> cases h
    · rcases ih h with h1 | ⟨x, hx, h1⟩
      · simp at h1
      · exact ⟨x, List.mem_cons_of_mem _ hx, h1⟩
    · cases h
    · next k n e =>
      refine ⟨t, List.mem_cons_self, ?_⟩
      have hk := classify_names e
      have : k = .help := by
        simp only [allNames, helpOpt, List.flatMap_cons, List.flatMap_nil, List.append_nil, List.map_cons, List.map_nil, List.mem_cons, Prod.mk.injEq, List.not_mem_nil, or_false] at hk
        rcases hk with ⟨_, h⟩ | ⟨_, h⟩ <;> exact h
      subst this
      rcases classify_help (help_names false .discover) e with h1 | h1
      · exact h1
      · exact absurd rfl h1.2
    · next k n v e =>
      refine ⟨t, List.mem_cons_self, ?_⟩
      have hk := classify_names e
      have : k = .help := by
        simp only [allNames, helpOpt, List.flatMap_cons, List.flatMap_nil, List.append_nil, List.map_cons, List.map_nil, List.mem_cons, Prod.mk.injEq, List.not_mem_nil, or_false] at hk
        rcases hk with ⟨_, h⟩ | ⟨_, h⟩ <;> exact h
      subst this
      simp only [Outcome.exits.injEq] at h
      rcases classify_help (help_names false .discover) e with h1 | h1
      · exact h1
      · rw [if_pos h1.1] at h; cases h

/-- The full statement: a program that runs nothing, and was not asked for help, says so by its status. -/
def ErrorsReported : Prop := ∀ (F : Type) (cv : Conv F) (lttng : Bool) (l : List Text) (e : Exit), main cv lttng l = .exits e → (∀ t ∈ l, ¬ AsksHelp t) → e.status ≠ 0

/-- **C140, partial.** Missing: no arguments at all. -/
theorem errors_reported_partial {F : Type} {cv : Conv F} {lttng : Bool} {l : List Text} {e : Exit} (h : main cv lttng l = .exits e) (hh : ∀ t ∈ l, ¬ AsksHelp t) (hl : l ≠ []) : e.status = 2 := by
  cases e with
  | usage => rfl
  | help =>
    rcases top_help h with ⟨_, h1⟩ | ⟨t, ht, h1⟩
    · exact absurd h1 hl
    · exact absurd h1 (hh t ht)

/-- **C140 fails**: without arguments, the status is that of success. -/
theorem no_arguments {F : Type} (cv : Conv F) (lttng : Bool) : main cv lttng [] = .exits .help ∧ Exit.help.status = 0 := ⟨rfl, rfl⟩

theorem not_ErrorsReported : ¬ ErrorsReported := fun h => h Unit ⟨fun _ => none, fun _ => none, ()⟩ false [] .help rfl (fun _ ht => by cases ht) rfl

/-- Asking for help before anything else prints it. -/
theorem help_given {F : Type} (cv : Conv F) (lttng : Bool) (l : List Text) : main cv lttng ("-h".toList :: l) = .exits .help ∧ main cv lttng ("--help".toList :: l) = .exits .help := ⟨rfl, rfl⟩

/-- So does asking a command for it. -/
theorem command_help_given {F : Type} (cv : Conv F) (lttng : Bool) (c : Text × Cmd) (hc : c ∈ commands) (l : List Text) (hl : ∀ t ∈ l, Value t) : main cv lttng (c.1 :: "-h".toList :: l) = .exits .help := by
  have h0 : commands.lookup c.1 = some c.2 ∧ classify [helpOpt] c.1 = .arg := by
    have : ∀ c ∈ commands, commands.lookup c.1 = some c.2 ∧ classify [helpOpt] c.1 = .arg := by decide
    exact this c hc
  have h1 : classify (options lttng c.2) "-h".toList = .opt .help "-h".toList none := classify_name rfl (by cases lttng <;> cases c.2 <;> decide)
  rw [top_command cv lttng _ c.2 h0.1 h0.2]
  have key : parseCommand cv lttng c.2 ("-h".toList :: l) = .error .help := by
    refine parse_of_loop (fun t ht => ?_) ?_
    · rcases List.mem_cons.1 ht with rfl | ht
      · rw [h1]; exact fun e => by cases e
      · rw [value_arg lttng c.2 (hl t ht)]; exact fun e => by cases e
    · simp only [classified, List.map_cons, h1]
      cases l with
      | nil => simp [loop, Kind.arity, act]
      | cons x l => simp [loop, Kind.arity, act]
  rw [key]

theorem splitEq_some {t a b : Text} (h : splitEq t = some (a, b)) : t = a ++ '=' :: b := by
  induction t generalizing a with
  | nil => cases h
  | cons c t ih =>
    rw [splitEq] at h
    split at h
    · rename_i hc; cases h; simp [hc]
    · obtain ⟨x, h1, h2⟩ := Option.map_eq_some_iff.1 h
      cases h2
      simp [ih (a := x.1) (by rw [h1])]

theorem classify_help_letters {r : Text} (hr : r ≠ []) (he : r.head? ≠ some '=') : classify [helpOpt] ('-' :: 'h' :: r) = .opt .help "-h".toList (some (false, r)) := by
  have hf : ∀ x : Text, x ≠ [] → find [helpOpt] ('-' :: 'h' :: x) = none := by
    intro x hx
    simp [find, helpOpt, hx]
  have hs : ((splitEq ('-' :: 'h' :: r)).bind fun x => (find [helpOpt] x.1).map fun k => (k, x)) = none := by
    cases e : splitEq ('-' :: 'h' :: r) with
    | none => rfl
    | some x =>
      obtain ⟨a, b⟩ := x
      have h := splitEq_some e
      match a, h with
      | [], h => simp at h
      | [c], h => simp at h
      | [c, d], h =>
        simp only [List.cons_append, List.nil_append, List.cons.injEq] at h
        exact absurd (by rw [h.2.2]; rfl) he
      | c :: d :: x :: a, h =>
        simp only [List.cons_append, List.cons.injEq] at h
        rw [← h.1, ← h.2.1]
        simp [hf (x :: a) (by simp)]
  have ha : abbreviations [helpOpt] ('-' :: 'h' :: r) = [(.help, "-h".toList, some (false, r))] := by
    simp [abbreviations, allNames, helpOpt]
  unfold classify
  rw [if_neg (by simp), if_neg (by simp), hf r hr]
  simp only [hs, ha]
  simp

/-- How the letters that follow `-h` are read if they are `h`s and then `r`. -/
theorem cluster_hs (n : Nat) (r : Text) (hr : ∀ c ∈ r.head?, c ≠ 'h') : n ≠ 0 ∨ r ≠ [] →
    cluster [helpOpt] false false (List.replicate n 'h' ++ r) = if r.head? = some '=' ∧ n ≠ 0 ∨ r.head? = some '-' then .usage else .help := by
  have hf : find [helpOpt] ['-', 'h'] = some .help := by decide
  induction n with
  | zero =>
    intro h
    cases r with
    | nil => simp at h
    | cons c r =>
      have hc : c ≠ 'h' := hr c rfl
      have : find [helpOpt] ['-', c] = none := by
        simp [find, helpOpt, hc]
      by_cases hd : c = '-'
      · simp [cluster, hd]
      · simp [cluster, hd, this]
  | succ n ih =>
    intro _
    rw [List.replicate_succ, List.cons_append, cluster, if_neg (by decide), hf]
    cases n with
    | zero =>
      cases r with
      | nil => simp [Kind.arity]
      | cons c r =>
        by_cases he : c = '='
        · subst he; simp [Kind.arity]
        · have h1 := ih (.inr (by simp))
          simp only [List.replicate_zero, List.nil_append] at h1 ⊢
          simp only [Kind.arity, h1]
          simp [he]
    | succ n =>
      have h1 := ih (.inl (by omega))
      rw [List.replicate_succ, List.cons_append] at h1 ⊢
      simp only [Kind.arity, h1]
      simp

/-- Letters that follow `-h` in the same argument: the help is printed, unless the first one that is no `h` is `=` or `-`, which is an error. -/
theorem help_with_letters {F : Type} (cv : Conv F) (lttng : Bool) (n : Nat) (r : Text) (hr : ∀ c ∈ r.head?, c ≠ 'h') (l : List Text) :
    main cv lttng (('-' :: 'h' :: (List.replicate n 'h' ++ r)) :: l) = .exits (if r.head? = some '=' ∨ r.head? = some '-' then .usage else .help) := by
  by_cases h0 : n = 0 ∧ r = []
  · rw [h0.1, h0.2]; rfl
  · by_cases he : n = 0 ∧ r.head? = some '='
    · obtain ⟨rfl, he⟩ := he
      obtain ⟨v, rfl⟩ : ∃ v, r = '=' :: v := by
        cases r with
        | nil => cases he
        | cons c v => exact ⟨v, by cases he; rfl⟩
      have : classify [helpOpt] ('-' :: 'h' :: '=' :: v) = .opt .help "-h".toList (some (true, v)) := by
        simp [classify, find, helpOpt, splitEq]
      simp only [main, top, List.replicate_zero, List.nil_append, this]
      cases v <;> simp [cluster]
    · have hne : List.replicate n 'h' ++ r ≠ [] := by
        intro e
        have := List.append_eq_nil_iff.1 e
        exact h0 ⟨by simpa using this.1, this.2⟩
      have hh : (List.replicate n 'h' ++ r).head? ≠ some '=' := by
        cases n with
        | zero => simpa using he
        | succ n => simp [List.replicate_succ]
      simp only [main, top, classify_help_letters hne hh]
      rw [cluster_hs n r hr (by by_cases h : n = 0; exact .inr (fun e => h0 ⟨h, e⟩); exact .inl h)]
      have : (r.head? = some '=' ∧ n ≠ 0 ∨ r.head? = some '-') ↔ (r.head? = some '=' ∨ r.head? = some '-') := by
        constructor
        · rintro (h | h)
          · exact .inl h.1
          · exact .inr h
        · rintro (h | h)
          · exact .inl ⟨h, fun e => he ⟨e, h⟩⟩
          · exact .inr h
      simp [this]

/-! ## Cases -/

/-- Numbers of one digit. -/
def digits : Conv Nat := ⟨fun t => match t with
  | [c] => if c.isDigit then some (c.toNat - 48) else none
  | ['-', c] => if c.isDigit then some (-(c.toNat - 48 : Int)) else none
  | _ => none, fun t => match t with
  | [c] => if c.isDigit then some (c.toNat - 48) else none
  | _ => none, 1⟩

example : Settings digits true (["-p".toList, "-5".toList] ++ (["--lttng-session=a=b".toList] ++ (["--no-poll-log".toList] ++ (["-p7".toList] ++ []))))
    (((id ∘ fun a : Args Nat => { a with port := 7 }) ∘ fun a => { a with pollLog := false }) ∘ (fun a => { a with lttng := "a=b".toList }) ∘ id ∘ fun a => { a with port := -5 }) := by
  have h1 : Spells "--port" (some 'p') "-5".toList ["-p".toList, "-5".toList] := .short rfl (.inr ⟨['5'], rfl, by decide, by decide⟩)
  have h2 : Spells "--lttng-session" none "a=b".toList ["--lttng-session=a=b".toList] := .equals
  have h3 : Spells "--port" (some 'p') ['7'] ["-p7".toList] := .joined rfl (by decide) (by decide)
  exact .cons (f := fun a => { a with port := -5 }) (.port rfl h1) (.cons (.session rfl h2) (.cons .noPollLog (.cons (.port rfl h3) .nil)))

example : Unmatched ["-uon".toList, "--unmatched-pid".toList, "off".toList] none (some false) := by
  have h1 : Spells "--unmatched-pid" (some 'u') (onOff true) ["-uon".toList] := .joined rfl (by decide) (by decide)
  have h2 : Spells "--unmatched-pid" (some 'u') (onOff false) ["--unmatched-pid".toList, "off".toList] := .apart (value_onOff false)
  exact .cons h1 (.cons (ws := []) h2 (.nil _))

example : Numbers digits [['4'], ['-', '2']] [4, -2] := .cons (.inl (by decide)) rfl (.cons (.inr ⟨['2'], rfl, by decide, by decide⟩) rfl .nil)

example : ∃ e, main digits false ["catapult_server".toList, "--po".toList, ['1']] = .exits e ∧ ∀ t ∈ ["catapult_server".toList, "--po".toList, ['1']], ¬ AsksHelp t := by
  refine ⟨.usage, rfl, ?_⟩
  intro t ht
  simp only [List.mem_cons, List.not_mem_nil, or_false] at ht
  rintro (⟨r, h⟩ | ⟨r, h, h2⟩)
  · rcases ht with rfl | rfl | rfl <;> simp at h
  · rcases ht with rfl | rfl | rfl <;> simp at h h2

end Scalopus.C140
