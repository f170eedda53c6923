import Verif.Model.Examples
import Verif.Props.C26_TraceId
import Verif.Props.C84_Server
import Verif.Props.C139_RecorderHistory

/-!
# C143: the example programs record what they do

What a viewer shows of readme_example and of the embedded examples is exactly the calls that they make, and random_callstacks shows, whatever its generator gives, scopes that are nested as its levels, all with their
names. But showcase_toggle_tracepoints and showcase_marker_events leave `b` twice in every round: the second time the scope of the caller is closed.
-/

namespace Scalopus.C143
open Scalopus.Examples
open Crc

/-! ## Specification -/

/-- What a viewer reads of a thread, with the names in place of the ids; `none` where there is no name. -/
inductive Said where
  | enters (name : Option (List UInt8))
  | leaves (name : Option (List UInt8))
  | mark (name : Option (List UInt8)) (level : TraceState.Level)
  | count (name : Option (List UInt8)) (value : Int)
  deriving DecidableEq, Repr

/-- The name that was registered for an id. -/
def nameIn : List Item → Id → Option (List UInt8)
  | [], _ => none
  | .register i n :: l, j => if i = j then some n else nameIn l j
  | _ :: l, j => nameIn l j

/-- The events, with the names of `names`. -/
def saidWith (names : Id → Option (List UInt8)) : List Item → List Said
  | [] => []
  | .register _ _ :: l => saidWith names l
  | .entry i :: l => .enters (names i) :: saidWith names l
  | .exit i :: l => .leaves (names i) :: saidWith names l
  | .mark i v :: l => .mark (names i) v :: saidWith names l
  | .count i v :: l => .count (names i) v :: saidWith names l

/-- The events that a program emits, with the names that it registers. -/
def said (l : List Item) : List Said := saidWith (nameIn l) l

/-- A viewer: an exit closes the scope that was entered last and is still open, whatever its name is. Times are positions in the list of the events. -/
structure View where
  opened : List (Option (List UInt8) × Nat) := []
  /-- the scopes that are shown: name, entry and exit -/
  scopes : List (Option (List UInt8) × Nat × Nat) := []
  /-- the exits that close nothing -/
  orphans : List Nat := []
  deriving DecidableEq, Repr

def View.see (v : View) (t : Nat) : Said → View
  | .enters n => { v with opened := (n, t) :: v.opened }
  | .leaves _ =>
    match v.opened with
    | [] => { v with orphans := v.orphans ++ [t] }
    | (n, t0) :: r => { v with opened := r, scopes := v.scopes ++ [(n, t0, t)] }
  | _ => v

def View.look (v : View) (t : Nat) : List Said → View
  | [] => v
  | e :: l => (v.see t e).look (t + 1) l

def shown (l : List Said) : View := View.look {} 0 l

/-- A reader that accepts an exit only if it has the name of the innermost open scope; gives the scopes that are open then. -/
def check (stack : List (Option (List UInt8))) : List Said → Option (List (Option (List UInt8)))
  | [] => some stack
  | .enters n :: l => check (n :: stack) l
  | .leaves n :: l =>
    match stack with
    | top :: rest => if top = n then check rest l else none
    | [] => none
  | _ :: l => check stack l

def name (s : String) : Option (List UInt8) := some (lit s)

/-! ## Ids -/

theorem id_scope (f : List UInt8) (n : Nat) (x : List UInt8) : (Site.mk f n (.scope x)).id = some (Spec.crc32 f + BitVec.ofNat 32 n) := idLine_eq f n
theorem id_start (f : List UInt8) (n : Nat) (x : List UInt8) : (Site.mk f n (.start x)).id = some (Spec.crc32 f + Spec.crc32 x) := idString_eq f x
theorem id_finish (f : List UInt8) (n : Nat) (x : List UInt8) : (Site.mk f n (.finish x)).id = some (Spec.crc32 f + Spec.crc32 x) := idString_eq f x
theorem id_mark (f : List UInt8) (n : Nat) (x : List UInt8) : (Site.mk f n (.mark x)).id = some (Spec.crc32 f + Spec.crc32 x) := idString_eq f x
theorem id_series (f : List UInt8) (n : Nat) (x y : List UInt8) : (Site.mk f n (.countSeries x y)).id = some (Spec.crc32 f + Spec.crc32 (x ++ [47] ++ y)) := idString_eq f _
theorem id_count (f : List UInt8) (n : Nat) (x : List UInt8) : (Site.mk f n (.count x)).id = some (Spec.crc32 f + Spec.crc32 (x ++ [47] ++ [])) := idString_eq f _

theorem same_base (x y z : BitVec 32) : (some (x + y) : Id) = some (x + z) ↔ y = z := ⟨fun h => add_left_inj32 (Option.some.inj h), fun h => h ▸ rfl⟩

theorem crc_b : Spec.crc32 (lit "void b()") = 0xc52472db#32 := by decide +kernel
theorem crc_foo : Spec.crc32 (lit "Event in fooBarBuz") = 0x433e92ed#32 := by decide +kernel
theorem crc_proc : Spec.crc32 (lit "Event of process.") = 0x574bcc3b#32 := by decide +kernel
theorem crc_glob : Spec.crc32 (lit "Global Event") = 0x5c2f3b0c#32 := by decide +kernel
theorem crc_slow : Spec.crc32 (lit "sinusoids" ++ [47] ++ lit "slow") = 0x7458b4bb#32 := by decide +kernel
theorem crc_fast : Spec.crc32 (lit "sinusoids" ++ [47] ++ lit "fast") = 0x64398ca2#32 := by decide +kernel
theorem crc_ramp : Spec.crc32 (lit "ramp" ++ [47] ++ []) = 0x24bc808#32 := by decide +kernel

/-! ## Rounds -/

theorem nameIn_append (a b : List Item) (i : Id) : nameIn (a ++ b) i = (nameIn a i).or (nameIn b i) := by
  induction a with
  | nil => simp [nameIn]
  | cons x a ih =>
    cases x <;> simp only [List.cons_append, nameIn, ih]
    split <;> simp

theorem saidWith_append (g : Id → Option (List UInt8)) (a b : List Item) : saidWith g (a ++ b) = saidWith g a ++ saidWith g b := by
  induction a with
  | nil => simp [saidWith]
  | cons x a ih => cases x <;> simp [saidWith, ih]

theorem nameIn_rounds (p : Code) (on : Bool) (n : Nat) : nameIn (rounds p (n + 1) on) = nameIn (p on) := by
  funext i
  induction n with
  | zero => simp [rounds, Code.andThen, skip]
  | succ n ih =>
    show nameIn (p on ++ rounds p (n + 1) on) i = _
    rw [nameIn_append, ih, Option.or_self]

theorem saidWith_rounds (g : Id → Option (List UInt8)) (p : Code) (on : Bool) (n : Nat) : saidWith g (rounds p n on) = (List.replicate n (saidWith g (p on))).flatten := by
  induction n with
  | zero => rfl
  | succ n ih =>
    show saidWith g (p on ++ rounds p n on) = _
    rw [saidWith_append, ih, List.replicate_succ, List.flatten_cons]

theorem said_rounds (p : Code) (on : Bool) (n : Nat) : said (rounds p n on) = (List.replicate n (said (p on))).flatten := by
  cases n with
  | zero => rfl
  | succ n => unfold said; rw [saidWith_rounds, nameIn_rounds]

/-! ## The programs -/

/-- **C143.** readme_example: in each round, `a`, `b`, `c` and `fooBarBuz` are entered and left, by their names, also `b`, which is not traced by a scope. -/
theorem readme_says (f : List UInt8) (n : Nat) : said (Readme.main f n true) =
    (List.replicate n [.enters (name "void a()"), .enters (name "void b()"), .enters (name "void c()"), .enters (name "void fooBarBuz()"),
      .leaves (name "void fooBarBuz()"), .leaves (name "void c()"), .leaves (name "void b()"), .leaves (name "void a()")]).flatten := by
  unfold Readme.main
  rw [said_rounds]
  congr 2
  simp [Readme.a, Readme.b, Readme.c, Readme.fooBarBuz, scope, start, finish, register, emit, Code.andThen, skip, said, saidWith, nameIn, id_scope, id_start, id_finish, same_base, crc_b, Macro.registered, name]

/-- **C143.** The embedded examples. -/
theorem server_says (f : List UInt8) (n : Nat) : said (Embedded.server f n true) =
    (List.replicate n [.enters (name "void a()"), .enters (name "void b()"), .enters (name "void c()"), .leaves (name "void c()"), .leaves (name "void b()"), .leaves (name "void a()")]).flatten := by
  unfold Embedded.server
  rw [said_rounds]
  congr 2
  simp [Embedded.a, Embedded.b, Embedded.c, scope, register, emit, Code.andThen, skip, said, saidWith, nameIn, id_scope, same_base, Macro.registered, name]

theorem recorder_says (f : List UInt8) : said (Embedded.recorder f true) =
    (List.replicate 5 [.enters (name "void a()"), .enters (name "void b()"), .enters (name "void c()"), .leaves (name "void c()"), .leaves (name "void b()"), .leaves (name "void a()")]).flatten := by
  unfold Embedded.recorder
  rw [said_rounds]
  congr 2
  simp [Embedded.a, Embedded.b, Embedded.c, scope, register, emit, Code.andThen, skip, said, saidWith, nameIn, id_scope, same_base, Macro.registered, name]

/-- **C143, the violation.** showcase_marker_events: `b` is left twice, once without a name, whatever the name of the file is. -/
theorem marker_says (f : List UInt8) (n : Nat) : said (Marker.main f n true) =
    (List.replicate n [.mark (name "Global Event") .global, .enters (name "void a()"), .mark (name "Event of process.") .process, .enters (name "void b()"), .enters (name "void c()"),
      .enters (name "void fooBarBuz()"), .mark (name "Event in fooBarBuz") .thread, .leaves (name "void fooBarBuz()"), .leaves (name "void c()"), .leaves none, .leaves (name "void b()"),
      .leaves (name "void a()")]).flatten := by
  unfold Marker.main
  rw [said_rounds]
  congr 2
  simp [Marker.a, Marker.b, Marker.c, Marker.fooBarBuz, scope, finish, markAt, register, emit, Code.andThen, said, saidWith, nameIn, id_scope, id_mark, id_finish, same_base, crc_b, crc_foo, crc_proc, crc_glob,
    Macro.registered, name]

/-- **C143, the violation.** showcase_toggle_tracepoints: in the part that is switched off only `fooBarBuz` is seen, as it should be; in the other part `b` is left twice. -/
theorem toggle_says (f : List UInt8) (n : Nat) : said (Toggle.main f n true) =
    (List.replicate n [.enters (name "void a()"), .enters (name "void b()"), .enters (name "void c()"), .enters (name "void fooBarBuz()"), .leaves (name "void fooBarBuz()"), .leaves (name "void c()"),
      .leaves none, .leaves (name "void b()"), .leaves (name "void a()"),
      .enters (name "void this_disables_tracepoints_and_calls_a()"), .enters (name "void fooBarBuz()"), .leaves (name "void fooBarBuz()"),
      .leaves (name "void this_disables_tracepoints_and_calls_a()")]).flatten := by
  unfold Toggle.main
  rw [said_rounds]
  congr 2
  simp [Toggle.a, Toggle.b, Toggle.c, Toggle.fooBarBuz, Toggle.disables, scope, finish, switched, register, emit, Code.andThen, skip, said, saidWith, nameIn, id_scope, id_finish, same_base, crc_b, Macro.registered, name]

/-! ## What is shown -/

theorem check_append (x y : List Said) : ∀ st, check st (x ++ y) = (check st x).bind fun st => check st y := by
  induction x with
  | nil => intro st; rfl
  | cons e x ih =>
    intro st
    cases e with
    | enters n => exact ih _
    | leaves n =>
      cases st with
      | nil => rfl
      | cons a st =>
        simp only [List.cons_append, check]
        split
        · exact ih _
        · rfl
    | mark n v => exact ih _
    | count n v => exact ih _

/-- Every exit has the name of the innermost open scope, and in the end just those scopes are open that were open before. -/
def Nested (l : List Said) : Prop := ∀ stack, check stack l = some stack

theorem nested_rounds {r : List Said} (h : Nested r) (n : Nat) : Nested (List.replicate n r).flatten := by
  intro st
  induction n with
  | zero => rfl
  | succ n ih => rw [List.replicate_succ, List.flatten_cons, check_append, h st]; exact ih

/-- The full claim: what the example programs emit is nested. -/
def AllNested : Prop := ∀ (f : List UInt8) (n : Nat) (on : Bool), Nested (said (Readme.main f n on)) ∧ Nested (said (Embedded.server f n on)) ∧ Nested (said (Embedded.recorder f on)) ∧
  Nested (said (Marker.main f n on)) ∧ Nested (said (Toggle.main f n on))

/-- **C143, partial.** It is for the programs other than the showcases. -/
theorem nested_partial (f : List UInt8) (n : Nat) : Nested (said (Readme.main f n true)) ∧ Nested (said (Embedded.server f n true)) ∧ Nested (said (Embedded.recorder f true)) := by
  refine ⟨?_, ?_, ?_⟩
  · rw [readme_says]; exact nested_rounds (fun st => by simp [check]) n
  · rw [server_says]; exact nested_rounds (fun st => by simp [check]) n
  · rw [recorder_says]; exact nested_rounds (fun st => by simp [check]) 5

/-- **C143, the violation.** No round of the showcases is nested: an exit has another name than the innermost scope. -/
theorem showcases_not_nested (f : List UInt8) (n : Nat) (st : List (Option (List UInt8))) : check st (said (Marker.main f (n + 1) true)) = none ∧ check st (said (Toggle.main f (n + 1) true)) = none := by
  rw [marker_says, toggle_says, List.replicate_succ, List.replicate_succ, List.flatten_cons, List.flatten_cons, check_append, check_append]
  constructor <;> simp [check, name]

theorem not_AllNested : ¬ AllNested := by
  intro h
  have := (h [] 1 true).2.2.2.2 []
  rw [(showcases_not_nested [] 0 []).2] at this
  cases this

theorem look_append (x y : List Said) : ∀ (v : View) (t : Nat), v.look t (x ++ y) = (v.look t x).look (t + x.length) y := by
  induction x with
  | nil => intro v t; rfl
  | cons e x ih =>
    intro v t
    simp only [List.cons_append, View.look, ih, List.length_cons]
    congr 1
    omega

/-- A round that leaves nothing open, if nothing was: what it adds does not depend on what was shown before. -/
theorem look_rounds (r : List Said) (sc : Nat → List (Option (List UInt8) × Nat × Nat)) (orph : Nat → List Nat)
    (h : ∀ (v : View) (t : Nat), v.opened = [] → v.look t r = { opened := [], scopes := v.scopes ++ sc t, orphans := v.orphans ++ orph t }) (n : Nat) :
    shown (List.replicate n r).flatten = { opened := [], scopes := (List.range n).flatMap fun k => sc (k * r.length), orphans := (List.range n).flatMap fun k => orph (k * r.length) } := by
  induction n with
  | zero => rfl
  | succ n ih =>
    have hl : (List.replicate n r).flatten.length = n * r.length := by simp
    rw [List.replicate_succ', List.flatten_append, shown, look_append]
    unfold shown at ih
    rw [ih, hl]
    simp only [List.flatten_cons, List.flatten_nil, List.append_nil, Nat.zero_add]
    rw [h _ _ rfl, List.range_succ, List.flatMap_append, List.flatMap_append]
    simp

/-- **C143.** What is shown of readme_example: each call from its entry to its exit, nothing else. -/
theorem readme_shown (f : List UInt8) (n : Nat) : shown (said (Readme.main f n true)) =
    { opened := [], orphans := [], scopes := (List.range n).flatMap fun k =>
        [(name "void fooBarBuz()", k * 8 + 3, k * 8 + 4), (name "void c()", k * 8 + 2, k * 8 + 5), (name "void b()", k * 8 + 1, k * 8 + 6), (name "void a()", k * 8, k * 8 + 7)] } := by
  rw [readme_says]
  rw [look_rounds _ (fun t => [(name "void fooBarBuz()", t + 3, t + 4), (name "void c()", t + 2, t + 5), (name "void b()", t + 1, t + 6), (name "void a()", t, t + 7)]) (fun _ => [])]
  · simp
  · intro v t hv
    obtain ⟨o, s, p⟩ := v
    cases hv
    simp [View.look, View.see]

/-- **C143, the violation.** What is shown of showcase_toggle_tracepoints: in every round the scope of `b` ends before `b` does (event 7 of the round), the scope of `a` ends together with `b` instead of at its own
    exit (event 8), and that exit closes nothing. -/
theorem toggle_shown (f : List UInt8) (n : Nat) : shown (said (Toggle.main f n true)) =
    { opened := [], orphans := (List.range n).map fun k => k * 13 + 8, scopes := (List.range n).flatMap fun k =>
        [(name "void fooBarBuz()", k * 13 + 3, k * 13 + 4), (name "void c()", k * 13 + 2, k * 13 + 5), (name "void b()", k * 13 + 1, k * 13 + 6), (name "void a()", k * 13, k * 13 + 7),
          (name "void fooBarBuz()", k * 13 + 10, k * 13 + 11), (name "void this_disables_tracepoints_and_calls_a()", k * 13 + 9, k * 13 + 12)] } := by
  rw [toggle_says]
  rw [look_rounds _ (fun t => [(name "void fooBarBuz()", t + 3, t + 4), (name "void c()", t + 2, t + 5), (name "void b()", t + 1, t + 6), (name "void a()", t, t + 7),
          (name "void fooBarBuz()", t + 10, t + 11), (name "void this_disables_tracepoints_and_calls_a()", t + 9, t + 12)]) (fun t => [t + 8])]
  · simp [List.map_eq_flatMap]
  · intro v t hv
    obtain ⟨o, s, p⟩ := v
    cases hv
    simp [View.look, View.see]

/-- **C143, the violation.** The same for showcase_marker_events. -/
theorem marker_shown (f : List UInt8) (n : Nat) : shown (said (Marker.main f n true)) =
    { opened := [], orphans := (List.range n).map fun k => k * 12 + 11, scopes := (List.range n).flatMap fun k =>
        [(name "void fooBarBuz()", k * 12 + 5, k * 12 + 7), (name "void c()", k * 12 + 4, k * 12 + 8), (name "void b()", k * 12 + 3, k * 12 + 9), (name "void a()", k * 12 + 1, k * 12 + 10)] } := by
  rw [marker_says]
  rw [look_rounds _ (fun t => [(name "void fooBarBuz()", t + 5, t + 7), (name "void c()", t + 4, t + 8), (name "void b()", t + 3, t + 9), (name "void a()", t + 1, t + 10)]) (fun t => [t + 11])]
  · simp [List.map_eq_flatMap]
  · intro v t hv
    obtain ⟨o, s, p⟩ := v
    cases hv
    simp [View.look, View.see]

/-! ## showcase_count_events -/

/-- The values of a counter, in order. -/
def valuesOf (n : Option (List UInt8)) : List Said → List Int
  | [] => []
  | .count m v :: l => if m = n then v :: valuesOf n l else valuesOf n l
  | _ :: l => valuesOf n l

theorem id_slow (f : List UInt8) : (Site.mk f 68 (.countSeries (lit "sinusoids") (lit "slow"))).id = some (Spec.crc32 f + 0x7458b4bb#32) := by rw [id_series, crc_slow]
theorem id_fast (f : List UInt8) : (Site.mk f 69 (.countSeries (lit "sinusoids") (lit "fast"))).id = some (Spec.crc32 f + 0x64398ca2#32) := by rw [id_series, crc_fast]
theorem id_ramp (f : List UInt8) : (Site.mk f 70 (.count (lit "ramp"))).id = some (Spec.crc32 f + 0x24bc808#32) := by rw [id_count, crc_ramp]
theorem reg_slow : (Macro.countSeries (lit "sinusoids") (lit "slow")).registered = lit "sinusoids/slow" := by decide +kernel
theorem reg_fast : (Macro.countSeries (lit "sinusoids") (lit "fast")).registered = lit "sinusoids/fast" := by decide +kernel
theorem reg_ramp : (Macro.count (lit "ramp")).registered = lit "ramp/" := by decide +kernel

theorem main_cons (f : List UInt8) (a b : Int) (k : Int) (l : List (Int × Int)) :
    Count.main f k ((a, b) :: l) = (Count.round f a b k).bind fun x => (Count.main f x.2 l).bind fun y => .ok (x.1 ++ y) := by
  rw [Count.main]

/-- The code of one round. -/
theorem count_round (f : List UInt8) (slow fast steps : Int) (h : steps + 1 < 2 ^ 31) : ∃ l, Count.round f slow fast steps = .ok (l, steps + 1) ∧
    (∀ g, saidWith g l = [.count (g (some (Spec.crc32 f + 0x7458b4bb#32))) slow, .count (g (some (Spec.crc32 f + 0x64398ca2#32))) fast,
      .count (g (some (Spec.crc32 f + 0x24bc808#32))) ((steps + 1).tmod 100)]) ∧
    (nameIn l (some (Spec.crc32 f + 0x7458b4bb#32)) = name "sinusoids/slow" ∧ nameIn l (some (Spec.crc32 f + 0x64398ca2#32)) = name "sinusoids/fast" ∧
      nameIn l (some (Spec.crc32 f + 0x24bc808#32)) = name "ramp/") := by
  refine ⟨_, by unfold Count.round; rw [if_pos h], ?_, ?_, ?_, ?_⟩
  · intro g
    simp only [countAt, register, emit, Code.andThen, saidWith, id_slow, id_fast, id_ramp, List.cons_append, List.nil_append, if_true]
  all_goals
    simp only [countAt, register, emit, Code.andThen, nameIn, id_slow, id_fast, id_ramp, List.cons_append, List.nil_append, if_true, same_base, reg_slow, reg_fast, reg_ramp, name]
    try decide

/-- **C143.** showcase_count_events: in each round the two values and the ramp, which is the number of the round modulo 100, each under its name, as long as the number of rounds is below 2^31. -/
theorem count_says_from (f : List UInt8) (l : List (Int × Int)) : ∀ (k : Nat), k + l.length < 2 ^ 31 → ∃ x, Count.main f k l = .ok x ∧
    said x = (l.mapIdx fun i v => [Said.count (name "sinusoids/slow") v.1, .count (name "sinusoids/fast") v.2, .count (name "ramp/") (((k + i + 1) % 100 : Nat) : Int)]).flatten := by
  have key : ∀ (l : List (Int × Int)) (k : Nat), k + l.length < 2 ^ 31 → ∃ x, Count.main f k l = .ok x ∧
      (∀ g, saidWith g x = (l.mapIdx fun i v => [Said.count (g (some (Spec.crc32 f + 0x7458b4bb#32))) v.1, .count (g (some (Spec.crc32 f + 0x64398ca2#32))) v.2,
        .count (g (some (Spec.crc32 f + 0x24bc808#32))) (((k + i + 1) % 100 : Nat) : Int)]).flatten) ∧
      (l ≠ [] → nameIn x (some (Spec.crc32 f + 0x7458b4bb#32)) = name "sinusoids/slow" ∧ nameIn x (some (Spec.crc32 f + 0x64398ca2#32)) = name "sinusoids/fast" ∧
        nameIn x (some (Spec.crc32 f + 0x24bc808#32)) = name "ramp/") := by
    intro l
    induction l with
    | nil => intro k _; exact ⟨[], rfl, fun _ => rfl, fun h => absurd rfl h⟩
    | cons v l ih =>
      intro k hk
      simp only [List.length_cons] at hk
      obtain ⟨x, e, hs, h1, h2, h3⟩ := count_round f v.1 v.2 k (by omega)
      obtain ⟨y, e', hs', _⟩ := ih (k + 1) (by omega)
      refine ⟨x ++ y, ?_, ?_, ?_⟩
      · obtain ⟨a, b⟩ := v
        have e'' : Count.main f ((k : Int) + 1) l = .ok y := by rw [← e']; congr 1
        rw [main_cons, e]
        show (Count.main f ((k : Int) + 1) l).bind _ = _
        rw [e'']; rfl
      · intro g
        rw [saidWith_append, hs, hs', List.mapIdx_cons, List.flatten_cons]
        refine congrArg₂ (· ++ ·) ?_ ?_
        · have : ((k : Int) + 1).tmod 100 = (((k + 0 + 1) % 100 : Nat) : Int) := by
            rw [Int.tmod_eq_emod_of_nonneg (by omega)]; omega
          rw [this]
        · refine congrArg List.flatten (congrArg (fun g => List.mapIdx g l) ?_)
          funext i v
          have : k + 1 + i + 1 = k + (i + 1) + 1 := by omega
          rw [this]
      · intro _
        simp only [nameIn_append, h1, h2, h3, name, Option.or_some, Option.some_or]
        trivial
  intro k hk
  obtain ⟨x, e, hs, hn⟩ := key l k hk
  refine ⟨x, e, ?_⟩
  unfold said
  rw [hs]
  cases l with
  | nil => rfl
  | cons v l =>
    obtain ⟨h1, h2, h3⟩ := hn (by simp)
    rw [h1, h2, h3]

theorem count_says (f : List UInt8) (l : List (Int × Int)) (h : l.length < 2 ^ 31) : ∃ x, Count.main f 0 l = .ok x ∧
    said x = (l.mapIdx fun i v => [Said.count (name "sinusoids/slow") v.1, .count (name "sinusoids/fast") v.2, .count (name "ramp/") (((i + 1) % 100 : Nat) : Int)]).flatten := by
  obtain ⟨x, e, hx⟩ := count_says_from f l 0 (by omega)
  exact ⟨x, by simpa using e, by simpa using hx⟩

/-- **C143, the violation.** Round number 2^31 of showcase_count_events is undefined, whatever its values: the number of steps overflows. -/
theorem count_overflows (f : List UInt8) (l : List (Int × Int)) (h : 2 ^ 31 ≤ l.length) : Count.main f 0 l = .ub := by
  have key : ∀ (l : List (Int × Int)) (k : Nat), k < 2 ^ 31 → 2 ^ 31 ≤ k + l.length → Count.main f k l = .ub := by
    intro l
    induction l with
    | nil => intro k hk h; simp at h; omega
    | cons v l ih =>
      intro k hk h
      obtain ⟨a, b⟩ := v
      simp only [List.length_cons] at h
      by_cases hl : (k : Int) + 1 < 2 ^ 31
      · obtain ⟨x, e, _⟩ := count_round f a b k hl
        have := ih (k + 1) (by omega) (by omega)
        have e'' : Count.main f ((k : Int) + 1) l = .ub := by rw [← this]; congr 1
        rw [main_cons, e]
        show (Count.main f ((k : Int) + 1) l).bind _ = _
        rw [e'']; rfl
      · have e : Count.round f a b k = .ub := by unfold Count.round; rw [if_neg hl]
        rw [main_cons, e]; rfl
  exact key l 0 (by omega) (by omega)

/-! ## random_callstacks -/

/-- The names of the levels. -/
def levels : List String := ["level 0x0", "level 0x1", "level 0x2", "level 0x3", "level 0x4", "level 0x5", "level 0x6", "level 0x7", "level 0x8", "level 0x9", "level 0xa"]

/-- The name that random_callstacks has registered for an id. -/
def levelName (i : Id) : Option (List UInt8) := (Random.names.lookup i).map lit

/-- The scopes that are open in level `k`: one of each lower level, the innermost first. -/
def inside (k : Nat) : List (Option (List UInt8)) := ((levels.take k).map name).reverse

theorem levelName_id (k : Nat) (h : k ≤ 10) : inside (k + 1) = levelName (Random.id k) :: inside k := by
  have : ∀ k : Fin 11, inside (k.val + 1) = levelName (Random.id k.val) :: inside k.val := by decide +kernel
  exact this ⟨k, by omega⟩

/-- One call of `random_callstack`. -/
theorem callstack_cases {fuel level : Nat} {draws : List Nat} {l : List Item} {rest : List Nat} (h : Random.callstack fuel level draws = some (l, rest)) :
    ∃ m inner again, fuel = m + 1 ∧ l = .entry (Random.id level) :: inner ++ .exit (Random.id level) :: again ∧
      (inner = [] ∨ level ≤ 9 ∧ ∃ d r, Random.callstack m (level + 1) d = some (inner, r)) ∧ (again = [] ∨ level ≤ 9 ∧ ∃ d r, Random.callstack m level d = some (again, r)) := by
  cases fuel with
  | zero => simp [Random.callstack] at h
  | succ m =>
    cases draws with
    | nil => simp [Random.callstack] at h
    | cons r draws =>
      simp only [Random.callstack] at h
      split at h
      · cases h
      · cases h
      · next inner r' draws' e =>
        split at h
        · cases h
        · next again draws'' e' =>
          injection h with h
          injection h with h1 h2
          refine ⟨m, inner, again, rfl, h1.symm, ?_, ?_⟩
          · split at e
            · next hc => exact .inr ⟨hc.2, _, _, e⟩
            · injection e with e; injection e with e1 e2; exact .inl e1.symm
          · split at e'
            · next hc => exact .inr ⟨hc.2, _, _, e'⟩
            · injection e' with e; injection e with e1 e2; exact .inl e1.symm

theorem callstack_nested (g : Id → Option (List UInt8)) : ∀ (fuel level : Nat) (draws : List Nat) (l : List Item) (rest : List Nat), Random.callstack fuel level draws = some (l, rest) → Nested (saidWith g l) := by
  intro fuel
  induction fuel with
  | zero => intro level draws l rest h; simp [Random.callstack] at h
  | succ m ih =>
    intro level draws l rest h st
    obtain ⟨m', inner, again, hm, rfl, hi, ha⟩ := callstack_cases h
    cases hm
    have ni : Nested (saidWith g inner) := by
      rcases hi with rfl | ⟨_, d, r, e⟩
      · intro st; rfl
      · exact ih _ _ _ _ e
    have na : Nested (saidWith g again) := by
      rcases ha with rfl | ⟨_, d, r, e⟩
      · intro st; rfl
      · exact ih _ _ _ _ e
    simp only [List.cons_append, saidWith, saidWith_append, check, check_append]
    rw [ni]
    simp only [Option.bind_some, check, if_true]
    exact na st

theorem prefix_append {α : Type} {p a b : List α} (h : p <+: a ++ b) : p <+: a ∨ ∃ q, q <+: b ∧ p = a ++ q := by
  induction a generalizing p with
  | nil => exact .inr ⟨p, h, rfl⟩
  | cons x a ih =>
    cases p with
    | nil => exact .inl (List.nil_prefix)
    | cons y p =>
      rw [List.cons_append, List.cons_prefix_cons] at h
      obtain ⟨rfl, h⟩ := h
      rcases ih h with h | ⟨q, hq, rfl⟩
      · exact .inl (List.cons_prefix_cons.2 ⟨rfl, h⟩)
      · exact .inr ⟨q, hq, rfl⟩

theorem callstack_levels : ∀ (fuel level : Nat) (draws : List Nat) (l : List Item) (rest : List Nat), level ≤ 10 → Random.callstack fuel level draws = some (l, rest) →
    ∀ p, p <+: l → ∃ k, level ≤ k ∧ k ≤ 11 ∧ check (inside level) (saidWith levelName p) = some (inside k) := by
  intro fuel
  induction fuel with
  | zero => intro level draws l rest _ h; simp [Random.callstack] at h
  | succ m ih =>
    intro level draws l rest hl h p hp
    obtain ⟨m', inner, again, hm, rfl, hi, ha⟩ := callstack_cases h
    cases hm
    have ni : Nested (saidWith levelName inner) := by
      rcases hi with rfl | ⟨_, d, r, e⟩
      · intro st; rfl
      · exact callstack_nested _ _ _ _ _ _ e
    cases p with
    | nil => exact ⟨level, Nat.le_refl _, by omega, rfl⟩
    | cons x p =>
      rw [List.cons_append, List.cons_prefix_cons] at hp
      obtain ⟨rfl, hp⟩ := hp
      simp only [saidWith, check, ← levelName_id level hl]
      rcases prefix_append hp with hp | ⟨q, hq, rfl⟩
      · rcases hi with rfl | ⟨h9, d, r, e⟩
        · rw [List.prefix_nil.1 hp]
          exact ⟨level + 1, by omega, by omega, rfl⟩
        · obtain ⟨k, h1, h2, h3⟩ := ih (level + 1) _ _ _ (by omega) e p hp
          exact ⟨k, by omega, h2, h3⟩
      · rw [saidWith_append, check_append, ni]
        cases q with
        | nil => exact ⟨level + 1, by omega, by omega, rfl⟩
        | cons y q =>
          rw [List.cons_prefix_cons] at hq
          obtain ⟨rfl, hq⟩ := hq
          simp only [Option.bind_some, saidWith, levelName_id level hl, check, if_true]
          rcases ha with rfl | ⟨h9, d, r, e⟩
          · rw [List.prefix_nil.1 hq]
            exact ⟨level, by omega, by omega, rfl⟩
          · exact ih level _ _ _ hl e q hq

theorem thread_split {fuel n : Nat} {draws : List Nat} {l : List Item} (h : Random.thread fuel (n + 1) draws = some l) :
    ∃ a b rest, l = a ++ b ∧ Random.callstack fuel 0 draws = some (a, rest) ∧ Random.thread fuel n rest = some b := by
  simp only [Random.thread] at h
  split at h
  · cases h
  · next a rest e =>
    rw [Option.map_eq_some_iff] at h
    obtain ⟨b, hb, rfl⟩ := h
    exact ⟨a, b, rest, rfl, e, hb⟩

/-- **C143.** random_callstacks, whatever its generator gives and however many rounds a thread makes: the events of the thread are nested. -/
theorem random_nested (fuel n : Nat) (draws : List Nat) (l : List Item) (h : Random.thread fuel n draws = some l) : Nested (saidWith levelName l) := by
  induction n generalizing draws l with
  | zero => cases h; intro st; rfl
  | succ n ih =>
    obtain ⟨a, b, rest, rfl, e, hb⟩ := thread_split h
    intro st
    rw [saidWith_append, check_append, callstack_nested _ _ _ _ _ _ e]
    exact ih _ _ hb st

/-- **C143.** At any time the open scopes of the thread are those of the lowest levels, one of each, in their order and all with their names; there are never more than eleven. -/
theorem random_levels (fuel n : Nat) (draws : List Nat) (l : List Item) (h : Random.thread fuel n draws = some l) (p : List Item) (hp : p <+: l) :
    ∃ k, k ≤ 11 ∧ check [] (saidWith levelName p) = some (inside k) := by
  induction n generalizing draws l p with
  | zero => cases h; rw [List.prefix_nil.1 hp]; exact ⟨0, by omega, rfl⟩
  | succ n ih =>
    obtain ⟨a, b, rest, rfl, e, hb⟩ := thread_split h
    rcases prefix_append hp with hp | ⟨q, hq, rfl⟩
    · obtain ⟨k, _, h2, h3⟩ := callstack_levels _ _ _ _ _ (by omega) e p hp
      exact ⟨k, h2, h3⟩
    · rw [saidWith_append, check_append, callstack_nested _ _ _ _ _ _ e]
      exact ih _ _ hb q hq

/-- What is drawn for `d` scopes of level 0 side by side, one more and an end. -/
def sideBySide (d : Nat) : List Nat := (List.replicate d [0, 0]).flatten ++ [0, 1]

theorem side_by_side (d fuel : Nat) : Random.callstack fuel 0 (sideBySide d) =
    if fuel ≤ d then none else some ((List.replicate (d + 1) [Item.entry (Random.id 0), .exit (Random.id 0)]).flatten, []) := by
  induction d generalizing fuel with
  | zero =>
    cases fuel with
    | zero => rfl
    | succ m => simp [sideBySide, Random.callstack]
  | succ d ih =>
    cases fuel with
    | zero => rfl
    | succ m =>
      have e : sideBySide (d + 1) = 0 :: 0 :: sideBySide d := by simp [sideBySide, List.replicate_succ]
      rw [e]
      have ih := ih m
      by_cases h : m ≤ d
      · rw [if_pos h] at ih
        simp [Random.callstack, ih, h]
      · rw [if_neg h] at ih
        simp [Random.callstack, ih, h, List.replicate_succ]

/-- **C143, the violation.** Although there are at most eleven levels, the recursion of random_callstacks has no bound: each scope beside another is a further call inside. For every depth there are draws with which
    the call returns, but not with that depth of the stack. -/
theorem random_depth (d : Nat) : ∃ draws : List Nat, (∀ r ∈ draws, r ≤ 2) ∧ (∀ fuel, fuel ≤ d → Random.callstack fuel 0 draws = none) ∧ ∃ l, Random.callstack (d + 1) 0 draws = some (l, []) := by
  refine ⟨sideBySide d, ?_, ?_, ?_⟩
  · intro r hr
    simp only [sideBySide, List.mem_append, List.mem_flatten, List.mem_replicate] at hr
    rcases hr with ⟨x, ⟨_, rfl⟩, hr⟩ | hr <;> simp at hr <;> omega
  · intro fuel h; rw [side_by_side, if_pos h]
  · rw [side_by_side, if_neg (by omega)]; exact ⟨_, rfl⟩

/-! ## Options of random_callstacks -/

/-- **C143.** Both numbers are used as they are given, if they are below 2^31 and the first is not 0. -/
theorem options_used (a b : Nat) (ha : 0 < a) (ha' : a < 2 ^ 31) (hb : b < 2 ^ 31) (more : List Server.Text) :
    Random.options [] = .ok (.threads 10000 1) ∧ Random.options [Ctf.Spec.dec a] = .ok (.threads a 1) ∧ Random.options (Ctf.Spec.dec a :: Ctf.Spec.dec b :: more) = .ok (.threads a b) := by
  have ea := C84.atoi_dec a ha'
  have eb := C84.atoi_dec b hb
  have sz : ∀ n : Nat, n < 2 ^ 31 → Random.toSize (n : Int) = n := by intro n hn; unfold Random.toSize; omega
  have s1 : Random.toSize 10000 = 10000 := sz 10000 (by omega)
  have s2 : Random.toSize 1 = 1 := sz 1 (by omega)
  refine ⟨?_, ?_, ?_⟩
  · simp [Random.options, Res.bind, s1, s2]
  · simp only [Random.options, ea, Res.bind, sz a ha', s2]
    rw [if_neg (by omega)]
  · simp only [Random.options, ea, eb, Res.bind, sz a ha', sz b hb]
    rw [if_neg (by omega)]

/-- **C143, the violation.** A negative number of threads is taken for one of almost 2^64. -/
theorem options_negative (a b : Nat) (ha : 0 < a) (ha' : a < 2 ^ 31) (hb : 0 < b) (hb' : b ≤ 2 ^ 31) (more : List Server.Text) :
    Random.options (Ctf.Spec.dec a :: ('-' :: Ctf.Spec.dec b) :: more) = .ok (.threads a (2 ^ 64 - b)) := by
  have ea := C84.atoi_dec a ha'
  have eb := C84.atoi_neg b
  rw [if_pos hb'] at eb
  have sa : Random.toSize (a : Int) = a := by unfold Random.toSize; omega
  have sb : Random.toSize (-(b : Int)) = 2 ^ 64 - b := by unfold Random.toSize; omega
  simp only [Random.options, ea, eb, Res.bind, sa, sb]
  rw [if_neg (by omega)]

/-- **C143, the violation.** A number that is too large is undefined. -/
theorem options_large (a : Nat) (ha : 2 ^ 31 ≤ a) (more : List Server.Text) : Random.options (Ctf.Spec.dec a :: more) = .ub := by
  have ea := C84.atoi_dec_large a ha
  simp only [Random.options, ea, Res.bind]

/-- Text that is not a number prints the usage, if it is the first argument. As the second it is 0: the program runs, without threads. -/
theorem options_text (a : Nat) (ha : 0 < a) (ha' : a < 2 ^ 31) : Random.options ["--help".toList] = .ok .usage ∧ Random.options [Ctf.Spec.dec a, "two".toList] = .ok (.threads a 0) := by
  have ea := C84.atoi_dec a ha'
  have e1 : Server.atoi "--help".toList = .ok 0 := by decide +kernel
  have e2 : Server.atoi "two".toList = .ok 0 := by decide +kernel
  have sa : Random.toSize (a : Int) = a := by unfold Random.toSize; omega
  constructor
  · simp only [Random.options, e1, Res.bind]
    rw [if_pos (by decide)]
  · simp only [Random.options, ea, e2, Res.bind, sa]
    rw [if_neg (by omega)]
    rfl

/-! ## The generator of random_callstacks -/

/-- With one thread, two calls of the generator never overlap. -/
theorem one_thread_no_race (l : List Random.Draw) (s : Random.Gen) (h : Random.runGen 1 {} l = some s) : s.race = false := by
  have key : ∀ (l : List Random.Draw) (s s' : Random.Gen), Random.runGen 1 s l = some s' → s.race = false → s'.race = false := by
    intro l
    induction l with
    | nil => intro s s' h hr; cases h; exact hr
    | cons a l ih =>
      intro s s' h hr
      simp only [Random.runGen, Option.bind_eq_some_iff] at h
      obtain ⟨s1, e, h⟩ := h
      refine ih _ _ h ?_
      cases a with
      | begin t =>
        simp only [Random.draw] at e
        split at e
        · next hc =>
          cases e
          have : t = 0 := by omega
          subst this
          simp [hr, hc.2]
        · cases e
      | finish t =>
        simp only [Random.draw] at e
        split at e
        · cases e; exact hr
        · cases e
  exact key l {} s h rfl

/-- **C143, the violation.** With more threads: whenever one is in the generator, any other that draws races with it. -/
theorem threads_race (count : Nat) (s : Random.Gen) (t u : Nat) (ht : t < count) (hu : u < count) (hi : s.inside t = true) (ho : s.inside u = false) :
    ∃ s', Random.draw count s (.begin u) = some s' ∧ s'.race = true := by
  refine ⟨_, by simp only [Random.draw]; rw [if_pos ⟨hu, ho⟩], ?_⟩
  simp only [Bool.or_eq_true, List.any_eq_true, List.mem_range]
  exact .inr ⟨t, ht, hi⟩

/-- The hypotheses are met, from the start, with any number of threads above one. -/
theorem threads_race_reached (count : Nat) (h : 2 ≤ count) : ∃ s, Random.runGen count {} [.begin 0, .begin 1] = some s ∧ s.race = true := by
  have h0 : 0 < count := by omega
  have h1 : 1 < count := by omega
  refine ⟨_, by simp [Random.runGen, Random.draw, h0, h1]; rfl, ?_⟩
  simp [h0]

/-! ## embedded_catapult_recorder -/

open RecorderHistory in
theorem run_ok {s s' : State} {a : Act} (l : List Act) (h : s.destroyed = false) (e : step s a = (s', .ok ())) : run s (a :: l) = run s' l := by
  simp only [run, h, Bool.false_eq_true, if_false, e]

open RecorderHistory JsonText in
theorem run_arrivals (l : List J) : ∀ s : State, s.destroyed = false → ∃ s', run s (l.map (.arrive 0)) = some s' ∧ s'.running = s.running ∧ s'.destroyed = false := by
  induction l with
  | nil => intro s h; exact ⟨s, rfl, rfl, h⟩
  | cons j l ih =>
    intro s h
    obtain ⟨s', e, h1, h2⟩ := ih (step s (.arrive 0 j)).1 h
    refine ⟨s', ?_, h1, h2⟩
    rw [List.map_cons, run_ok _ h rfl]
    exact e

open RecorderHistory JsonText in
theorem arrivals_map (l : List J) : C139.arrivals 0 (l.map (.arrive 0)) = l := by
  induction l with
  | nil => rfl
  | cons j l ih => simp [C139.arrivals, ih]

open RecorderHistory in
/-- `main` of embedded_catapult_recorder.cpp:72-115 up to its return: `before` arrives at the native provider before the interval is stopped, `late` after it, while the program goes on. -/
def recorderMain (before late : List JsonText.J) : List Act :=
  [.addProvider .native, .addProvider .general, .start] ++ (.startInterval :: before.map (.arrive 0)) ++ .stopInterval :: (late.map (.arrive 0) ++ [.setupDumpFile "/tmp/traces.json".toList])

open RecorderHistory JsonText in
/-- **C143.** embedded_catapult_recorder: when it returns, the file holds what arrived before the interval was stopped, in its order, and what the general provider knows. What arrives later is not in it: that
    everything has arrived by then is up to the time that the program sleeps. -/
theorem recorder_file (before late : List J) (info : Nat → List J) (hc : ∀ j ∈ before ++ info 1, Clean j) : ∃ s, run {} (recorderMain before late) = some s ∧
    (step s (.destroy true info)).2 = .ok () ∧ ∃ t, (step s (.destroy true info)).1.files "/tmp/traces.json".toList = some t ∧ read t = some (.arr (before ++ info 1)) := by
  let s0 : State := { providers := [.native, .general], sources := [{ prov := 0, kind := .native }, { prov := 1, kind := .general }], running := true }
  have e0 : run {} [.addProvider .native, .addProvider .general, .start] = some s0 := rfl
  let h : List Act := .startInterval :: before.map (.arrive 0) ++ .stopInterval :: (late.map (.arrive 0) ++ [.setupDumpFile "/tmp/traces.json".toList])
  obtain ⟨s1, e1, r1, d1⟩ := run_arrivals before (step s0 .startInterval).1 rfl
  obtain ⟨s2, e2, r2, d2⟩ := run_arrivals late (step s1 .stopInterval).1 d1
  let s3 : State := { s2 with dump := "/tmp/traces.json".toList }
  have eh : run s0 h = some s3 := by
    show run (step s0 .startInterval).1 (before.map (.arrive 0) ++ .stopInterval :: (late.map (.arrive 0) ++ [.setupDumpFile "/tmp/traces.json".toList])) = _
    rw [C139.run_append, e1]
    show run s1 _ = _
    rw [run_ok (s' := (step s1 .stopInterval).1) _ d1 rfl, C139.run_append, e2]
    exact run_ok (s := s2) (s' := s3) (a := .setupDumpFile "/tmp/traces.json".toList) [] d2 rfl
  have hi : C139.Interval h (before.map (.arrive 0)) := by
    refine .closed ?_ ?_
    · intro a ha; obtain ⟨j, _, rfl⟩ := List.mem_map.1 ha; trivial
    · intro a ha
      rcases List.mem_append.1 ha with ha | ha
      · obtain ⟨j, _, rfl⟩ := List.mem_map.1 ha; exact .inl trivial
      · rw [List.mem_singleton] at ha; subst ha; exact .inl trivial
  have ex : C139.expected s0.sources (before.map (.arrive 0)) info = before ++ info 1 := by
    simp [C139.expected, s0, arrivals_map]
  have run3 : s3.running = true := r2.trans r1
  obtain ⟨h1, ⟨t, ht, hr⟩, _⟩ := C139.written_at_end (info := info) hi eh run3 (by show "/tmp/traces.json".toList ≠ []; decide) (by rw [ex]; exact hc)
  rw [ex] at hr
  refine ⟨s3, ?_, h1, t, ht, hr⟩
  show run {} ([.addProvider .native, .addProvider .general, .start] ++ (.startInterval :: before.map (.arrive 0)) ++ .stopInterval :: (late.map (.arrive 0) ++ [.setupDumpFile "/tmp/traces.json".toList])) = _
  rw [List.append_assoc, C139.run_append, e0]
  exact eh

/-- A round of random_callstacks: two scopes side by side, the first with one inside. -/
example : Random.thread 5 1 [1, 0, 1, 0, 0, 2] = some [.entry (Random.id 0), .entry (Random.id 1), .exit (Random.id 1), .exit (Random.id 0), .entry (Random.id 0), .exit (Random.id 0)] := by decide +kernel

/-- Draws that reach the highest level. -/
example : ∃ l, Random.thread 20 1 (List.replicate 10 2 ++ List.replicate 12 1) = some l ∧ (l.filter (· = .entry (Random.id 10))).length = 1 := ⟨_, rfl, by decide +kernel⟩

/-- Two rounds of showcase_toggle_tracepoints: two exits close nothing. -/
example : (shown (said (Toggle.main [97] 2 true))).orphans = [8, 21] := by rw [toggle_shown]; rfl

/-- Two rounds of showcase_count_events. -/
example : ([(3, 4), (5, 6)] : List (Int × Int)).length < 2 ^ 31 := by decide

example : ∃ j : JsonText.J, JsonText.Clean j := ⟨.null, .null⟩

end Scalopus.C143
