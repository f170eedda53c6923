import Verif.Model.PyTool

/-!
# The command line of `python3 -m scalopus`

Models the end of scalopus_python/scalopus/__main__.py (230-293): the parsers that it makes, what `parse_args()` does with the arguments, and which command is run. The algorithm of Python's `argparse` is modelled as it is in version
3.11; reading an integer and a floating point number is a parameter. Not modelled: the argument `--`, what the help and the messages say, and what happens when a command raises an exception (`PyTool`, `PyRecord`, `Server`).
-/

namespace Scalopus.CommandLine

/-- A string. -/
abbrev Text := List Char

/-- What an option does. -/
inductive Kind
  | help | port | interval | noPollLog | noCatapultLog | lttng | unmatched
deriving DecidableEq, Repr

/-- How many values an option takes: none, one, or one or none (`nargs="?"`). -/
inductive Arity
  | none | one | optional
deriving DecidableEq, Repr

def Kind.arity : Kind → Arity
  | .help | .noPollLog | .noCatapultLog => .none
  | .port | .interval | .lttng => .one
  | .unmatched => .optional

/-- An option: its names, and what it does. -/
structure Opt where
  names : List Text
  kind : Kind
deriving DecidableEq, Repr

/-- The commands. -/
inductive Cmd
  | catapultServer | discover | record | traceConfigure
deriving DecidableEq, Repr

/-- The names of the commands, __main__.py:241, 264, 269, 272 -/
def commands : List (Text × Cmd) := [("catapult_server".toList, .catapultServer), ("discover".toList, .discover), ("record".toList, .record), ("trace_configure".toList, .traceConfigure)]

/-- Every parser has it. -/
def helpOpt : Opt := ⟨["-h".toList, "--help".toList], .help⟩

/-- The options of a command, __main__.py:243-259 and 276-278; `lttng`: `scalopus.tracing.have_lttng` (256). -/
def options (lttng : Bool) : Cmd → List Opt
  | .catapultServer => [helpOpt, ⟨["-p".toList, "--port".toList], .port⟩, ⟨["--poll-interval".toList], .interval⟩, ⟨["--no-poll-log".toList], .noPollLog⟩, ⟨["--no-catapult-log".toList], .noCatapultLog⟩] ++
      (if lttng then [⟨["--lttng-session".toList], .lttng⟩] else [])
  | .traceConfigure => [helpOpt, ⟨["-u".toList, "--unmatched-pid".toList], .unmatched⟩]
  | .discover | .record => [helpOpt]

/-- How the program ends without running a command: it prints the help (status 0), or an error (status 2). -/
inductive Exit
  | help | usage
deriving DecidableEq, Repr

def Exit.status : Exit → Nat
  | .help => 0
  | .usage => 2

/-- The values of the arguments (`args`); `F`: floating point numbers. -/
structure Args (F : Type) where
  port : Int := 9222
  interval : F
  pollLog : Bool := true
  catapultLog : Bool := true
  lttng : Text := "scalopus_target_session".toList
  state : Option Bool := none
  unmatched : Option Bool := none
  ids : List Int := []

/-- Reading numbers: `int(…)` and `float(…)`; `none`: `ValueError`. -/
structure Conv (F : Type) where
  int : Text → Option Int
  float : Text → Option F
  /-- `1.0` -/
  one : F

/-! ## `argparse` -/

/-- What an argument is taken for. -/
inductive Cls
  /-- not an option -/
  | arg
  /-- an option, written as `name`, with a value in the same argument: after `=`, or not -/
  | opt (k : Kind) (name : Text) (value : Option (Bool × Text))
  /-- an option that does not exist -/
  | unknown
  /-- the beginning of the names of several options -/
  | ambiguous
deriving DecidableEq, Repr

/-- `self._option_string_actions.get(…)` -/
def find (os : List Opt) (n : Text) : Option Kind := (os.find? fun o => decide (n ∈ o.names)).map (·.kind)

/-- `arg_string.split('=', 1)`, if there is one -/
def splitEq : Text → Option (Text × Text)
  | [] => none
  | c :: t => if c = '=' then some ([], t) else (splitEq t).map fun x => (c :: x.1, x.2)

/-- All names, with what they do. -/
def allNames (os : List Opt) : List (Text × Kind) := os.flatMap fun o => o.names.map fun n => (n, o.kind)

/-- `_get_option_tuples`: options whose name begins like the argument. -/
def abbreviations (os : List Opt) (t : Text) : List (Kind × Text × Option (Bool × Text)) :=
  match t with
  | '-' :: '-' :: _ =>
    match splitEq t with
    | some (n, v) => ((allNames os).filter fun x => n.isPrefixOf x.1).map fun x => (x.2, x.1, some (true, v))
    | none => ((allNames os).filter fun x => t.isPrefixOf x.1).map fun x => (x.2, x.1, none)
  | '-' :: c :: r => (allNames os).filterMap fun x => if x.1 = ['-', c] then some (x.2, x.1, some (false, r)) else if t.isPrefixOf x.1 then some (x.2, x.1, none) else none
  | _ => []

/-- `^-\d+$|^-\d*\.\d+$` -/
def negativeNumber : Text → Bool
  | '-' :: t => (t ≠ [] ∧ t.all Char.isDigit) ∨ (t.dropWhile Char.isDigit).head? = some '.' ∧ (t.dropWhile Char.isDigit).tail ≠ [] ∧ (t.dropWhile Char.isDigit).tail.all Char.isDigit
  | _ => false

/-- `_parse_optional` -/
def classify (os : List Opt) (t : Text) : Cls :=
  if t.head? ≠ some '-' then .arg
  else if t = ['-', '-'] then .unknown
  else match find os t with
  | some k => .opt k t none
  | none =>
    if t.length = 1 then .arg
    else match (splitEq t).bind fun x => (find os x.1).map fun k => (k, x) with
    | some (k, n, v) => .opt k n (some (true, v))
    | none => match abbreviations os t with
      | [(k, n, v)] => .opt k n v
      | _ :: _ :: _ => .ambiguous
      | [] => if negativeNumber t || t.contains ' ' then .arg else .unknown

/-- "on" or "off", __main__.py:274-278 -/
def choice (t : Text) : Except Exit Bool := if t = "on".toList then .ok true else if t = "off".toList then .ok false else .error .usage

/-- What is done for an option, with its value. -/
def act {F : Type} (cv : Conv F) (k : Kind) (v : Option Text) (a : Args F) : Except Exit (Args F) :=
  match k, v with
  | .help, _ => .error .help
  | .noPollLog, _ => .ok { a with pollLog := false }
  | .noCatapultLog, _ => .ok { a with catapultLog := false }
  | .port, some t => match cv.int t with
    | some n => .ok { a with port := n }
    | none => .error .usage
  | .interval, some t => match cv.float t with
    | some x => .ok { a with interval := x }
    | none => .error .usage
  | .lttng, some t => .ok { a with lttng := t }
  | .unmatched, some t => (choice t).map fun b => { a with unmatched := some b }
  | .unmatched, none => .ok { a with unmatched := none }
  | _, none => .error .usage

/-- A value in the same argument as an option without values: `-hp80` stands for `-h -p 80`, `-hh` for `-h -h`; what follows `-h` is given, and whether it follows `=`. Only `-h` is such an option with a short name; the help is printed when the
    argument has been read. `next`: whether the next argument can be the value of the last option. -/
def cluster (os : List Opt) (next eq : Bool) : Text → Exit
  | [] => .usage
  | c :: rest =>
    if eq ∨ c = '-' then .usage
    else match find os ['-', c] with
    | none => .help
    | some k => match k.arity, rest with
      | .none, [] => .help
      | .none, '=' :: _ => .usage
      | .none, _ => cluster os next false rest
      | .one, [] => if next then .help else .usage
      | _, _ => .help

/-- An option that has its value in the same argument. -/
def explicit {F : Type} (cv : Conv F) (os : List Opt) (next : Bool) (k : Kind) (name : Text) (v : Bool × Text) (a : Args F) : Except Exit (Args F) :=
  match k.arity with
  | .none => .error (if name.take 2 = ['-', '-'] then .usage else cluster os next v.1 v.2)
  | _ => act cv k (some v.2) a

/-- Which positional arguments of a command have been found. `trace_configure` takes all that stand at one place: the first is `state`, the others are `id` (__main__.py:274-281). -/
inductive Place
  | before | inside | after
deriving DecidableEq, Repr

/-- The arguments of a command: its values, and what was not recognised. -/
def loop {F : Type} (cv : Conv F) (os : List Opt) (p : Place) (a : Args F) (extras : List Text) : List (Text × Cls) → Except Exit (Args F × List Text)
  | [] => .ok (a, extras)
  | (t, .arg) :: l => match p with
    | .before => match choice t with
      | .ok b => loop cv os .inside { a with state := some b } extras l
      | .error e => .error e
    | .inside => match cv.int t with
      | some n => loop cv os .inside { a with ids := a.ids ++ [n] } extras l
      | none => .error .usage
    | .after => loop cv os .after a (extras ++ [t]) l
  | (t, .unknown) :: l => loop cv os (if p = .inside then .after else p) a (extras ++ [t]) l
  | (_, .ambiguous) :: _ => .error .usage
  | (_, .opt k n (some v)) :: l => match explicit cv os (l.head?.any fun x => x.2 = .arg) k n v a with
    | .ok a => loop cv os (if p = .inside then .after else p) a extras l
    | .error e => .error e
  | [(_, .opt k _ none)] => match k.arity with
    | .one => .error .usage
    | _ => match act cv k none a with
      | .ok a => .ok (a, extras)
      | .error e => .error e
  | (_, .opt k _ none) :: (t, c) :: l => match k.arity with
    | .none => match act cv k none a with
      | .ok a => loop cv os (if p = .inside then .after else p) a extras ((t, c) :: l)
      | .error e => .error e
    | .one => if c = .arg then match act cv k (some t) a with
        | .ok a => loop cv os (if p = .inside then .after else p) a extras l
        | .error e => .error e
      else .error .usage
    | .optional => if c = .arg then match act cv k (some t) a with
        | .ok a => loop cv os (if p = .inside then .after else p) a extras l
        | .error e => .error e
      else match act cv k none a with
        | .ok a => loop cv os (if p = .inside then .after else p) a extras ((t, c) :: l)
        | .error e => .error e

/-- `parse_known_args` of the parser of a command. All arguments are classified first. -/
def parseCommand {F : Type} (cv : Conv F) (lttng : Bool) (c : Cmd) (l : List Text) : Except Exit (Args F × List Text) :=
  let os := options lttng c
  if l.any fun t => classify os t = .ambiguous then .error .usage
  else loop cv os (if c = .traceConfigure then .before else .after) { interval := cv.one } [] (l.map fun t => (t, classify os t))

/-- How the program goes on. -/
inductive Outcome (F : Type)
  | runs (c : Cmd) (a : Args F)
  | exits (e : Exit)

/-- `parse_args` of the parser of the program, and `args.func(args)`, __main__.py:284-292: the options of the program come before the command; everything after it is for the parser of the command. Without a command, the help is printed and
    `parser.exit()` ends the program, so that `sys.exit(1)` is not reached. -/
def top {F : Type} (cv : Conv F) (lttng : Bool) (extras : List Text) : List Text → Outcome F
  | [] => if extras = [] then .exits .help else .exits .usage
  | t :: l => match classify [helpOpt] t with
    | .arg => match commands.lookup t with
      | none => .exits .usage
      | some c => match parseCommand cv lttng c l with
        | .error e => .exits e
        | .ok (a, more) => if extras ++ more = [] then .runs c a else .exits .usage
    | .unknown => top cv lttng (extras ++ [t]) l
    | .ambiguous => .exits .usage
    | .opt _ _ none => .exits .help
    | .opt _ n (some v) => .exits (if n.take 2 = ['-', '-'] then .usage else cluster [helpOpt] false v.1 v.2)

/-- `python3 -m scalopus` with these arguments. -/
def main {F : Type} (cv : Conv F) (lttng : Bool) (args : List Text) : Outcome F := top cv lttng [] args

/-- What `run_trace_configure` uses, __main__.py:171-173 -/
def Args.tool {F : Type} (a : Args F) : PyTool.Args := { state := a.state, unmatched := a.unmatched, ids := a.ids }

end Scalopus.CommandLine
