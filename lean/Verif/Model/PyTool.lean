import Verif.Model.Endpoints

/-!
# The command line tool: `trace_configure` and `discover`

Models `run_trace_configure` and `run_discover` (scalopus_python/scalopus/__main__.py:82-117 and 160-229). What the manager's discovery round finds (`poller.manage()`, `poller.endpoints()`) is the
argument: a list of processes in the order of the map of transports, with the endpoints that the manager made for each of them (how that map comes about is the subject of C42-C44).

Simplifications: the processes do nothing else while the tool runs (C22 is about each of the accesses); messages are decoded values as in `Model/Endpoints`; ids given on the command line are
unbounded integers, as in Python; what is printed is the list of entries, without layout and colours.
-/

namespace Scalopus.PyTool

open Endpoints Configurator

/-- A process that serves endpoints. -/
structure Proc where
  pid : Int
  name : String := ""
  /-- The threads that have a name. -/
  threads : List (Nat × String) := []
  /-- Its tracing switches. -/
  trace : TraceState.State := {}
  /-- The names that the process serves. -/
  supported : List String := []
  /-- Which of the endpoints the manager has made for it. -/
  hasConfig : Bool := true
  hasInfo : Bool := true
  hasIntrospect : Bool := true

/-- How quickly the process answers the queries of the tool. `junk` is what an uninitialised `pid` holds (endpoint_process_info.h:52). `setHandled`: a set command whose answer comes late may have
    been handled or not. -/
structure Env where
  infoLate : Bool := false
  junk : Int := 0
  supportedLate : Bool := false
  setLate : Bool := false
  setHandled : Bool := true

/-- The command line of `trace_configure`: `state` and `-u` are "on" or "off" or missing (__main__.py:274-282). -/
structure Args where
  state : Option Bool := none
  unmatched : Option Bool := none
  ids : List Int := []

/-- `processInfo()` of the endpoint, called by the tool. -/
def askInfo (p : Proc) (e : Env) : Res ProcessInfo := do
  let answer ← inWorker (infoHandle p.pid p.name p.threads (some infoRequest))
  processInfo true e.junk (if e.infoLate then .late else .data answer)

/-- The configuration that is sent, __main__.py:183-199. `thread_id in relevant_ids` compares integers. -/
def newState (a : Args) (i : ProcessInfo) : Config :=
  let matched := i.pid ∈ a.ids
  { setProcess := matched ∨ a.unmatched.isSome
    process := if matched then a.state = some true else a.unmatched = some true
    threads := (i.threads.filter fun t => (t.1 : Int) ∈ a.ids).map fun t => (t.1, a.state = some true) }

/-- An entry of what is printed. -/
structure Entry where
  pid : Int
  info : ProcessInfo
  state : Config
  deriving Repr, DecidableEq

/-- One iteration of the loop over the transports, __main__.py:175-207: the process afterwards, and its entry. -/
def configureOne (a : Args) (p : Proc) (e : Env) : Res (Proc × Option Entry) :=
  if p.hasConfig = false then .ok (p, none)
  else if p.hasInfo = false then .throws "KeyError"
  else do
    let i ← askInfo p e
    let (t, reply) ← inWorker (handle p.trace (some (setRequest (newState a i))))
    if e.setLate then
      let c ← clientResult none
      return ({ p with trace := if e.setHandled then t else p.trace }, if c.success then some ⟨i.pid, i, c⟩ else none)
    else
      let c ← clientResult (some (some reply))
      return ({ p with trace := t }, if c.success then some ⟨i.pid, i, c⟩ else none)

/-- What the tool did: the processes afterwards, and the entries, or the exception that ended it. -/
structure Outcome where
  procs : List Proc
  result : Res (List Entry)

/-- The loop, __main__.py:175-207; after an exception the rest of the processes is as before. -/
def configureAll (a : Args) : List (Proc × Env) → Outcome
  | [] => ⟨[], .ok []⟩
  | (p, e) :: l =>
    match configureOne a p e with
    | .ok (p', x) =>
      let o := configureAll a l
      ⟨p' :: o.procs, o.result.bind fun xs => .ok (x.toList ++ xs)⟩
    | .throws w => ⟨p :: l.map (·.1), .throws w⟩
    | .ub => ⟨p :: l.map (·.1), .ub⟩
    | .terminate => ⟨p :: l.map (·.1), .terminate⟩

/-- Insert into a sorted list; on the left of equal ones. -/
def insertBy (f : α → Int) (x : α) : List α → List α
  | [] => [x]
  | y :: l => if f x ≤ f y then x :: y :: l else y :: insertBy f x l

/-- Sorting by a number, keeping the order of equal ones. -/
def sortBy (f : α → Int) (l : List α) : List α := l.foldr (insertBy f) []

/-- `entries.sort()` of pairs (pid, dict), __main__.py:105 and 208: Python compares the dicts of two entries with the same pid, which is a `TypeError` unless they are equal. (No sorting algorithm
    can avoid to compare two such entries.) -/
def sortEntries [DecidableEq α] (f : α → Int) (l : List α) : Res (List α) :=
  if l.all fun x => l.all fun y => f x ≠ f y || x = y then .ok (sortBy f l) else .throws "TypeError"

/-- `run_trace_configure`, __main__.py:160-228. -/
def traceConfigure (a : Args) (l : List (Proc × Env)) : Outcome :=
  let o := configureAll a l
  ⟨o.procs, o.result.bind (sortEntries Entry.pid)⟩

/-! ## `discover` -/

/-- What is collected about a process, __main__.py:95-103. -/
structure Found where
  info : Option ProcessInfo := none
  supported : Option (List String) := none
  deriving DecidableEq

/-- The loop over the endpoints of a process, __main__.py:95-103. -/
def discoverOne (p : Proc) (e : Env) : Res (Int × Found) := do
  let info ← if p.hasInfo then do
      let i ← askInfo p e
      pure (some i)
    else pure none
  let sup ← if p.hasIntrospect then do
      let s ← supported true (if e.supportedLate then .late else .data (some (.obj [("endpoints", .arr (p.supported.map .str))])))
      pure (some s)
    else pure none
  match info with
  | none => .throws "KeyError"
  | some i => .ok (i.pid, ⟨info, sup⟩)

/-- A printed entry of the listing: pid, name, endpoints, threads (__main__.py:107-117). -/
structure Listed where
  pid : Int
  name : String
  supported : List String
  threads : List (Nat × String)
  deriving Repr, DecidableEq

/-- Printing an entry, __main__.py:107-117. -/
def print : Int × Found → Res Listed
  | (_, ⟨some i, some s⟩) => .ok ⟨i.pid, i.name, s, i.threads⟩
  | _ => .throws "KeyError"

/-- `mapM` that keeps what was printed before an exception. -/
def printAll : List (Int × Found) → List Listed × Res Unit
  | [] => ([], .ok ())
  | x :: l =>
    match print x with
    | .ok y => let r := printAll l; (y :: r.1, r.2)
    | .throws w => ([], .throws w)
    | .ub => ([], .ub)
    | .terminate => ([], .terminate)

/-- The loop over all processes, __main__.py:93-103. -/
def collect : List (Proc × Env) → Res (List (Int × Found))
  | [] => .ok []
  | (p, e) :: l => do
    let x ← discoverOne p e
    let xs ← collect l
    return x :: xs

/-- `run_discover`, __main__.py:82-117: what is printed, and how it ends. -/
def discover (l : List (Proc × Env)) : List Listed × Res Unit :=
  match (collect l).bind (sortEntries (·.1)) with
  | .ok xs => printAll xs
  | .throws w => ([], .throws w)
  | .ub => ([], .ub)
  | .terminate => ([], .terminate)

end Scalopus.PyTool
