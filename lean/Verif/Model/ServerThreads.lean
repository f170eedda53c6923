import Verif.Model.Base

/-!
# Setting up a viewer server while it runs

Models how the thread that owns a `CatapultServer` and the thread of its web server use the members of the server and of its backend (scalopus_catapult/src/catapult_server.cpp:38-85, 101-105 and
catapult_backend.cpp:48-51, 92-128, 145-190): `providers_`, a vector, and `logger_`, a `std::function`. Nothing protects them. Every access is one step.

Simplifications: what the calls do one after the other, a second `start` and the destructor are in `Model/Server`; the threads of the sessions, which use copies of the logger, and `sources_` are in
`Model/SessionThreads`. Providers, loggers and connections are known by numbers. `session_mutex_` is only ever held by the web thread here.
-/

namespace Scalopus.ServerThreads

inductive Var where
  | providers | logger
  deriving DecidableEq, Repr

/-- What the owner calls. -/
inductive Call where
  | addProvider (p : Nat)
  | setLogger (l : Nat)
  | start
  deriving DecidableEq, Repr

/-- What the web server tells the backend. -/
inductive Event where
  | connect (ws : Nat)
  | disconnect (ws : Nat)
  | text (ws : Nat)
  | binary (ws : Nat)
  deriving DecidableEq, Repr

/-- Where the owner is. -/
inductive Owner where
  | idle
  /-- about to append to `providers_`, catapult_backend.cpp:50 -/
  | pushing (p : Nat)
  /-- about to assign `logger_`, catapult_backend.cpp:186 -/
  | setting (l : Nat)
  deriving DecidableEq, Repr

/-- A session: the sources it has, by provider, and its copy of the logger. -/
structure Session where
  sources : List Nat
  logger : Nat
  deriving DecidableEq, Repr

/-- Where the web thread is. -/
inductive Web where
  | notStarted
  | idle
  /-- about to log the new connection, catapult_backend.cpp:94 -/
  | logging (ws : Nat)
  /-- about to copy `logger_` into the new session, 168 -/
  | copying (ws : Nat)
  /-- about to look at `providers_` for the next provider, 171-174; these have made their sources -/
  | adding (ws : Nat) (s : Session)
  /-- about to log that binary data or a text without a session is not handled, 100 and 109 -/
  | complaining (ws : Nat)
  deriving DecidableEq, Repr

structure State where
  owner : Owner := .idle
  web : Web := .notStarted
  providers : List Nat := []
  /-- 0 is the logger that does nothing, catapult_server.cpp:42. -/
  logger : Nat := 0
  /-- `sessions_` -/
  sessions : List (Nat × Session) := []
  /-- Ghost: which logger got which line: about which connection. -/
  lines : List (Nat × Nat) := []

inductive Act where
  /-- The owner calls the server. -/
  | call (c : Call)
  /-- The owner takes its next step. -/
  | owner
  /-- The web server reports an event. -/
  | event (e : Event)
  /-- The web thread takes its next step. -/
  | web
  deriving DecidableEq, Repr

def ownerStep (s : State) : Option State :=
  match s.owner with
  | .idle => none
  | .pushing p => some { s with owner := .idle, providers := s.providers ++ [p] }
  | .setting l => some { s with owner := .idle, logger := l }

/-- catapult_backend.cpp:92-122 -/
def eventStep (s : State) : Event → Option State
  | .connect ws => some { s with web := .logging ws }
  | .disconnect ws => some { s with sessions := s.sessions.filter fun x => x.1 ≠ ws }
  | .text ws => match s.sessions.lookup ws with
    | some _ => some s
    | none => some { s with web := .complaining ws }
  | .binary ws => some { s with web := .complaining ws }

/-- catapult_backend.cpp:92-101, 145-178. The loop (171-174) reads the end of the vector once; while nobody writes, that is the same as reading it each time. -/
def webStep (s : State) : Option State :=
  match s.web with
  | .notStarted => none
  | .idle => none
  | .logging ws =>
    let t : State := { s with lines := s.lines ++ [(s.logger, ws)] }
    match s.sessions.lookup ws with
    | some _ => some { t with web := .idle }
    | none => some { t with web := .copying ws }
  | .copying ws => some { s with web := .adding ws ⟨[], s.logger⟩ }
  | .adding ws x =>
    match s.providers[x.sources.length]? with
    | some p => some { s with web := .adding ws { x with sources := x.sources ++ [p] } }
    | none => some { s with web := .idle, sessions := s.sessions ++ [(ws, x)] }
  | .complaining ws => some { s with web := .idle, lines := s.lines ++ [(s.logger, ws)] }

def step (s : State) : Act → Option State
  | .call c =>
    if s.owner ≠ .idle then none
    else match c with
      | .addProvider p => some { s with owner := .pushing p }
      | .setLogger l => some { s with owner := .setting l }
      | .start => if s.web = .notStarted then some { s with web := .idle } else none
  | .owner => ownerStep s
  | .event e => if s.web = .idle then eventStep s e else none
  | .web => webStep s

/-- Which member the owner is about to access; it writes. -/
def ownerAccess (s : State) : Option Var :=
  match s.owner with
  | .idle => none
  | .pushing _ => some .providers
  | .setting _ => some .logger

/-- Which member the web thread is about to access; it reads. -/
def webAccess (s : State) : Option Var :=
  match s.web with
  | .notStarted => none
  | .idle => none
  | .logging _ => some .logger
  | .copying _ => some .logger
  | .adding _ _ => some .providers
  | .complaining _ => some .logger

def run (s : State) : List Act → Option State
  | [] => some s
  | a :: l => (step s a).bind fun t => run t l

end Scalopus.ServerThreads
