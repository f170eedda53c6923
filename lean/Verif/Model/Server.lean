import Verif.Model.Base
import Verif.Model.Ctf
import Verif.Model.JsonText

/-!
# The server for the viewer

Models `CatapultServer` (scalopus_catapult/src/catapult_server.cpp:38-105), the pages of `CatapultBackend::handle` (catapult_backend.cpp:53-90), and the choice of the port in the two programs that start a
server: scalopus_catapult_server.cpp:56-157 and `run_catapult_server` (scalopus_python/scalopus/__main__.py:37-80). The web server (seasocks) is a thirdparty library that is not part of the sources:
`startListening` listens on the port or reports that it cannot, `loop` runs until `terminate`.
-/

namespace Scalopus.Server

open JsonText (J)

/-- A text. -/
abbrev Text := List Char

/-! ## Calls -/

/-- The web server that `start` makes. -/
structure Web where
  port : Int
  /-- Whether it listens: `startListening` succeeded. -/
  listening : Bool
  logger : Nat
  buffer : Nat
  deriving DecidableEq, Repr

/-- A `CatapultServer`. Loggers and providers are known by numbers; logger 0 ignores everything, logger 1 prints warnings. -/
structure State where
  providers : List Nat := []
  /-- `logger_`, given to the backend -/
  logger : Nat := 0
  /-- `seasocks_logger_` -/
  webLogger : Nat := 0
  /-- `max_buffer_` (catapult_server.h:103) -/
  maxBuffer : Nat := 128 * 1024 * 1024
  /-- `server_` -/
  web : Option Web := none
  /-- `thread_` is joinable: it was started and not joined. -/
  joinable : Bool := false
  deriving DecidableEq, Repr

inductive Call where
  | addProvider (p : Nat)
  | setWebLogger (l : Nat)
  | setWarningLogger
  | setMaxBuffersize (n : Nat)
  | setLogger (l : Nat)
  /-- `listens`: whether the port can be listened on. -/
  | start (port : Int) (listens : Bool)
  deriving DecidableEq, Repr

/-- catapult_server.cpp:45-85, 101-105. The result of `startListening` (82) is not looked at. Assigning to a `std::thread` that is joinable (83) calls `std::terminate`. -/
def step (s : State) : Call → Res State
  | .addProvider p => .ok { s with providers := s.providers ++ [p] }
  | .setWebLogger l => .ok { s with webLogger := l }
  | .setWarningLogger => .ok { s with webLogger := 1 }
  | .setMaxBuffersize n => .ok { s with maxBuffer := n }
  | .setLogger l => .ok { s with logger := l }
  | .start port listens =>
    if s.joinable then .terminate
    else .ok { s with web := some { port := port, listening := listens, logger := s.webLogger, buffer := s.maxBuffer }, joinable := true }

def run (s : State) : List Call → Res State
  | [] => .ok s
  | c :: l => (step s c).bind fun s => run s l

/-- `~CatapultServer()`, catapult_server.cpp:92-99: `loop` returns after `terminate`. Destroying a `std::thread` that is joinable calls `std::terminate`; joining one that is not throws, which a
    destructor does not let out. -/
def destroy (s : State) : Res Unit :=
  match s.web with
  | some _ => if s.joinable then .ok () else .terminate
  | none => if s.joinable then .terminate else .ok ()

/-! ## Programs -/

/-- `std::atoi`: 0 if there is no number; undefined if it does not fit. -/
def atoi (s : Text) : Res Int :=
  let x := Ctf.sign (Ctf.skipSpace s)
  let n : Int := Ctf.number 10 (Ctf.digits 10 x.2).1
  let v := if x.1 then -n else n
  if -2 ^ 31 ≤ v ∧ v < 2 ^ 31 then .ok v else .ub

/-- How a program goes on. -/
inductive Outcome where
  /-- The usage is printed, and the program ends with status 1. -/
  | usage
  /-- The server is started: with which calls, and which port was printed before. -/
  | started (announced : Int) (calls : List Call)
  deriving DecidableEq, Repr

/-- `main` of scalopus_catapult_server (56-157), given its arguments, without LTTng. The server is started without an argument (145), so on the port that is the default of `start` (catapult_server.h:89).
    `listens`: whether a port can be listened on. -/
def main (listens : Int → Bool) (args : List Text) : Res Outcome :=
  (match args with
    | [] => Res.ok 9222
    | a :: _ => atoi a).bind fun port =>
  if port = 0 then .ok .usage
  else .ok (.started port [.addProvider 0, .addProvider 1, .setLogger 1, .setWarningLogger, .start 9222 (listens 9222)])

/-- `run_catapult_server` (__main__.py:37-80), given the port on the command line, without LTTng. -/
def pyMain (listens : Int → Bool) (port : Option Int) (log : Bool) : List Call :=
  let port := port.getD 9222
  [.addProvider 0, .addProvider 1] ++ (if log then [.setLogger 1] else []) ++ [.start port (listens port)]

/-! ## Pages -/

/-- The paths at which websockets are served, catapult_server.cpp:68-69. -/
def websockets : List Text := ["/devtools/page/bar".toList, "/devtools/browser".toList]

def str (s : String) : J := .str (some s.toList)

def members (l : List (String × J)) : J := .obj (l.map fun x => (some x.1.toList, x.2))

/-- catapult_backend.cpp:55-69. The members of a `json` object are ordered by their keys. -/
def version : J := members [
  ("Browser", str "Chrome/120.0.6099.129"),
  ("Protocol-Version", str "1.3"),
  ("User-Agent", str "Mozilla/5.0 (X11; Linux x86_64) AppleWebKit/537.36 (KHTML, like Gecko) Chrome/120.0.0.0 Safari/537.36"),
  ("V8-Version", str "12.0.267.10"),
  ("WebKit-Version", str "537.36 (@204016af461e03117aa3858b51ba4534c7cfda81)"),
  ("webSocketDebuggerUrl", str "devtools/page/bar")]

/-- catapult_backend.cpp:71-87. The icon is a text of ASCII characters. -/
def targets (favicon : Text) : J := .arr [members [
  ("description", str "Scalopus Operational"),
  ("devtoolsFrontendUrl", str "/devtools/inspector.html?ws=127.0.0.1:9222/devtools/p"),
  ("faviconUrl", .str (some favicon)),
  ("id", str "fooo"),
  ("title", str "Scalopus; click 'trace' --------------------------------------------------------------------------^"),
  ("type", str "tab"),
  ("url", str "scalopus://catapult_server"),
  ("webSocketDebuggerUrl", str "-")]]

/-- `CatapultBackend::handle`, catapult_backend.cpp:53-90; `none`: not handled. -/
def page (favicon uri : Text) : Option Text :=
  if uri = "/json/version".toList then JsonText.dump version
  else if "/json/list".toList.isPrefixOf uri then JsonText.dump (targets favicon)
  else none

end Scalopus.Server
