import Verif.Model.Base

/-!
# Sessions of the websocket connections

Models the sessions of `CatapultBackend` (scalopus_catapult/src/catapult_backend.cpp:92-177). A connection is known to the backend by the address of its `WebSocket`
object. The web server (seasocks, a thirdparty library that is not part of the sources) calls the backend from one thread, calls `onConnect` for an address that is not in
use and `onDisconnect` once, after which the object is gone and its address may be used again. Functions given to the executor run on that thread, in order.

Ghost state: connections are numbered; a session has the number of the connection it was made for.
-/

namespace Scalopus.Backend

structure State (δ : Type) where
  /-- the addresses of the open websockets and the numbers of their connections -/
  opened : List (Nat × Nat) := []
  /-- `sessions_`: by address; the value is the session -/
  sessions : List (Nat × Nat) := []
  next : Nat := 0
  /-- functions that wait in the executor: address, session that replied, data -/
  queue : List (Nat × Nat × δ) := []
  /-- ghost: (session, connection, data) given to `TraceSession::incoming` -/
  received : List (Nat × Nat × δ) := []
  /-- ghost: (connection, session, data) sent -/
  sent : List (Nat × Nat × δ) := []
  /-- ghost: the replies that are dealt with, and whether they were sent -/
  handled : List ((Nat × δ) × Bool) := []
  /-- ghost: all replies: (session, data) -/
  replies : List (Nat × δ) := []

inductive Act (δ : Type) where
  | connect (p : Nat)
  | disconnect (p : Nat)
  | data (p : Nat) (d : δ)
  /-- The worker thread of a session replies. (Also while it is being joined in `delSession`.) -/
  | reply (session : Nat) (d : δ)
  /-- The server thread runs the next function of the executor. -/
  | run

variable {δ : Type}

/-- One step; `none`: not possible now. -/
def step (s : State δ) : Act δ → Option (Res (State δ))
  /- `onConnect`, `makeSession`, catapult_backend.cpp:92-96, 144-177 -/
  | .connect p =>
    if (s.opened.lookup p).isSome then none
    else
      let s1 : State δ := { s with opened := (p, s.next) :: s.opened, next := s.next + 1 }
      match s.sessions.lookup p with
      | some _ => some (.ok s1)
      | none => some (.ok { s1 with sessions := (p, s.next) :: s.sessions })
  /- `onDisconnect`, `delSession`, catapult_backend.cpp:116-120, 134-142 -/
  | .disconnect p =>
    if (s.opened.lookup p).isSome then
      some (.ok { s with opened := s.opened.filter (fun x => x.1 ≠ p), sessions := s.sessions.filter (fun x => x.1 ≠ p) })
    else none
  /- `onData`, `getSession`, catapult_backend.cpp:103-114, 122-132 -/
  | .data p d =>
    match s.opened.lookup p with
    | none => none
    | some c => match s.sessions.lookup p with
      | none => some (.ok s)
      | some n => some (.ok { s with received := s.received ++ [(n, c, d)] })
  /- the response function, catapult_backend.cpp:153-165: it holds the address of the websocket -/
  | .reply n d =>
    match s.sessions.find? (fun x => x.2 = n) with
    | none => none
    | some x => some (.ok { s with queue := s.queue ++ [(x.1, n, d)], replies := s.replies ++ [(n, d)] })
  /- the function in catapult_backend.cpp:154-163; sending over a websocket that is gone is undefined behaviour -/
  | .run =>
    match s.queue with
    | [] => none
    | (p, n, d) :: q =>
      match s.sessions.lookup p with
      | none => some (.ok { s with queue := q, handled := s.handled ++ [((n, d), false)] })
      | some _ => match s.opened.lookup p with
        | none => some .ub
        | some c => some (.ok { s with queue := q, sent := s.sent ++ [(c, n, d)], handled := s.handled ++ [((n, d), true)] })

inductive Reachable : State δ → Prop
  | init : Reachable {}
  | step {s s' : State δ} {a : Act δ} : Reachable s → step s a = some (.ok s') → Reachable s'

/-- Histories in which the address of a websocket is not used again while replies for it wait in the executor. -/
inductive ReachableFresh : State δ → Prop
  | init : ReachableFresh {}
  | step {s s' : State δ} {a : Act δ} : ReachableFresh s → (∀ p, a = .connect p → ∀ x ∈ s.queue, x.1 ≠ p) → step s a = some (.ok s') → ReachableFresh s'

end Scalopus.Backend
