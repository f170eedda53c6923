import Verif.Model.Protocol

/-!
# Requests over the unix transport (scalopus_transport/src/transport_unix.cpp)

One connection between a client transport and a server, as a transition system. Messages are exchanged whole and in order;
that this is what the byte protocol does is the subject of `Model/Protocol` (C03-C05, C10). Each action is one critical
section or one system call of one of the threads: any number of requesting threads, the client's worker and the server's
worker. A list of actions is a schedule; an action that is not possible in a state leaves it unchanged.

What the endpoints on both sides compute is not fixed: every invocation of a handler takes its result from the action.
-/

namespace Scalopus.Unix

open Protocol

/-- Key of `ongoing_requests_`, transport_unix.h:109. -/
abbrev Key := Bytes × Nat

/-- Where a call of `request` is, transport_unix.cpp:138-162. -/
inductive ReqPc where
  /-- the id is taken (line 140), nothing is sent yet -/
  | sending
  /-- the message is on the wire (line 151), the promise is not in the map yet (line 159) -/
  | sent
  /-- the promise was put into the map (line 160) and the call returned -/
  | registered
  /-- the send failed and the call returned a future with an exception (lines 153-154) -/
  | failed
  deriving Repr, DecidableEq

/-- State of the future that `request` returns. -/
inductive Fut where
  | waiting
  | value (d : Bytes)
  | error
  deriving Repr, DecidableEq

/-- One call of `request`, transport_unix.cpp:138-162. -/
structure Req where
  endpoint : Bytes
  payload : Bytes
  id : Nat
  pc : ReqPc := .sending
  fut : Fut := .waiting
  /-- the caller still holds the future (the `weak_ptr` in the map has not expired) -/
  held : Bool := true
  deriving Repr, DecidableEq

/-- One invocation of `Endpoint::handle` in the server for a message of this connection (transport_unix.cpp:402): the
    message it was invoked for, and the response if it returned true. -/
structure Call where
  endpoint : Bytes
  id : Nat
  payload : Bytes
  result : Option Bytes
  deriving Repr, DecidableEq

/-- The state of one connection with both its ends. -/
structure Conn where
  /-- `request_counter_`, transport_unix.h:103, initially 1; a `size_t` -/
  counter : Nat := 1
  /-- all calls of `request` so far; a call is named by its position -/
  reqs : List Req := []
  /-- `ongoing_requests_`, transport_unix.h:109: the key and the call whose promise it holds -/
  ongoing : List (Key × Nat) := []
  /-- messages on the wire towards the server -/
  toServer : List Msg := []
  /-- messages on the wire towards the client -/
  toClient : List Msg := []
  /-- message received by the client's worker (line 264) that it has not looked up yet (line 274) -/
  received : Option Msg := none
  /-- the client's worker is running (`running_`) -/
  running : Bool := true
  /-- the server end is still open -/
  serverUp : Bool := true
  /-- names in the server's `endpoints_` -/
  serverEndpoints : List Bytes := []
  /-- names in the client's `endpoints_` -/
  clientEndpoints : List Bytes := []
  /-- all invocations of `handle` in the server for this connection so far -/
  calls : List Call := []
  deriving Repr

/-- Steps of the threads and of the environment. -/
inductive Act where
  /-- a thread calls `request` (line 140: takes the id) -/
  | request (endpoint payload : Bytes)
  /-- call number `r` sends its message (lines 149-156); `ok` is the result of `protocol::send` -/
  | send (r : Nat) (ok : Bool)
  /-- call number `r` stores its promise (lines 159-160) and returns -/
  | register (r : Nat)
  /-- the caller drops the future of call number `r` -/
  | drop (r : Nat)
  /-- the server receives one message and processes it (lines 318-331, 392-406); `result` is what the endpoint's `handle`
      produces, if there is such an endpoint -/
  | serve (result : Option Bytes)
  /-- the server sends a broadcast on this connection (lines 351-363) -/
  | broadcast (endpoint data : Bytes)
  /-- the client's worker receives a message (lines 261-269) -/
  | receive
  /-- the client's worker looks the received message up and handles it (lines 272-301); `reply` is what `unsolicited`
      produces if it is invoked -/
  | dispatch (reply : Option Bytes)
  /-- the client's worker removes dropped requests (lines 366-382) -/
  | cleanup
  /-- the server closes its end -/
  | serverDown
  /-- `addEndpoint` on the server -/
  | addServerEndpoint (name : Bytes)
  /-- `addEndpoint` on the client -/
  | addClientEndpoint (name : Bytes)
  deriving Repr

/-- Changes call number `r`. -/
def updReq (c : Conn) (r : Nat) (f : Req → Req) : Conn := { c with reqs := c.reqs.modify r f }

/-- `map::find`. -/
def find (m : List (Key × Nat)) (k : Key) : Option Nat := (m.find? (fun e => e.1 = k)).map (·.2)

/-- `map::erase`. -/
def erase (m : List (Key × Nat)) (k : Key) : List (Key × Nat) := m.filter (fun e => e.1 ≠ k)

/-- `map[k] = v`, transport_unix.cpp:160: an existing entry is overwritten. -/
def insert (m : List (Key × Nat)) (k : Key) (r : Nat) : List (Key × Nat) := erase m k ++ [(k, r)]

/-- Lines 272-301: what the worker does with a message. -/
def dispatchMsg (c : Conn) (m : Msg) (reply : Option Bytes) : Conn :=
  match find c.ongoing (m.endpoint, m.requestId) with
  | some r =>
    let c := updReq c r (fun q => if q.held then { q with fut := .value m.data } else q)   -- lines 277-281
    { c with ongoing := erase c.ongoing (m.endpoint, m.requestId) }                         -- line 282
  | none =>
    if m.endpoint ∈ c.clientEndpoints then                                                  -- lines 288-289
      match reply with
      | some d =>                                                                           -- lines 291-298
        if c.running ∧ c.serverUp then
          { c with toServer := c.toServer ++ [{ requestId := m.requestId, endpoint := m.endpoint, data := d }] }
        else c
      | none => c
    else c

/-- One step. -/
def step (c : Conn) : Act → Conn
  | .request ep payload =>
    { c with
      counter := (c.counter + 1) % 2 ^ 64
      reqs := c.reqs ++ [{ endpoint := ep, payload := payload, id := c.counter }] }
  | .send r ok =>
    match c.reqs[r]? with
    | some q =>
      if q.pc = .sending then
        if ok ∧ c.running ∧ c.serverUp then
          { updReq c r (fun q => { q with pc := .sent }) with
            toServer := c.toServer ++ [{ requestId := q.id, endpoint := q.endpoint, data := q.payload }] }
        else updReq c r (fun q => { q with pc := .failed, fut := .error })
      else c
    | none => c
  | .register r =>
    match c.reqs[r]? with
    | some q =>
      if q.pc = .sent then
        { updReq c r (fun q => { q with pc := .registered }) with
          ongoing := insert c.ongoing (q.endpoint, q.id) r }
      else c
    | none => c
  | .drop r =>
    match c.reqs[r]? with
    | some q =>
      if q.pc = .registered ∨ q.pc = .failed then updReq c r (fun q => { q with held := false }) else c
    | none => c
  | .serve result =>
    match c.toServer with
    | [] => c
    | m :: ms =>
      if m.endpoint ∈ c.serverEndpoints then
        { c with
          toServer := ms
          calls := c.calls ++ [{ endpoint := m.endpoint, id := m.requestId, payload := m.data, result := result }]
          toClient := match result with
            | some d => c.toClient ++ [{ requestId := m.requestId, endpoint := m.endpoint, data := d }]
            | none => c.toClient }
      else { c with toServer := ms }
  | .broadcast ep data =>
    if c.serverUp then { c with toClient := c.toClient ++ [{ requestId := 0, endpoint := ep, data := data }] } else c
  | .receive =>
    if c.running ∧ c.received = none then
      match c.toClient with
      | m :: ms => { c with received := some m, toClient := ms }
      | [] =>
        -- end of the stream: the receive fails, the worker stops but still looks up the empty message
        if c.serverUp then c else { c with received := some {}, running := false }
    else c
  | .dispatch reply =>
    match c.received with
    | none => c
    | some m => dispatchMsg { c with received := none } m reply
  | .cleanup =>
    if c.running ∧ c.received = none then
      { c with ongoing := c.ongoing.filter (fun e => ((c.reqs[e.2]?).map (·.held)).getD false) }
    else c
  | .serverDown => { c with serverUp := false, toServer := [] }
  | .addServerEndpoint n => { c with serverEndpoints := n :: c.serverEndpoints }
  | .addClientEndpoint n => { c with clientEndpoints := n :: c.clientEndpoints }

/-- A schedule. -/
def run (c : Conn) (as : List Act) : Conn := as.foldl step c

/-- A fresh connection, transport_unix.h:103, :109, transport_unix.cpp:100-136. -/
def init : Conn := {}

/-- `isConnected` of the client, transport_unix.cpp:164-167: `client_fd_` is set to 0 when the worker stops (lines 267-268). -/
def isConnected (c : Conn) : Bool := c.running

/-- The destruction of the client, transport_unix.cpp:204-216 and transport_unix.h:109: the promises that are still in the map are destroyed, which makes their futures fail (`std::promise`). -/
def destroy (c : Conn) : Conn :=
  { c with
    reqs := c.reqs.mapIdx fun r q => if r ∈ c.ongoing.map (·.2) then { q with fut := .error } else q
    ongoing := [], running := false }

/-- `pendingRequests`, transport_unix.cpp:386-390. -/
def pendingRequests (c : Conn) : Nat := c.ongoing.length

/-- Any number of clients connected to one server: transport_unix.cpp:310-346 treats every connection by itself. -/
abbrev System := Nat → Conn

/-- A step of client or connection number `i`. -/
def sysStep (s : System) (a : Nat × Act) : System := fun j => if j = a.1 then step (s j) a.2 else s j

/-- A schedule of the whole system. -/
def sysRun (s : System) (as : List (Nat × Act)) : System := as.foldl sysStep s

end Scalopus.Unix
