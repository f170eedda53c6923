/-!
# Lifetimes of transports and endpoints

Models who owns whom: transports and endpoints are held by `std::shared_ptr`, a transport owns the endpoints in its map `endpoints_`
(scalopus_interface/include/scalopus_interface/transport.h:46-126, src/transport.cpp:59-64), and an endpoint refers to its transport by a plain pointer `transport_`
(include/scalopus_interface/endpoint.h:91-92, src/endpoint.cpp:44-56) that is never reset. A trace sender has a thread that uses the pointer
(scalopus_tracing/src/native/endpoint_native_trace_sender.cpp:49-113).

Transports and endpoints are numbered in the order in which they are made. The `broadcast` of all transports is the one of the base class
(transport.cpp:39-43), which uses the queue that is destroyed after `endpoints_` (transport.h:120-124: order of the members). The switch of the table of virtual functions in the destructors is not modelled.
-/

namespace Scalopus.Lifetime

/-- A transport: in use; in its destructor, the derived part being gone; destroyed. -/
inductive Phase
  | alive | dying | dead
deriving DecidableEq, Repr

/-- The thread of a sender (endpoint_native_trace_sender.cpp:75-113): an endpoint without a thread; at `while (running_)`; having events, at `if (transport_ != nullptr)`;
at the call of `broadcast` for the pointer it read (the pointer is read twice in the code; here once); finished. -/
inductive Worker
  | absent | idle | look | call (t : Nat) | ended
deriving DecidableEq, Repr

/-- A transport: the holders of a `shared_ptr` to it, its `endpoints_` (transport.h:123) by name, and the endpoint whose destructor it waits for in its destructor or in `addEndpoint`. -/
structure Tr where
  held : Nat := 0
  phase : Phase := .dead
  eps : List (Nat × Nat) := []
  waits : Option Nat := none
deriving DecidableEq, Repr

/-- An endpoint: its name, the holders of a `shared_ptr` to it other than transports, `transport_` (endpoint.h:91), and for a sender its thread and `running_`. -/
structure Ep where
  name : Nat := 0
  held : Nat := 0
  transport : Option Nat := none
  worker : Worker := .absent
  running : Bool := true
deriving DecidableEq, Repr

structure State where
  nt : Nat := 0
  tr : Nat → Tr := fun _ => {}
  ne : Nat := 0
  ep : Nat → Ep := fun _ => {}

inductive Act
  /-- A transport is made, and held by the one who made it. -/
  | newTransport
  /-- An endpoint with this name is made; a sender starts its thread (endpoint_native_trace_sender.cpp:49-53). -/
  | newEndpoint (name : Nat) (sender : Bool)
  | holdT (t : Nat)
  | dropT (t : Nat)
  | holdE (e : Nat)
  | dropE (e : Nat)
  /-- `addEndpoint`, by one who holds both. -/
  | add (t e : Nat)
  /-- `setTransport`, by one who holds both. -/
  | set (e t : Nat)
  /-- An access to the transport in a member function of an endpoint (`supported`, `mapping`, `processInfo`, `setTraceState`, ...), by one who holds the endpoint. -/
  | use (e : Nat)
  /-- The thread of a sender reads `running_`, and if it is set, has collected events or not. -/
  | collect (e : Nat) (events : Bool)
  /-- The thread reads `transport_`. -/
  | look (e : Nat)
  /-- The thread calls `broadcast`. -/
  | cast (e : Nat)
  /-- The destructor of a transport drops the entry for a name. -/
  | dropEntry (t name : Nat)
  /-- The thread of the endpoint that is waited for is joined. -/
  | joined (t : Nat)
  /-- The destructor of a transport ends. -/
  | finish (t : Nat)
deriving DecidableEq, Repr

/-- Outcomes: the action is not possible here; undefined behaviour; a new state. -/
inductive Out
  | no | ub | ok (s : State)

def setTr (s : State) (t : Nat) (x : Tr) : State := { s with tr := fun i => if i = t then x else s.tr i }
def setEp (s : State) (e : Nat) (x : Ep) : State := { s with ep := fun i => if i = e then x else s.ep i }

/-- Does the map of some transport hold the endpoint? -/
def inMap (s : State) (e : Nat) : Bool := (List.range s.nt).any fun t => (s.tr t).eps.any fun p => p.2 == e

/-- Is there a `shared_ptr` to the endpoint? -/
def owned (s : State) (e : Nat) : Bool := decide (0 < (s.ep e).held) || inMap s e

/-- What follows the end of a reference to `e`: with the last, the destructor runs (endpoint_native_trace_sender.cpp:55-60; `running_ = false`). Gives the endpoint whose thread is then waited for. -/
def release (s : State) (e : Nat) : State × Option Nat :=
  if owned s e then (s, none) else (setEp s e { s.ep e with running := false }, some e)

/-- The thread has finished, or there is none. -/
def Worker.done : Worker → Bool
  | .absent | .ended => true
  | _ => false

/-- `endpoints_[name] = e` on the map (transport.cpp:62): the entries without `name`, and the new one. -/
def insert (l : List (Nat × Nat)) (name e : Nat) : List (Nat × Nat) := (name, e) :: l.filter (·.1 != name)

def lookup (l : List (Nat × Nat)) (name : Nat) : Option Nat := (l.find? (·.1 == name)).map (·.2)

/-- One step. -/
def step (s : State) : Act → Out
  | .newTransport => .ok { setTr s s.nt { held := 1, phase := .alive } with nt := s.nt + 1 }
  | .newEndpoint name sender => .ok { setEp s s.ne { name := name, held := 1, worker := if sender then .idle else .absent } with ne := s.ne + 1 }
  | .holdT t => if 0 < (s.tr t).held then .ok (setTr s t { s.tr t with held := (s.tr t).held + 1 }) else .no
  -- the last holder runs the destructor; the caller of `addEndpoint` holds the transport
  | .dropT t =>
    if 1 < (s.tr t).held then .ok (setTr s t { s.tr t with held := (s.tr t).held - 1 })
    else if (s.tr t).held = 1 ∧ (s.tr t).waits = none then .ok (setTr s t { s.tr t with held := 0, phase := .dying })
    else .no
  | .holdE e => if owned s e then .ok (setEp s e { s.ep e with held := (s.ep e).held + 1 }) else .no
  | .dropE e => if 0 < (s.ep e).held then .ok (release (setEp s e { s.ep e with held := (s.ep e).held - 1 }) e).1 else .no
  -- transport.cpp:59-64
  | .add t e =>
    if 0 < (s.tr t).held ∧ (s.tr t).waits = none ∧ 0 < (s.ep e).held then
      let old := lookup (s.tr t).eps (s.ep e).name
      let s1 := setEp (setTr s t { s.tr t with eps := insert (s.tr t).eps (s.ep e).name e }) e { s.ep e with transport := some t }
      match old with
      | none => .ok s1
      | some o => .ok (setTr (release s1 o).1 t { s1.tr t with waits := (release s1 o).2 })
    else .no
  -- endpoint.cpp:44-51
  | .set e t => if 0 < (s.tr t).held ∧ 0 < (s.ep e).held then .ok (setEp s e { s.ep e with transport := some t }) else .no
  -- endpoint_introspect.cpp:60-67, endpoint_trace_mapping.cpp:64-72, endpoint_process_info.cpp:80-88, endpoint_trace_configurator.cpp:60-94: without a transport an exception
  | .use e =>
    if 0 < (s.ep e).held then
      match (s.ep e).transport with
      | none => .ok s
      | some t => if (s.tr t).phase = .alive then .ok s else .ub
    else .no
  -- endpoint_native_trace_sender.cpp:80-103
  | .collect e events =>
    if (s.ep e).worker = .idle then
      if (s.ep e).running then .ok (if events then setEp s e { s.ep e with worker := .look } else s) else .ok (setEp s e { s.ep e with worker := .ended })
    else .no
  -- :105
  | .look e =>
    if (s.ep e).worker = .look then
      match (s.ep e).transport with
      | none => .ok (setEp s e { s.ep e with worker := .idle })
      | some t => .ok (setEp s e { s.ep e with worker := .call t })
    else .no
  -- :107, transport.cpp:39-43
  | .cast e =>
    match (s.ep e).worker with
    | .call t => if (s.tr t).phase = .dead then .ub else .ok (setEp s e { s.ep e with worker := .idle })
    | _ => .no
  | .dropEntry t name =>
    if (s.tr t).phase = .dying ∧ (s.tr t).waits = none then
      match lookup (s.tr t).eps name with
      | none => .no
      | some o =>
        let s1 := setTr s t { s.tr t with eps := (s.tr t).eps.filter (·.1 != name) }
        .ok (setTr (release s1 o).1 t { s1.tr t with waits := (release s1 o).2 })
    else .no
  | .joined t =>
    match (s.tr t).waits with
    | some e => if (s.ep e).worker.done then .ok (setTr s t { s.tr t with waits := none }) else .no
    | none => .no
  | .finish t => if (s.tr t).phase = .dying ∧ (s.tr t).waits = none ∧ (s.tr t).eps = [] then .ok (setTr s t { s.tr t with phase := .dead }) else .no

def run (s : State) : List Act → Out
  | [] => .ok s
  | a :: as => match step s a with
    | .ok s' => run s' as
    | o => o

end Scalopus.Lifetime
