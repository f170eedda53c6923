import Verif.Model.Configurator

/-!
# Switches set from other processes while the program runs

`EndpointTraceConfigurator` (scalopus_tracing/src/endpoint_trace_configurator.cpp:60-147) with any number of clients. The server has one worker (scalopus_transport/src/transport_unix.cpp:218-331), which handles one
command after the other; the threads of the process go on while it does, so the single accesses to the switches are steps of their own here.

Simplifications: a client's command arrives as it was written (C126, C128) and the messages of one connection in their order (C05); an answer reaches the call that waits for it (C06); commands that are not
written by this library are not sent (C63). The time of 200 milliseconds is not modelled: a call may give up at any moment. A connection that breaks is a call that gives up, and perhaps a command that is never taken.
-/

namespace Scalopus.RemoteSwitch

open Configurator (Config setActs)

/-- What has become of a call of `setTraceState` or `getTraceState`. -/
inductive Outcome where
  | waiting
  /-- nothing came in time, endpoint_trace_configurator.cpp:81, 103 -/
  | failed
  /-- endpoint_trace_configurator.cpp:76-79, 98-101 -/
  | returned (c : Config)
  deriving DecidableEq

/-- A call: the connection of the client, and what it asks for: `some c` is `setTraceState(c)` (endpoint_trace_configurator.cpp:60-82), `none` is `getTraceState()` (84-104). -/
structure Call where
  conn : Nat
  cfg : Option Config
  out : Outcome := .waiting
  deriving DecidableEq

/-- The local variables of `handle`, endpoint_trace_configurator.cpp:106-147. -/
structure Work where
  /-- the call that is handled -/
  call : Nat
  /-- the number of the map (`getThreadMap`, 111) -/
  h : Nat
  /-- the stores that are still to be done, 118-131 -/
  todo : List TraceState.Act
  /-- `updated_state.process_state`, once it is set, 139 -/
  process : Option Bool := none
  /-- the entries of the map that are still to be read, 142-143 -/
  left : List (Nat × Nat)
  /-- `updated_state.thread_state` -/
  got : List (Nat × Bool) := []
  deriving DecidableEq

structure State where
  /-- the switches and the threads that trace -/
  sw : TraceState.State := {}
  calls : List Call := []
  /-- the commands that have been sent and not taken, the oldest first -/
  queue : List Nat := []
  /-- the worker, while it is in `handle` -/
  work : Option Work := none
  deriving DecidableEq

inductive Act where
  /-- a step of a thread of the process (trace_configurator.cpp, native_tracepoint.cpp) -/
  | thread (a : TraceState.Act)
  /-- a client calls, endpoint_trace_configurator.cpp:69-72, 92-94 -/
  | call (conn : Nat) (cfg : Option Config)
  /-- the worker takes the next message of this connection and calls `handle`, up to the copy of the map, 106-112 -/
  | take (conn : Nat)
  /-- the worker's next access to a switch, or its answer -/
  | handle
  /-- a call has waited long enough, 74, 96 -/
  | giveUp (k : Nat)

/-- The stores that a command asks for, endpoint_trace_configurator.cpp:114-132 -/
def stores (h : Nat) : Option Config → List TraceState.Act
  | some c => setActs h c
  | none => []

/-- The next thing that `handle` does (endpoint_trace_configurator.cpp:118-146), and the answer when it gets there. -/
def handleStep (s : State) (w : Work) : Res State :=
  match w.todo with
  | a :: as => (TraceState.step s.sw a).bind fun sw => .ok { s with sw := sw, work := some { w with todo := as } }
  | [] =>
    match w.process with
    | none => .ok { s with work := some { w with process := some s.sw.process } }
    | some p =>
      match w.left with
      | (tid, c) :: l =>
        match s.sw.cells[c]? with
        | some y => .ok { s with work := some { w with left := l, got := w.got ++ [(tid, y.val)] } }
        | none => .ub
      | [] =>
        .ok { s with
          work := none
          calls := s.calls.modify w.call fun k => if k.out = .waiting then { k with out := .returned { process := p, threads := w.got, success := true } } else k }

/-- One step of one of the threads (endpoint_trace_configurator.cpp:60-147). -/
def step (s : State) : Act → Res State
  | .thread a => (TraceState.step s.sw a).bind fun sw => .ok { s with sw := sw }
  | .call conn cfg => .ok { s with calls := s.calls ++ [{ conn := conn, cfg := cfg }], queue := s.queue ++ [s.calls.length] }
  | .take conn =>
    match s.work, s.queue.find? (fun k => (s.calls[k]?).any (·.conn = conn)) with
    | none, some k =>
      (TraceState.step s.sw .getMap).bind fun sw =>
        .ok { s with
          sw := sw
          queue := s.queue.erase k
          work := some { call := k, h := s.sw.snaps.length, todo := stores s.sw.snaps.length ((s.calls[k]?).bind (·.cfg)), left := s.sw.map } }
    | _, _ => .ok s
  | .handle =>
    match s.work with
    | some w => handleStep s w
    | none => .ok s
  | .giveUp k => .ok { s with calls := s.calls.modify k fun c => if c.out = .waiting then { c with out := .failed } else c }

/-- A history (of all threads, in both processes; endpoint_trace_configurator.cpp:60-147). -/
def run (s : State) : List Act → Res State
  | [] => .ok s
  | a :: as => (step s a).bind fun s' => run s' as

end Scalopus.RemoteSwitch
