import Verif.Model.Broadcast
import Verif.Model.Cbor
import Verif.Model.Collector
import Verif.Model.NativeSource
import Verif.Model.Recording
import Verif.Model.TraceState
import Verif.Model.UnixClient
import Verif.Spec.Broadcast

/-!
# From a tracepoint to the viewer

Puts the models of the components together: any number of traced processes, each with its threads, the sender of the native trace endpoint
(`Model/Collector`), a server transport (`Model/Broadcast`) and a connection to one consumer (`Model/Protocol`, `Model/UnixClient`); in the consumer the
native trace provider and its sources (`Model/Recording`), and at the end of an interval the query for names (`Model/Endpoints`, `Model/ScopeNames`) and
the conversion (`Model/NativeSource`). All steps of all threads of all processes interleave.

Simplifications:
- A message is put on a connection and read from it as a whole (reads that return less are the subject of C04), and connections between a process and this
  consumer do not break; other clients of the server come and go.
- The steps that the component models call undefined behaviour or an exception have no successor here (C18 says when this is: a tracepoint after the clean-up of
  its thread, a thread that starts while the ring buffer size is zero).
- A connection carries broadcasts only; replies are told apart from them by C05.

Ghost state: emissions are numbered within their process, and the lists `queued`, `wired`, `arrivals` say which batch a message carries.
-/

namespace Scalopus.EndToEnd

open Cbor (Event Threads encodeBatch encodeCounter insertKey)
open TraceState (Point)
open Collector (Ev Batch)

abbrev Bytes := List UInt8

/-- A tracepoint that is traced: which one, the clock at this moment (native_tracepoint.cpp:54-60), and a number (ghost). -/
structure Emission where
  serial : Nat
  point : Point
  time : Nat
  deriving Repr, DecidableEq

/-- The event that a tracepoint pushes, native_tracepoint.cpp:74-75, :90-91, :106-120, :135-137. -/
def eventOf (e : Emission) : Event :=
  match TraceState.record .native e.point with
  | some (.native code id value) => { time := e.time, id := id, type := code, data := value.map encodeCounter }
  | _ => { time := e.time, id := 0, type := 0 }

/-- The values fit the parameters of the tracepoints: ids are `unsigned int`, counter values `std::int64_t`, times `std::uint64_t`. -/
def Fits (p : Point) (time : Nat) : Bool :=
  decide (time < 2 ^ 64) &&
  match p with
  | .entry id => decide (id < 2 ^ 32)
  | .exit id => decide (id < 2 ^ 32)
  | .mark id _ => decide (id < 2 ^ 32)
  | .count id v => decide (id < 2 ^ 32) && decide (-2 ^ 63 ≤ v) && decide (v < 2 ^ 63)

/-- The `EventMap` of a round (a `std::map`), endpoint_native_trace_sender.cpp:90-102. -/
def threadsOf (m : List (Nat × List (Ev Emission))) : Threads :=
  m.foldl (fun acc x => insertKey acc x.1 (x.2.map fun e => eventOf e.val)) []

/-- The data that a round broadcasts, endpoint_native_trace_sender.cpp:107. -/
def payload (pid : Nat) (b : Batch Emission) : Bytes := encodeBatch pid (threadsOf b.events)

/-- `"native_trace_receiver"`, endpoint_native_trace_sender.cpp:107 -/
def sendName : Bytes := [110, 97, 116, 105, 118, 101, 95, 116, 114, 97, 99, 101, 95, 114, 101, 99, 101, 105, 118, 101, 114]

/-- `"native_trace_receiver"`, endpoint_native_trace_receiver.cpp:34 -/
def receiverName : Bytes := [110, 97, 116, 105, 118, 101, 95, 116, 114, 97, 99, 101, 95, 114, 101, 99, 101, 105, 118, 101, 114]

/-- The number of the consumer among the clients of each server. -/
def consumer : Nat := 0

/-- A traced process. -/
structure Proc where
  pid : Nat
  /-- the names that were registered -/
  names : List (Nat × String) := []
  coll : Collector.State Emission := {}
  server : Broadcast.State := {}
  /-- the bytes that are on the way to the consumer -/
  wire : Bytes := []
  /-- ghost: the batches in `server.queue` and on the wire -/
  queued : List Nat := []
  wired : List Nat := []

structure State where
  procs : List Proc
  rec' : Recording.State Bytes := {}
  /-- ghost: for each call of `incoming`, the process and the batch -/
  arrivals : List (Nat × Nat) := []

inductive Act where
  /-- process `p` registers a name (C29) -/
  | register (p : Nat) (id : Nat) (name : String)
  /-- thread `t` of process `p` reaches a tracepoint and is traced (C21) -/
  | trace (p t : Nat) (point : Point) (time lag : Nat)
  /-- any other step of the threads or of the sender of process `p` -/
  | collector (p : Nat) (a : Collector.Act Emission)
  /-- a client connects to process `p`, or one other than the consumer leaves -/
  | connect (p c : Nat)
  | disconnect (p c : Nat)
  /-- the worker of the server of process `p` handles a queued broadcast; sends to the connections in `broken` fail -/
  | pump (p : Nat) (broken : List Nat)
  /-- the worker of the consumer's connection to process `p` reads a message, with these requests outstanding -/
  | receive (p : Nat) (pending : List UnixClient.Key)
  /-- a step of the consumer's sources or of `incoming` -/
  | consume (a : Recording.Act Bytes)

/-- What goes onto the wire to the consumer when the server handles a broadcast, transport_unix.cpp:348-364. -/
def pump (p : Proc) (broken : List Nat) : Proc :=
  let server := Broadcast.step p.server (.process broken)
  { p with
    server := server
    wire := p.wire ++ ((Spec.Broadcast.deliveredTo consumer server).drop (Spec.Broadcast.deliveredTo consumer p.server).length).flatMap Protocol.encode
    queued := p.queued.dropLast
    wired := if consumer ∈ p.server.conns then p.wired ++ p.queued.getLast?.toList else p.wired }

def setProc (s : State) (p : Nat) (x : Proc) : State := { s with procs := s.procs.set p x }

def okOption {α : Type} : Res α → Option α
  | .ok a => some a
  | _ => none

/-- One step; `none`: it is not possible. -/
def step (s : State) : Act → Option State
  | .register p id name =>
    (s.procs[p]?).bind fun x =>
      if id < 2 ^ 32 ∧ x.names.all (fun y => y.1 ≠ id) then some (setProc s p { x with names := x.names ++ [(id, name)] }) else none
  | .trace p t point time lag =>
    (s.procs[p]?).bind fun x =>
      if Fits point time then
        (okOption (Collector.step x.coll (.emit t { serial := x.coll.log.length, point := point, time := time } lag))).map fun c =>
          setProc s p { x with coll := c }
      else none
  | .collector p a =>
    (s.procs[p]?).bind fun x =>
      match a with
      | .emit _ _ _ => none
      | .start tid => if tid < 2 ^ 64 then (okOption (Collector.step x.coll (.start tid))).map fun c => setProc s p { x with coll := c } else none
      | .finish => (okOption (Collector.step x.coll .finish)).map fun c =>
          match c.batches[x.coll.batches.length]? with
          /- there is a new batch: endpoint_native_trace_sender.cpp:105-108 -/
          | some b =>
            if b.sent then
              setProc s p { x with
                coll := c
                server := Broadcast.step x.server (.broadcast sendName (payload x.pid b))
                queued := x.queued ++ [x.coll.batches.length] }
            else setProc s p { x with coll := c }
          | none => setProc s p { x with coll := c }
      | a => (okOption (Collector.step x.coll a)).map fun c => setProc s p { x with coll := c }
  | .connect p c => (s.procs[p]?).map fun x => setProc s p { x with server := Broadcast.step x.server (.connect c) }
  | .disconnect p c =>
    (s.procs[p]?).bind fun x =>
      if c = consumer then none else some (setProc s p { x with server := Broadcast.step x.server (.disconnect c) })
  | .pump p broken => (s.procs[p]?).bind fun x => if consumer ∈ broken then none else some (setProc s p (pump x broken))
  | .receive p pending =>
    (s.procs[p]?).bind fun x =>
      /- ids of requests start at one, transport_unix.h:103; nothing to read if the wire is empty -/
      if x.wire = [] ∨ pending.any (fun k => k.2 = 0) then none
      else
        match Protocol.receive { bytes := x.wire }, UnixClient.onReadable pending { bytes := x.wire } with
        | .ok (true, _, e), .ok o =>
          let s' := setProc s p { x with wire := e.bytes, wired := x.wired.drop 1 }
          match o.unsolicited with
          | some (name, data) =>
            /- endpoint_native_trace_receiver.cpp:45-49 -/
            if name = receiverName then
              (Recording.step s.rec' (.call s.arrivals.length data)).map fun r =>
                { s' with rec' := r, arrivals := s.arrivals ++ [(p, x.wired.headD 0)] }
            else some s'
          | none => some s'
        | _, _ => none
  | .consume a =>
    match a with
    | .call _ _ => none
    | a => (Recording.step s.rec' a).map fun r => { s with rec' := r }

/-- Nothing has happened yet. -/
def init (pids : List Nat) : State := { procs := pids.map fun n => { pid := n } }

/-- Any number of steps. -/
inductive Steps : State → State → Prop
  | refl (s : State) : Steps s s
  | step {s s' s'' : State} {a : Act} : Steps s s' → step s' a = some s'' → Steps s s''

/-- The query for names and the conversion at the end of an interval, native_trace_source.cpp:80-207; every process answers. -/
def result (s : State) (old : Endpoints.TraceMap) (data : List (Nat × Bytes)) : Res (List NativeSource.Entry) :=
  NativeSource.finishInterval (some (ScopeNames.updateMapping old (some (s.procs.map fun p =>
    some ((Endpoints.mappingHandle p.pid p.names Endpoints.mappingRequest).bind fun r => Endpoints.mapping true
      (match r with | some j => .data (some j) | none => .late)))))) (data.map (·.2))

end Scalopus.EndToEnd
