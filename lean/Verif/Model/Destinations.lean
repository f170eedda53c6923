import Verif.Model.Discovery

/-!
# Destinations and the loopback factory

Models `DestinationUnix` (scalopus_transport/src/transport_unix.cpp:421-434), the socket names used by `serve` (66-71) and
`connect` (115-120), `DestinationLoopback` (scalopus_transport/src/transport_loopback.cpp:159-173) and
`TransportLoopbackFactory` (175-214).
-/

namespace Scalopus.Destinations

open Protocol Discovery

/-- Digits of a number as written by `operator<<` into a `stringstream` (transport_unix.cpp:67,116,428), in the default locale:
    least significant digit first, into a buffer that is filled from the end. -/
def printDec (n : Nat) (buf : Bytes) : Bytes :=
  if n < 10 then UInt8.ofNat (48 + n) :: buf else printDec (n / 10) (UInt8.ofNat (48 + n % 10) :: buf)

/-- The name in the abstract namespace that `serve` binds and `connect` connects to, transport_unix.cpp:66-71 and 115-120:
    `strncpy` copies at most `sizeof(sun_path) - 2 = 106` characters, `strlen` measures it. -/
def socketName (pid : Nat) : Bytes := cStr ((printDec pid suffix).take 106)

/-- `DestinationUnix`: the constructor (421-423) takes an `unsigned int`. -/
structure DestUnix where
  pid : UInt32
  deriving Repr, DecidableEq

/-- `std::make_shared<DestinationUnix>(pid)` with a `std::size_t`, transport_unix.cpp:441. -/
def destUnix (pid : Nat) : DestUnix := ⟨UInt32.ofNat pid⟩

/-- `hash_code`, transport_unix.cpp:431-434. -/
def DestUnix.hash (d : DestUnix) : Nat := d.pid.toNat

/-- The conversion to a string, transport_unix.cpp:425-430: `<unix:pid>`. -/
def DestUnix.str (d : DestUnix) : Bytes :=
  [60, 117, 110, 105, 120, 58] ++ printDec d.pid.toNat [62]

/-- Objects in memory: the address of every transport object that exists, by the identity of the object. -/
abbrev Heap := Nat → Option Nat

/-- What an allocator guarantees: no object at address zero, no two objects at one address. -/
def Heap.Sound (h : Heap) : Prop :=
  (∀ i, h i ≠ some 0) ∧ ∀ i j a, h i = some a → h j = some a → i = j

/-- `DestinationLoopback`: a weak pointer to the transport with identity `obj`. -/
structure DestLoop where
  obj : Nat
  deriving Repr, DecidableEq

/-- `hash_code`, transport_loopback.cpp:170-173: the address of the object, or that of the null pointer if it is gone. -/
def DestLoop.hash (h : Heap) (d : DestLoop) : Nat := (h d.obj).getD 0

/-! ## The loopback factory -/

/-- The factory: the servers it made (`servers_`), in order; which objects exist; for each server its clients. -/
structure Factory where
  servers : List Nat := []
  /-- live objects -/
  live : List Nat := []
  /-- clients registered with servers, as (server, client) pairs, in order -/
  clients : List (Nat × Nat) := []
  /-- number of objects made so far; used as identity of the next one -/
  next : Nat := 0
  deriving Repr, DecidableEq

/-- `discover`, transport_loopback.cpp:175-191. -/
def Factory.discover (f : Factory) : List DestLoop := (f.servers.filter (· ∈ f.live)).map DestLoop.mk

/-- `serve`, transport_loopback.cpp:193-198. -/
def Factory.serve (f : Factory) : Factory × Nat :=
  ({ f with servers := f.servers ++ [f.next], live := f.live ++ [f.next], next := f.next + 1 }, f.next)

/-- `connect`, transport_loopback.cpp:200-214: a new client that is registered with the server, or a null pointer. -/
def Factory.connect (f : Factory) (d : DestLoop) : Factory × Option Nat :=
  if d.obj ∈ f.live then
    ({ f with live := f.live ++ [f.next], clients := f.clients ++ [(d.obj, f.next)], next := f.next + 1 }, some f.next)
  else (f, none)

/-- The last owner of a transport drops it. -/
def Factory.drop (f : Factory) (obj : Nat) : Factory := { f with live := f.live.filter (· ≠ obj) }

/-- What users do with a factory. -/
inductive Act where
  | serve
  | connect (d : DestLoop)
  | drop (obj : Nat)
  deriving Repr, DecidableEq

/-- One step. -/
def Factory.step (f : Factory) : Act → Factory
  | .serve => f.serve.1
  | .connect d => (f.connect d).1
  | .drop o => f.drop o

/-- A history. -/
def Factory.run (f : Factory) (as : List Act) : Factory := as.foldl Factory.step f

end Scalopus.Destinations
