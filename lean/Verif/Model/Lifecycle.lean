import Verif.Model.Base

/-!
# Starting and destroying a unix transport (transport_unix.cpp:49-136, :164-167, :204-216, :446-471)
-/

namespace Scalopus.Lifecycle

/-- The parts of a `TransportUnix` that decide how it can be destroyed, transport_unix.h:86-92. -/
structure Obj where
  /-- `thread_` is joinable: it was started and not joined yet (a worker that has returned is still joinable) -/
  joinable : Bool := false
  serverFd : Int := 0
  clientFd : Int := 0
  deriving Repr, DecidableEq

/-- Results of the system calls of `serve`, in order. `socket` is the returned descriptor (-1 on failure). -/
structure ServeOutcome where
  socket : Int
  bind : Bool
  listen : Bool
  deriving Repr, DecidableEq

/-- Results of the system calls of `connect`. -/
structure ConnectOutcome where
  socket : Int
  connect : Bool
  deriving Repr, DecidableEq

/-- `thread_ = std::thread(...)`: move assignment to a joinable `std::thread` calls `std::terminate`. -/
def startThread (o : Obj) : Res Obj := if o.joinable then .terminate else .ok { o with joinable := true }

/-- `serve`, transport_unix.cpp:49-98. -/
def serve (o : Obj) (r : ServeOutcome) : Res (Bool × Obj) :=
  let o := { o with serverFd := r.socket }
  if r.socket = -1 then .ok (false, o)
  else if !r.bind then .ok (false, o)
  else if !r.listen then .ok (false, o)
  else (startThread o).bind fun o => .ok (true, o)

/-- `connect`, transport_unix.cpp:100-136. -/
def connect (o : Obj) (r : ConnectOutcome) : Res (Bool × Obj) :=
  let o := { o with clientFd := r.socket }
  if r.socket = -1 then .ok (false, o)
  else if !r.connect then .ok (false, o)
  else (startThread o).bind fun o => .ok (true, o)

/-- The destructor, transport_unix.cpp:204-216: `thread_.join()` throws `std::system_error` for a thread that is not
    joinable, and an exception that leaves a destructor (implicitly `noexcept`) calls `std::terminate`. -/
def destroy (o : Obj) : Res Unit := if o.joinable then .ok () else .terminate

/-- Calls on one object. -/
inductive Call where
  | serve (r : ServeOutcome)
  | connect (r : ConnectOutcome)
  deriving Repr, DecidableEq

/-- One call. -/
def call (o : Obj) : Call → Res (Bool × Obj)
  | .serve r => Lifecycle.serve o r
  | .connect r => Lifecycle.connect o r

/-- The lifetime of an object: construction, calls, destruction. The result lists what the calls returned. -/
def lifetimeFrom (o : Obj) : List Call → Res (List Bool)
  | [] => (destroy o).bind fun _ => .ok []
  | c :: cs => (call o c).bind fun (b, o) => (lifetimeFrom o cs).bind fun bs => .ok (b :: bs)

/-- The lifetime of a new object, transport_unix.cpp:45-47. -/
def lifetime (cs : List Call) : Res (List Bool) := lifetimeFrom {} cs

/-- `TransportUnixFactory::serve`, transport_unix.cpp:446-455: an object that failed to start is destroyed on return. -/
def factoryServe (r : ServeOutcome) : Res (Option Obj) :=
  (serve {} r).bind fun (b, o) => if b then .ok (some o) else (destroy o).bind fun _ => .ok none

/-- `TransportUnixFactory::connect`, transport_unix.cpp:457-471; `isUnix` says whether the destination is one of this
    transport. -/
def factoryConnect (isUnix : Bool) (r : ConnectOutcome) : Res (Option Obj) :=
  if !isUnix then .ok none
  else (connect {} r).bind fun (b, o) => if b then .ok (some o) else (destroy o).bind fun _ => .ok none

end Scalopus.Lifecycle
