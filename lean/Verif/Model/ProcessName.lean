/-!
# The name of a process

Models `EndpointProcessInfo::setProcessName` and the reading of the name in `EndpointProcessInfo::handle` (scalopus_general/src/endpoint_process_info.cpp:55-58, 67-71). `info_.name` is a `std::string`
(include/scalopus_general/endpoint_process_info.h:51, 83) and there is no mutex: an assignment that overlaps another assignment or a read is a data race, which is undefined. Both take some time, so each has
a beginning and an end here. Several threads may read: the endpoint may have been added to several transports. From Python `setProcessName` runs with the interpreter lock held
(scalopus_python/lib/scalopus_general.cpp:66); the threads of transports read without it.

Names are values of any type. What else the answer holds is in `Endpoints`.
-/

namespace Scalopus.ProcessName

/-- What happened, for the specification: an assignment was completed, an answer was made of a name. -/
inductive Event (N : Type)
  | assigned (n : N) | asked (r : Nat) | answered (r : Nat) (n : N)
deriving DecidableEq, Repr

/-- `added`: the number of transports the endpoint has been added to. `writing`: the threads in `setProcessName`, with the new name. `reading`: the transports whose thread is between 68 and 71.
`gil`: the setters are Python threads. -/
structure State (N : Type) where
  name : N
  added : List Nat := []
  writing : List (Nat × N) := []
  reading : List Nat := []
  gil : Bool := false
  log : List (Event N) := []

inductive Act (N : Type)
  /-- The endpoint is added to a transport: its thread may call `handle` from now on (scalopus_interface/src/transport.cpp:59-64). -/
  | add (r : Nat)
  /-- Thread `t` calls `setProcessName`; the assignment begins. -/
  | set (t : Nat) (n : N)
  | setEnd (t : Nat)
  /-- The thread of transport `r` begins to copy the name. -/
  | read (r : Nat)
  | readEnd (r : Nat)
deriving DecidableEq, Repr

/-- Outcomes: the action is not possible here; undefined behaviour; a new state. -/
inductive Out (N : Type)
  | no | ub | ok (s : State N)

/-- endpoint_process_info.cpp:55-58 and 67-71; the newest event is the first of the log. -/
def step {N : Type} (s : State N) : Act N → Out N
  | .add r => .ok { s with added := r :: s.added }
  | .set t n =>
    if s.writing.any (·.1 == t) || (s.gil && !s.writing.isEmpty) then .no
    else if s.writing.isEmpty && s.reading.isEmpty then .ok { s with writing := [(t, n)] }
    else .ub
  | .setEnd t =>
    match s.writing.find? (·.1 == t) with
    | some (_, n) => .ok { s with name := n, writing := s.writing.filter (·.1 != t), log := .assigned n :: s.log }
    | none => .no
  | .read r =>
    if !s.added.contains r || s.reading.contains r then .no
    else if s.writing.isEmpty then .ok { s with reading := r :: s.reading, log := .asked r :: s.log }
    else .ub
  | .readEnd r =>
    if s.reading.contains r then .ok { s with reading := s.reading.filter (· != r), log := .answered r s.name :: s.log } else .no

def run {N : Type} (s : State N) : List (Act N) → Out N
  | [] => .ok s
  | a :: as => match step s a with
    | .ok s' => run s' as
    | o => o

end Scalopus.ProcessName
