import Verif.Model.Endpoints

/-!
# Names of processes and threads for the viewer

Models scalopus_general/src/general_provider.cpp:46-68 and general_source.cpp:40-73. The provider is shared by the sources of all sessions; both of its functions hold
`mapping_mutex_` from beginning to end.
-/

namespace Scalopus.GeneralSource

open Endpoints (ProcessInfo)

/-- `mapping_[pid] = info`: a std::map is kept in the order of its keys. -/
def assign (k : Int) (v : ProcessInfo) : List (Int × ProcessInfo) → List (Int × ProcessInfo)
  | [] => [(k, v)]
  | x :: m => if k < x.1 then (k, v) :: x :: m else if k = x.1 then (k, v) :: m else x :: assign k v m

/-- The loop of `updateMapping`, general_provider.cpp:57-67. For each transport: `none`, if it has no endpoint for process information, and otherwise the result of `processInfo()`
    (an exception also stands for an endpoint of the wrong type, endpoint_manager.h:105-109). The mapping that is reached is given as well. -/
def query : List (Option (Res ProcessInfo)) → List (Int × ProcessInfo) → List (Int × ProcessInfo) × Res Unit
  | [], m => (m, .ok ())
  | none :: r, m => query r m
  | some (.ok i) :: r, m => query r (assign i.pid i m)
  | some (.throws w) :: _, m => (m, .throws w)
  | some .ub :: _, m => (m, .ub)
  | some .terminate :: _, m => (m, .terminate)

/-- `updateMapping`, general_provider.cpp:52-68 -/
def updateMapping (answers : List (Option (Res ProcessInfo))) : List (Int × ProcessInfo) × Res Unit := query answers []

/-- The entry of a process, general_source.cpp:50-57. (JSON objects are kept in the order of their keys.) -/
def processEntry (pid : Int) (name : String) : Json :=
  .obj [("args", .obj [("name", .str name)]), ("name", .str "process_name"), ("ph", .str "M"), ("pid", .int pid), ("tid", .int 0)]

/-- The entry of a thread, general_source.cpp:62-68 -/
def threadEntry (pid : Int) (tid : Nat) (name : String) : Json :=
  .obj [("args", .obj [("name", .str name)]), ("name", .str "thread_name"), ("ph", .str "M"), ("pid", .int pid), ("tid", .int tid)]

/-- The loop in `finishInterval`, general_source.cpp:48-70 -/
def entries : List (Int × ProcessInfo) → List Json
  | [] => []
  | x :: m => processEntry x.1 x.2.name :: (x.2.threads.map fun t => threadEntry x.1 t.1 t.2) ++ entries m

/-- `finishInterval`, general_source.cpp:40-73. `others`: what other sessions that finish between `updateMapping` and `getMapping` are answered; their exceptions are not seen
    here, but the mapping they leave is. -/
def finishInterval (answers : List (Option (Res ProcessInfo))) (others : List (List (Option (Res ProcessInfo)))) : Res (List Json) :=
  match updateMapping answers with
  | (m, .ok ()) => .ok (entries (others.foldl (fun _ o => (updateMapping o).1) m))
  | (_, .throws w) => .throws w
  | (_, .ub) => .ub
  | (_, .terminate) => .terminate

end Scalopus.GeneralSource
