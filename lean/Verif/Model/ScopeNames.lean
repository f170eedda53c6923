import Verif.Model.Endpoints

/-!
# Names of tracepoints in a consumer

Models `ScopeTracingProvider` (scalopus_tracing/src/scope_tracing_provider.cpp:40-114) and the names that the counter macros register
(scalopus_tracing/include/scalopus_tracing/trace_macro.h:70-73). A name is a `String`; the code splits the bytes, which is the same because `/` is one byte in
UTF-8.
-/

namespace Scalopus.ScopeNames

open Endpoints (TraceMap)

/-- `std::map::insert(begin, end)`: existing keys stay. -/
def insertAll (m l : TraceMap) : TraceMap := l.foldl (fun m x => Json.emplace m x.1 x.2) m

/-- The loop of `updateMapping`, scope_tracing_provider.cpp:58-72, over the transports of the manager. `none`: the transport has no endpoint for names;
    otherwise what its `mapping()` yields. -/
def collect (m : TraceMap) : List (Option (Res TraceMap)) → Res TraceMap
  | [] => .ok m
  | none :: r => collect m r
  | some q :: r => q.bind fun l => collect (insertAll m l) r

/-- `updateMapping`, scope_tracing_provider.cpp:46-79: the new value of `mapping_`. `none`: the manager is gone. -/
def updateMapping (old : TraceMap) (manager : Option (List (Option (Res TraceMap)))) : Res TraceMap :=
  match manager with
  | none => .ok old
  | some l => collect [] l

/-- A hexadecimal digit as `std::hex` prints it. -/
def hexDigit (n : Nat) : Char := if n < 10 then Char.ofNat (48 + n) else Char.ofNat (87 + n)

/-- `std::hex << n` -/
def hexDigits (n : Nat) : List Char := if n < 16 then [hexDigit n] else hexDigits (n / 16) ++ [hexDigit (n % 16)]

/-- `getScopeName`, scope_tracing_provider.cpp:81-97 -/
def getScopeName (m : TraceMap) (pid : Int) (id : Nat) : String :=
  let unknown := String.ofList ("Unknown 0x".toList ++ hexDigits id)
  match m.lookup pid with
  | some names => match names.lookup id with
    | some n => n
    | none => unknown
  | none => unknown

/-- `splitCounterSeriesName`, scope_tracing_provider.cpp:99-114: at the first `/` (the second condition of line 103 is always true). -/
def splitCounterSeriesName (s : String) : String × String :=
  if s.toList.contains '/' then
    (String.ofList (s.toList.takeWhile (· ≠ '/')), String.ofList ((s.toList.dropWhile (· ≠ '/')).drop 1))
  else (s, "count")

/-- The name that `TRACE_COUNT_SERIES(name, series, value)` registers, trace_macro.h:70 -/
def seriesName (name series : String) : String := name ++ "/" ++ series

/-- The name that `TRACE_COUNT(name, value)` registers, trace_macro.h:73 -/
def countName (name : String) : String := seriesName name ""

end Scalopus.ScopeNames
