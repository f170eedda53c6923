import Verif.Model.PyJson
import Verif.Model.Session

/-!
# Sources written in Python

Models the trampolines through which the viewer's server and the recorder call sources and providers that are written in Python
(scalopus_python/lib/scalopus_interface.cpp:137-168, json_util.cpp), and the conversion of JSON values to what is written (nlohmann::json, a thirdparty library).
-/

namespace Scalopus.PySource

open PyJson
open JsonText (J Text)

/-- What the method of the Python class does. -/
inductive Outcome where
  /-- The class has no such method. -/
  | missing
  | raises
  | returns (v : Py)

/-- `get<std::vector<json>>()`: throws if the value is not an array. -/
def asEvents : Json → Res (List Json)
  | .arr l => .ok l
  | _ => .throws "type_error"

/-- `PyTraceEventSource::finishInterval`, scalopus_interface.cpp:152-168. An exception in Python becomes `error_already_set`. -/
def finishInterval : Outcome → Res (List Json)
  | .missing => .ok []
  | .raises => .throws "error_already_set"
  | .returns v => (pyToJson v).bind asEvents

/-- A decimal digit. -/
def digit (n : Nat) : Char := Char.ofNat (48 + n)

/-- A number in decimal, as `dump` writes integers. -/
def natText (n : Nat) : Text := if n < 10 then [digit n] else natText (n / 10) ++ [digit (n % 10)]

def intText (n : Int) : Text := if n < 0 then '-' :: natText n.natAbs else natText n.natAbs

mutual
/-- A value as `dump` sees it. `fl` gives what is written for a double: a number, or null if it is not finite. -/
def toText (fl : UInt64 → J) : Json → J
  | .null => .null
  | .bool b => .bool b
  | .int n => .num (intText n)
  | .float f => fl f
  | .str s => .str (some s.toList)
  | .arr l => .arr (toTextList fl l)
  | .obj l => .obj (toTextMembers fl l)

def toTextList (fl : UInt64 → J) : List Json → List J
  | [] => []
  | j :: l => toText fl j :: toTextList fl l

def toTextMembers (fl : UInt64 → J) : List (String × Json) → List (JsonText.Str × J)
  | [] => []
  | (k, j) :: l => (some k.toList, toText fl j) :: toTextMembers fl l
end

/-- What the session or recorder gets from the source. -/
def events (fl : UInt64 → J) (o : Outcome) : Res (List J) := (finishInterval o).bind fun l => .ok (toTextList fl l)

/-- `PyTraceEventProvider::makeSource`, scalopus_interface.cpp:137-140, with the caster of pybind_fix.h:129-168: `None` becomes the null pointer, anything that is not a source is refused. -/
inductive Made where
  | missing | raises | none | notASource | source

def makeSource : Made → Res (Option Unit)
  | .missing => .throws "pure virtual function"
  | .raises => .throws "error_already_set"
  | .none => .ok Option.none
  | .notASource => .throws "cast_error"
  | .source => .ok (some ())

/-- `source->work()` of a source that was made, trace_session.cpp:83-86: through the null pointer this is undefined behaviour. -/
def firstUse : Option Unit → Res Unit
  | Option.none => .ub
  | some () => .ok ()

end Scalopus.PySource
