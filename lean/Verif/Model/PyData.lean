import Verif.Model.Loopback

/-!
# Data and endpoints in Python

Models `pyToData`, `dataToPy`, `PyEndpoint::handle`, `PyEndpoint::unsolicited`, `PendingResponse::wait_for` and `Transport.request` of the Python module
(scalopus_python/lib/scalopus_interface.cpp:42-135, 186-188).

pybind11 is not part of the sources; its conversions are modelled as documented. `cast<Data>()` of a sequence converts its items one by one: an item must be an integer between 0 and 255, or an object
other than a float that Python converts to one. test_endpoint.py:92-97 requires that it also converts `bytes`.
-/

namespace Scalopus.PyData

open Protocol

/-- A Python object, as far as these functions tell objects apart. -/
inductive Obj where
  | none
  /-- A string that can be encoded. -/
  | str (s : String)
  /-- A string with surrogates. -/
  | badStr
  | bytes (b : Bytes)
  | bytearray (b : Bytes)
  /-- Another object with the buffer protocol (`memoryview`, `array`): its items. -/
  | buffer (l : List Obj)
  | list (l : List Obj)
  | int (n : Int)
  | bool (b : Bool)
  /-- A number of another type, with what `int()` makes of it (`decimal.Decimal`, numpy integers); a `float` is `other`. -/
  | number (n : Int)
  /-- Anything else, such as a tuple, a dict or a float. -/
  | other

/-- The conversion of an item to `std::uint8_t`. -/
def item : Obj → Option UInt8
  | .int n => if 0 ≤ n ∧ n ≤ 255 then some (UInt8.ofNat n.toNat) else .none
  | .bool b => some (if b then 1 else 0)
  | .number n => if 0 ≤ n ∧ n ≤ 255 then some (UInt8.ofNat n.toNat) else .none
  | _ => .none

def items : List Obj → Option Bytes
  | [] => some []
  | o :: l => match item o, items l with
    | some b, some r => some (b :: r)
    | _, _ => .none

/-- The UTF-8 encoding of a string. -/
def utf8 (s : String) : Bytes := s.toUTF8.data.toList

/-- `pyToData(obj, outgoing)`, scalopus_interface.cpp:42-64. `ok none`: it returns false. A failed cast throws. -/
def pyToData : Obj → Res (Option Bytes)
  | .str s => .ok (some (utf8 s))                                       -- 45-50
  | .badStr => .throws "cast_error"
  | .bytes b => .ok (some b)                                            -- 52-56
  | .bytearray b => .ok (some b)
  | .buffer l => match items l with
    | some b => .ok (some b)
    | .none => .throws "cast_error"
  | .list l => match items l with                                       -- 58-62
    | some b => .ok (some b)
    | .none => .throws "cast_error"
  | _ => .ok .none                                                      -- 63

/-- `pyToData(obj)`, 66-74. -/
def pyToData! (o : Obj) : Res Bytes :=
  match pyToData o with
  | .ok (some b) => .ok b
  | .ok .none => .throws "ValueError"
  | .throws w => .throws w
  | .ub => .ub
  | .terminate => .terminate

/-- `dataToPy`, 76-79. -/
def dataToPy (b : Bytes) : Obj := .bytes b

/-- What a Python method does. -/
inductive PyResult where
  | returns (o : Obj)
  | raises

/-- `PyEndpoint::handle`, 86-100, and in the same way `unsolicited`, 102-116; `.none`: the class does not define the method, and `Endpoint::handle` declines
    (scalopus_interface/src/endpoint.cpp). The method gets the data as `bytes`. A Python exception becomes a C++ one. -/
def handle (method : Option (Obj → PyResult)) (incoming : Bytes) : Loopback.Handled :=
  match method with
  | .none => .declines
  | some f => match f (.bytes incoming) with
    | .raises => .throws
    | .returns o => match pyToData o with
      | .ok (some d) => .answers d
      | .ok .none => .declines
      | _ => .throws

/-- `Transport.request` of the module, 186-188, on a loopback transport: nothing is sent if the conversion fails. -/
def request (H : Loopback.Oracle) (s : Loopback.State) (endpoint : Bytes) (outgoing : Obj) : Res Loopback.State :=
  (pyToData! outgoing).bind fun d => Loopback.step H s (.request endpoint d)

/-! ## Waiting for an answer -/

/-- The future in a `PendingResponse`. -/
inductive Future where
  | waiting
  | value (d : Bytes)
  /-- The promise was destroyed, or was given an exception. -/
  | error
  /-- Its value was taken: `valid()` is false. -/
  | taken
  deriving Repr, DecidableEq

/-- What `wait_for` does to the interpreter: which object it makes, and whether the thread has the interpreter lock at that time. -/
inductive Touch where
  | bytes (d : Bytes) (locked : Bool)
  | none (locked : Bool)
  deriving Repr, DecidableEq

def Touch.locked : Touch → Bool
  | .bytes _ b => b
  | .none b => b

/-- The result of `wait_for`: the object that is returned, the future afterwards, and the objects made. -/
structure Waited where
  result : Obj
  future : Future
  touches : List Touch

/-- `PendingResponse::wait_for`, 127-135. `arrives`: what the future becomes within the time, if anything. The interpreter lock is given back at line 129 and taken again when the function has
    returned its result, at the end of the scope of `release`. Calling `wait_for` of a future without a state is undefined ([futures.unique.future]/3). -/
def waitFor (f : Future) (arrives : Option Future) : Res Waited :=
  let lock := false  -- (129)
  let now := match f, arrives with
    | .waiting, some g => g
    | f, _ => f
  match now with
  | .taken => .ub
  | .waiting => .ok ⟨.none, .waiting, [.none lock]⟩                            -- 134
  | .value d => .ok ⟨dataToPy d, .taken, [.bytes d lock]⟩                      -- 132
  | .error => .throws "future_error"                                            -- get() in 132

end Scalopus.PyData
