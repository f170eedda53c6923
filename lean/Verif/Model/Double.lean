import Verif.Model.Base
import Mathlib.Data.Int.Log
import Mathlib.Data.Rat.Floor

/-!
# Timestamps as floating point numbers

Models `static_cast<double>(timestamp_ns_since_epoch) / 1e3` (scalopus_tracing/src/native/native_trace_source.cpp:121) in IEEE 754 binary64 with the default rounding. The
values that occur are zero or between 2^-10 and 2^64: neither the subnormal range nor the overflow of the format matters.
-/

namespace Scalopus.Double

/-- Round to the nearest integer, ties to even. -/
def roundEven (x : ℚ) : ℤ :=
  let d := x - ⌊x⌋
  if d < 1 / 2 then ⌊x⌋
  else if 1 / 2 < d then ⌊x⌋ + 1
  else if ⌊x⌋ % 2 = 0 then ⌊x⌋
  else ⌊x⌋ + 1

/-- The double nearest to a positive number: 53 significant bits. -/
def nearest (x : ℚ) : ℚ :=
  let ulp : ℚ := 2 ^ (Int.log 2 x - 52)
  roundEven (x / ulp) * ulp

/-- The value of `"ts"`, native_trace_source.cpp:121: microseconds. -/
def ts (ns : ℕ) : ℚ := nearest (nearest ns / 1000)

end Scalopus.Double
