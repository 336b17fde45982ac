import Verif.Model.F64

/-!
# `f64` division and `Duration::as_secs_f64`

`Duration` is its number of nanoseconds (`secs * 10^9 + nanos`, `nanos < 10^9`, `secs < 2^64`).
-/

namespace Measured
namespace F64

/-- Four times the quotient of two magnitudes in units of `2^-1074`, with a last bit that says whether the
quotient was cut off. Rounding to any `f64` looks at multiples of two only, so this decides it. -/
def quarters (a b : Nat) : Nat :=
  2 * (a * 2 ^ 1075 / b) + (if a * 2 ^ 1075 % b = 0 then 0 else 1)

/-- `x / y` -/
def div (x y : F64) : F64 :=
  let s := x.sign != y.sign
  if x.isNaN || y.isNaN then nan
  else if x.isInf then (if y.isInf then nan else inf s)
  else if y.isInf then zero s
  else if y.mag = 0 then (if x.mag = 0 then nan else inf s)
  else round s (quarters (unit x.mag) (unit y.mag)) 2

end F64

/-- `Duration::as_secs_f64` (library/core/src/time.rs):
`(self.secs as f64) + (self.nanos as f64) / (NANOS_PER_SEC as f64)`. -/
def asSecsF64 (nanos : Nat) : F64 :=
  F64.add (F64.ofNat (nanos / 1000000000)) (F64.div (F64.ofNat (nanos % 1000000000)) (F64.ofNat 1000000000))

end Measured
