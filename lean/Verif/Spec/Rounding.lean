import Verif.Model.F64
import Mathlib.Algebra.Order.Field.Rat
import Mathlib.Algebra.Order.AbsoluteValue.Basic
import Mathlib.Algebra.Order.Ring.Abs

/-!
# What a double stands for, and rounding

IEEE 754 binary64, over the rational numbers.
-/

namespace Measured.Spec

/-- The exponent field (11 bits) and the fraction field (52 bits). -/
def expField (x : F64) : Nat := x.bits / 2 ^ 52 % 2 ^ 11
def fracField (x : F64) : Nat := x.bits % 2 ^ 52

/-- The number that a finite double stands for: `± 0.f * 2^-1022` or `± 1.f * 2^(e - 1023)`. -/
def real (x : F64) : ℚ :=
  (if x.bits < 2 ^ 63 then 1 else -1) *
    (if expField x = 0 then (fracField x / 2 ^ 52 : ℚ) * (2 : ℚ) ^ (-1022 : Int)
     else (1 + fracField x / 2 ^ 52 : ℚ) * (2 : ℚ) ^ ((expField x : Int) - 1023))

/-- A finite double. -/
def IsFinite (x : F64) : Prop := expField x ≠ 2047

/-- Numbers from here on are rounded to infinity: the middle between the greatest finite double and `2^1024`. -/
def overflowBound : ℚ := 2 ^ 1024 - 2 ^ 970

/-- `r` is the rounding of `q`: to the nearest, of two nearest the one with even fraction, and to infinity from the
overflow bound on. -/
structure RoundsTo (q : ℚ) (r : F64) : Prop where
  /-- Not too large. -/
  near : |q| < overflowBound → IsFinite r ∧
    ∀ y, IsFinite y → |real r - q| ≤ |real y - q| ∧ (|real y - q| = |real r - q| → real y ≠ real r → fracField r % 2 = 0)
  /-- Too large. -/
  over : overflowBound ≤ |q| → expField r = 2047 ∧ fracField r = 0
  sign : q ≠ 0 → (r.bits < 2 ^ 63 ↔ 0 < q)

end Measured.Spec
