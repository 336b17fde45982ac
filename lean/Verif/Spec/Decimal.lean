import Verif.Spec.Rounding
import Verif.Spec.Text

/-!
# Numbers in decimal, and readers of them

The part of the grammar of Go's `strconv.ParseFloat` (which the text format refers to) without hexadecimal numbers and
underscores: `[+-] digits [. digits] [e [+-] digits]` with a digit before or after the point. A reader is any function
that rounds these correctly.
-/

namespace Measured.Spec

def decimalDigit (b : Byte) : Bool := inRange 0x30 0x39 b

/-- The number that a list of digits stands for. -/
def digitsValue (ds : Bytes) : Nat := ds.foldl (fun n b => n * 10 + (b.toNat - 0x30)) 0

/-- A sign, if there is one: is it a minus, and the rest. -/
def readSign : Bytes → Bool × Bytes
  | 0x2d :: r => (true, r)
  | 0x2b :: r => (false, r)
  | r => (false, r)

/-- `e`, a sign and digits, or nothing, up to the end of the text. -/
def readExponent : Bytes → Option Int
  | [] => some 0
  | b :: r =>
    if b = 0x65 ∨ b = 0x45 then
      match readSign r with
      | (_, []) => none
      | (neg, ds) => if ds.all decimalDigit then some (if neg then -(digitsValue ds : Int) else digitsValue ds) else none
    else none

/-- The digits behind a point, if there is one, and the rest. -/
def readFraction : Bytes → Bytes × Bytes
  | 0x2e :: r => (r.takeWhile decimalDigit, r.dropWhile decimalDigit)
  | r => ([], r)

/-- A decimal number: is it negative, all its digits as one number, and the power of ten that this is to be multiplied
with. -/
def readDecimal (t : Bytes) : Option (Bool × Nat × Int) :=
  let (neg, r) := readSign t
  let whole := r.takeWhile decimalDigit
  let (fraction, r') := readFraction (r.dropWhile decimalDigit)
  if whole = [] ∧ fraction = [] then none
  else (readExponent r').map fun e => (neg, digitsValue (whole ++ fraction), e - fraction.length)

/-- What a decimal number stands for. -/
def decimalValue (neg : Bool) (m : Nat) (e : Int) : ℚ := (if neg then -1 else 1) * ((m : ℚ) * (10 : ℚ) ^ e)

/-- A reader of numbers that rounds correctly: a decimal number is read as the double that is nearest to it, of the right
sign also if that is zero. -/
structure ReadsNumbers (rf : Bytes → Option F64) : Prop where
  decimal : ∀ t neg m e, readDecimal t = some (neg, m, e) →
    ∃ x, rf t = some x ∧ RoundsTo (decimalValue neg m e) x ∧ (neg = true ↔ 2 ^ 63 ≤ x.bits)
  nan : rf b!"NaN" = some F64.nan
  inf : rf b!"inf" = some (F64.inf false) ∧ rf b!"+Inf" = some (F64.inf false)
  negInf : rf b!"-inf" = some (F64.inf true) ∧ rf b!"-Inf" = some (F64.inf true)

end Measured.Spec
