import Verif.Model.Prim

/-!
# `f64`: IEEE 754 binary64 bit patterns

Rust's `f64` operations used by the crate: comparison, `+`, `-`, `*`, `u64 as f64`, `usize as f64`, `i64 as f64`,
`powi`, `is_nan`, `is_infinite`. Rounding is to nearest, ties to even. Results that are NaN are given the
one canonical pattern (Rust leaves sign and payload of NaN results open).

Magnitudes are kept as natural numbers in units of `2^-1074`, the least positive `f64`.
-/

namespace Measured

/-- An `f64`, as its 64 bits. -/
structure F64 where
  bits : Nat
  lt : bits < 18446744073709551616
  deriving DecidableEq

namespace F64

/-- Bit pattern of `+∞`: exponent field all ones. -/
def INF : Nat := 2047 * 2 ^ 52

/-- The sign bit. -/
def sign (x : F64) : Bool := 2 ^ 63 ≤ x.bits

/-- The 63 bits below the sign bit. -/
def mag (x : F64) : Nat := x.bits % 2 ^ 63

def isNaN (x : F64) : Bool := INF < x.mag
def isInf (x : F64) : Bool := x.mag == INF
def isFinite (x : F64) : Bool := x.mag < INF

/-- The number with magnitude bits `b`, in units of `2^-1074`: subnormals are `b` itself, a normal with
exponent field `e` and fraction `f` is `(2^52 + f) * 2^(e-1)`. At `b = INF` this is above every finite number. -/
def unit (b : Nat) : Nat := if b < 2 ^ 52 then b else (2 ^ 52 + b % 2 ^ 52) * 2 ^ (b / 2 ^ 52 - 1)

/-- The represented number in units of `2^-1074` (infinities lie beyond all finite numbers). -/
def val (x : F64) : Int := if x.sign then -(unit x.mag : Int) else unit x.mag

/-- `x < y` -/
def flt (x y : F64) : Bool := !x.isNaN && !y.isNaN && decide (x.val < y.val)
/-- `x <= y` -/
def fle (x y : F64) : Bool := !x.isNaN && !y.isNaN && decide (x.val ≤ y.val)

/-- Assemble from sign and magnitude bits. -/
def make (neg : Bool) (b : Nat) (h : b < 2 ^ 63) : F64 :=
  ⟨if neg then 2 ^ 63 + b else b, by split <;> omega⟩

/-- Magnitude bits of the number nearest to `n / 2^t` (ties to even); too large numbers become infinite. -/
def roundMag (n t : Nat) : Nat :=
  let sh := max (Nat.log2 n - 52) t
  let q := n / 2 ^ sh
  let r := n % 2 ^ sh
  let up := if 2 ^ sh < 2 * r ∨ (2 ^ sh = 2 * r ∧ q % 2 = 1) then 1 else 0
  min ((sh - t) * 2 ^ 52 + (q + up)) INF

theorem roundMag_lt (n t : Nat) : roundMag n t < 2 ^ 63 := by
  unfold roundMag INF
  exact Nat.lt_of_le_of_lt (Nat.min_le_right _ _) (by decide)

/-- `±` the rounding of `n / 2^t`. -/
def round (neg : Bool) (n t : Nat) : F64 := make neg (roundMag n t) (roundMag_lt n t)

def nan : F64 := ⟨0x7ff8000000000000, by decide⟩
def inf (neg : Bool) : F64 := make neg INF (by decide)
def zero (neg : Bool) : F64 := make neg 0 (by decide)
/-- `1.0` -/
def one : F64 := ⟨0x3ff0000000000000, by decide⟩

/-- `-x` -/
def neg (x : F64) : F64 := make (!x.sign) x.mag (Nat.mod_lt _ (by decide))

/-- `x + y` -/
def add (x y : F64) : F64 :=
  if x.isNaN || y.isNaN then nan
  else if x.isInf then (if y.isInf && x.sign != y.sign then nan else x)
  else if y.isInf then y
  else
    let s := x.val + y.val
    if s = 0 then zero (x.sign && y.sign) else round (decide (s < 0)) s.natAbs 0

/-- `x - y` -/
def sub (x y : F64) : F64 := add x (neg y)

/-- `x * y` -/
def mul (x y : F64) : F64 :=
  let s := x.sign != y.sign
  if x.isNaN || y.isNaN then nan
  else if x.isInf then (if y.mag = 0 then nan else inf s)
  else if y.isInf then (if x.mag = 0 then nan else inf s)
  else round s (unit x.mag * unit y.mag) 1074

/-- `n as f64` for an unsigned `n`. -/
def ofNat (n : Nat) : F64 := round false (n * 2 ^ 1074) 0

/-- `n as f64` for a signed `n`. -/
def ofInt (n : Int) : F64 := round (decide (n < 0)) (n.natAbs * 2 ^ 1074) 0

/-- The loop of `__powidf2` (compiler-rt), to which `f64::powi` compiles:
`loop { if b & 1 != 0 { r *= a }  b /= 2;  if b == 0 { return r }  a *= a }`. -/
def powiLoop : Nat → F64 → Nat → F64 → F64
  | 0, _, _, r => r
  | fuel + 1, a, b, r =>
    let r := if b % 2 = 1 then mul r a else r
    if b / 2 = 0 then r else powiLoop fuel (mul a a) (b / 2) r

/-- `a.powi(b)` for `0 <= b < 2^31`. -/
def powi (a : F64) (b : Nat) : F64 := powiLoop 32 a b one

end F64
end Measured
