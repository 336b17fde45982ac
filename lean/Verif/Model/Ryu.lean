import Verif.Model.Duration
import Verif.Model.Text

/-!
# `ryu::Buffer::format`

The crate `ryu` is not part of the repository (core/Cargo.toml:22); core/src/text.rs:143, 197 and
prometheus-proto/src/lib.rs:126, 169 call it. Its documented contract is modelled: the shortest decimal number that is
read back, of several the nearest one, in the layout of `ryu::pretty::format64`. The tables and the arithmetic with
which `ryu` finds the digits (`d2d`) are replaced by a search.
-/

namespace Measured.Ryu
open F64

/-- Magnitude bits of the double nearest to `a / b`. -/
def ratMag (a b : Nat) : Nat := roundMag (quarters a b) 2

/-- `m * 10^e` is `decNum m e / decDen e`. -/
def decNum (m : Nat) (e : Int) : Nat := if 0 ≤ e then m * 10 ^ e.toNat else m
def decDen (e : Int) : Nat := if 0 ≤ e then 1 else 10 ^ (-e).toNat

/-- Magnitude bits of the double nearest to `m * 10^e`. -/
def decMag (m : Nat) (e : Int) : Nat := ratMag (decNum m e) (decDen e)

/-- The multiple of `10^e` to be written for the positive double with magnitude bits `b`, if there is one that is read
back: one of the two next to the number, the nearer one if both are. -/
def candidate (b : Nat) (e : Int) : Option Nat :=
  let n := unit b * decDen e
  let d := 2 ^ 1074 * decNum 1 e
  let lo := n / d
  if decMag lo e = b then
    if decMag (lo + 1) e = b then
      some (if 2 * (n % d) < d ∨ (2 * (n % d) = d ∧ lo % 2 = 0) then lo else lo + 1)
    else some lo
  else if decMag (lo + 1) e = b then some (lo + 1)
  else none

/-- The first power of ten, from `10^(n - 345)` downwards, of which a multiple is read back. -/
def search (b : Nat) : Nat → Option (Nat × Int)
  | 0 => none
  | n + 1 => ((candidate b ((n : Int) - 344)).map fun m => (m, (n : Int) - 344)).or (search b n)

/-- `d2d`: digits and exponent. From `10^309` on nothing is finite. -/
def shortest (b : Nat) : Option (Nat × Int) := search b 654

/-- The layout of `ryu::pretty::format64`, for digits `m` and exponent `k`. -/
def layout (m : Nat) (k : Int) : Bytes :=
  let ds := decDigits m
  let kk : Int := ds.length + k
  if 0 ≤ k ∧ kk ≤ 16 then ds ++ List.replicate k.toNat 0x30 ++ b!".0"
  else if 0 < kk ∧ kk ≤ 16 then ds.take kk.toNat ++ b!"." ++ ds.drop kk.toNat
  else if -5 < kk ∧ kk ≤ 0 then b!"0." ++ List.replicate (-kk).toNat 0x30 ++ ds
  else if ds.length = 1 then ds ++ b!"e" ++ itoa (kk - 1)
  else ds.take 1 ++ b!"." ++ ds.drop 1 ++ b!"e" ++ itoa (kk - 1)

/-- `ryu::Buffer::format`: `format_nonfinite` and `pretty::format64`. -/
def format (x : F64) : Bytes :=
  if x.isNaN then b!"NaN"
  else if x.isInf then (if x.sign then b!"-inf" else b!"inf")
  else (if x.sign then b!"-" else []) ++
    if x.mag = 0 then b!"0.0"
    else match shortest x.mag with
      | some (m, k) => layout m k
      | none => []

end Measured.Ryu
