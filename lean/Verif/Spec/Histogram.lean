import Verif.Model.F64

/-! # What thresholds and bucket counts should be -/

namespace Measured.Spec

/-- Every bound is below all later ones. -/
def StrictlyIncreasing (b : List F64) : Prop :=
  ∀ (i j : Nat) (x y : F64), i < j → b[i]? = some x → b[j]? = some y → F64.flt x y = true

/-- No bound is above a later one (so none is NaN unless it is the only one). -/
def NonDecreasing (b : List F64) : Prop :=
  ∀ (i j : Nat) (x y : F64), i < j → b[i]? = some x → b[j]? = some y → F64.fle x y = true

/-- The number of observations at or below a bound. -/
def atMost (b : F64) (xs : List F64) : Nat := (xs.filter fun x => F64.fle x b).length

end Measured.Spec
