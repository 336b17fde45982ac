import Verif.Spec.Api

/-!
# Specification: series

Two samples belong to the same series if they have the same name and the same set of labels. A scrape must not show a
series twice, and no sample may have two labels with the same name.
-/

namespace Measured.Spec

/-- The same name and the same labels, in any order. -/
def SameSeries (a b : Sample) : Prop := a.name = b.name ∧ ∀ l, l ∈ a.labels ↔ l ∈ b.labels

/-- All series are different. -/
def SeriesDistinct (ss : List Sample) : Prop := ss.Pairwise fun a b => ¬ SameSeries a b

/-- No label name is used twice. -/
def LabelNamesDistinct (s : Sample) : Prop := (s.labels.map Prod.fst).Nodup

/-- Values that cannot be written as the same text. -/
def LVal.Differ : LVal → LVal → Prop
  | .str a, .str b => a ≠ b
  | .int a, .int b => a ≠ b
  | .int a, .str b => readInt b ≠ some a
  | .str a, .int b => readInt a ≠ some b
  | .float a, .float b => a ≠ b ∧ (a.isNaN = false ∨ b.isNaN = false)
  | _, _ => False

/-- Two lists of labels differ in the value of some label. -/
def LabelsDiffer (a b : Labels) : Prop :=
  ∃ (i : Nat) (x y : Bytes × LVal), a[i]? = some x ∧ b[i]? = some y ∧ LVal.Differ x.2 y.2

/-- The reader understands the special numbers. -/
structure ReadsSpecial (rf : Bytes → Option F64) : Prop where
  inf : rf b!"+Inf" = some (F64.inf false)
  negInf : rf b!"-Inf" = some (F64.inf true)
  nan : rf b!"NaN" = some F64.nan

end Measured.Spec
