import Verif.Model.Text

/-! # The visitor for tests -/

namespace Measured

/-- `LabelTestVisitor::write_float`. core/src/label/value.rs:81-93 -/
def testFloat (ryu : F64 → Bytes) (x : F64) : Bytes :=
  if x.isInf then (if !x.sign then b!"+Inf" else b!"-Inf")
  else if x.isNaN then b!"NaN"
  else ryu x

/-- `LabelValue::visit(LabelTestVisitor)`. core/src/label/value.rs:71-98 -/
def testVisit (ryu : F64 → Bytes) : LVal → Bytes
  | .int x => itoa x
  | .float x => testFloat ryu x
  | .str s => s

end Measured
