import Verif.Model.TestVisitor
import Verif.Props.Text
import Verif.Props.Proto

/-! # The test visitor shows what the encoders show (C78) -/

namespace Measured
open Measured.Spec Measured.Proto

theorem testVisit_eq (ryu : F64 → Bytes) (x : LVal) : testVisit ryu x = labelText ryu x := by
  cases x with
  | int x => rfl
  | str s => rfl
  | float x =>
    simp only [testVisit, testFloat, labelText, labelFloat]
    cases x.sign <;> rfl

/-- C78: what `LabelTestVisitor` returns for a label value is what a reader finds in the label of the text exposition and in
the label pair of the protobuf exposition, and it denotes the value. -/
theorem C78_agree {ryu : F64 → Bytes} {rf : Bytes → Option F64} (F : FloatText ryu rf) (x : LVal) :
    LabelReads rf x (testVisit ryu x) ∧
    (∀ w : Bytes, ∃ t, (visitLabel ryu x : RS Bytes Unit) w = (.ok (), w ++ (b!"=\"" ++ t ++ b!"\"")) ∧
      ∀ rest, readQuoted (t ++ 0x22 :: rest) = some (testVisit ryu x, rest)) ∧
    ((testVisit ryu x).length < 2 ^ 64 → readFields (visit ryu x) = some [(2, .bytes (testVisit ryu x))] ∧
      lenVisit ryu x = (visit ryu x).length) := by
  rw [testVisit_eq]
  refine ⟨labelReads_text F x, fun w => ⟨escape (labelText ryu x), visitLabel_bytes ryu x w, readQuoted_escape _⟩, fun h => ?_⟩
  rw [visit_eq]
  refine ⟨?_, ?_⟩
  · have := readFields_enc (fs := [(2, .bytes (labelText ryu x))]) (by
      intro f hf
      cases List.mem_singleton.1 hf
      exact ⟨show 2 < 2 ^ 29 by decide, h, show 2 ≠ 0 by decide⟩)
    simpa [encFields] using this
  · rw [lenVisit_eq, stringLen_eq 2 _ (by decide) h]

/-- A string with a quote, a negative number, and infinity. -/
example : testVisit exRyu (.str b!"a\"b") = b!"a\"b" ∧ testVisit exRyu (.int (-7)) = b!"-7" ∧
    testVisit exRyu (.float (F64.inf true)) = b!"-Inf" ∧
    (visitLabel exRyu (.str b!"a\"b") : RS Bytes Unit) [] = (.ok (), b!"=\"a\\\"b\"") := by decide +kernel

example : LabelReads exRead (.int (-7)) (testVisit exRyu (.int (-7))) := (C78_agree exFloat (.int (-7))).1

end Measured
