import Verif.Spec.Exposition

/-!
# Specification: what a writer that fails now and then may have missed
-/

namespace Measured.Spec

/-- `a'` is `a`, except that between the braces of some samples, from `{` up to but without `}`, bytes may be missing. -/
inductive LabelBytesLost : Bytes → Bytes → Prop
  | nil : LabelBytesLost [] []
  | same {a a' : Bytes} (t : Bytes) : LabelBytesLost a a' → LabelBytesLost (a ++ t) (a' ++ t)
  | labels {a a' l l' : Bytes} : LabelBytesLost a a' → l'.Sublist (b!"{" ++ l) → (0x0a : Byte) ∉ l →
      LabelBytesLost (a ++ (b!"{" ++ l ++ b!"}")) (a' ++ (l' ++ b!"}"))

end Measured.Spec
