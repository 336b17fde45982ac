import Verif.Model.Prim

/-! # Specification: UTF-8 -/

namespace Measured.Spec

/-- The bytes are the UTF-8 encoding of some sequence of Unicode scalar values (`Char`). -/
def Utf8 (s : Bytes) : Prop := ∃ cs : List Char, s = cs.flatMap String.utf8EncodeChar

end Measured.Spec
