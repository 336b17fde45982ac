import Verif.Model.LabelGroup

/-! # Specification vocabulary for derived label groups, independent of the generated code -/

namespace Measured.Spec
variable {S V : Type}

/-- The cardinalities of the fixed fields in declaration order. -/
def fixedCards (d : GroupDef V) : List Nat :=
  (List.finRange d.n).filterMap fun i =>
    match (d.field i).kind with
    | .fixed s => some s.card
    | .dynamic _ => none

/-- Number of combinations of the fixed fields. -/
def combinations (d : GroupDef V) : Nat := (fixedCards d).prod

/-- Every trailing run of fixed fields has fewer than `2^64` combinations. If no set is empty this just
says `combinations d < 2^64`. -/
def Fits (d : GroupDef V) : Prop := ∀ k, ((fixedCards d).drop k).prod < W64

/-- All fixed sets of the struct are faithful numberings. -/
def FieldsLawful (laws : FixedSet V → Prop) (d : GroupDef V) : Prop :=
  ∀ i s, (d.field i).kind = .fixed s → laws s

/-- The interners after the values of the given fields have been interned one after the other. -/
def internFields (D : DynSet S V) (d : GroupDef V) (g : d.Group) : List (Fin d.n) → Heap S → Heap S
  | [], h => h
  | i :: is, h =>
    match (d.field i).kind with
    | .dynamic r => internFields D d g is (h.set r (D.encode (h r) (g i)).2)
    | .fixed _ => internFields D d g is h

/-- Numbers of the fixed field values in declaration order. -/
def fixedNumbers (d : GroupDef V) (g : d.Group) : List (Option Nat) :=
  (List.finRange d.n).filterMap fun i =>
    match (d.field i).kind with
    | .fixed s => some (s.encode (g i))
    | .dynamic _ => none

end Measured.Spec
