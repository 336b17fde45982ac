import Verif.Model.DeriveNames

/-! # Which names of fields are in the way (C92) -/

namespace Measured.Names

variable {V : Type}

/-- A field whose labels are known beforehand. -/
def IsFixed (d : Decl V) (i : Fin d.group.n) : Prop := ∃ s, (d.group.field i).kind = .fixed s

/-- A field with an interner. -/
def IsDynamic (d : Decl V) (i : Fin d.group.n) : Prop := ∃ r, (d.group.field i).kind = .dynamic r

/-- No fixed field is declared before this one. -/
def IsFirst (d : Decl V) (i : Fin d.group.n) : Prop := IsFixed d i ∧ ∀ j < i, ¬ IsFixed d j

open Classical in
/-- How many dynamic fields are declared before this one. -/
noncomputable def dynBefore (d : Decl V) (i : Fin d.group.n) : Nat :=
  ((List.finRange d.group.n).filter fun j => decide (IsDynamic d j ∧ j < i)).length

/-- The names that are in the way of the generated code. -/
inductive Clash (d : Decl V) : Prop where
  /-- a fixed field, but not the first -/
  | temp (i : Fin d.group.n) (hf : IsFixed d i) (h1 : ¬ IsFirst d i) (hn : d.ident i ∈ [b!"index", b!"index1", b!"card"])
  /-- the first fixed field, unless its type can be compared with numbers -/
  | index (i : Fin d.group.n) (hf : IsFirst d i) (hn : d.ident i = b!"index") (he : d.eqZero i = none)
  /-- a fixed field with the name of the id of a dynamic one -/
  | fixed (i e : Fin d.group.n) (hf : IsFixed d i) (he : IsDynamic d e) (hn : d.ident i = dynIndex (dynBefore d e))
  /-- a dynamic field with the name of the id of a later one -/
  | dyn (i e : Fin d.group.n) (hf : IsDynamic d i) (he : IsDynamic d e) (hl : i < e) (hn : d.ident i = dynIndex (dynBefore d e))

end Measured.Names
