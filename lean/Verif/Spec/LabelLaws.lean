import Verif.Model.Label

/-!
# Specification: what it means for a label set to be a faithful numbering

"One-to-one" as the crate documents it: every member has one number in `0..cardinality`, every such
number has one member, and decoding undoes encoding.
-/

namespace Measured.Spec

/-- A fixed set is a faithful numbering. -/
structure FixedSetLaws {V : Type} (s : FixedSet V) : Prop where
  /-- the number of a member is in range and decodes to the member -/
  enc_dec : ∀ v i, s.encode v = some i → i < s.card ∧ s.decode i = .ok v
  /-- every number in range is the number of some member -/
  dec_enc : ∀ i, i < s.card → ∃ v, s.decode i = .ok v ∧ s.encode v = some i

/-- A dynamic set is a faithful, growing numbering. `inv` is the invariant of its interior state, `le`
says that a state may evolve into another, `valid s i` that id `i` has been handed out. -/
structure DynSetLaws {S V : Type} (d : DynSet S V) (inv : S → Prop) (le : S → S → Prop)
    (valid : S → Nat → Prop) : Prop where
  le_refl : ∀ s, le s s
  le_trans : ∀ s t u, le s t → le t u → le s u
  /-- encoding keeps the state well formed and only grows it -/
  enc_inv : ∀ s v, inv s → inv (d.encode s v).2 ∧ le s (d.encode s v).2
  /-- a handed-out id decodes to the value it was handed out for -/
  enc_dec : ∀ s v i s', inv s → d.encode s v = (some i, s') → valid s' i ∧ d.decode s' i = .ok v
  /-- a handed-out id decodes, and encoding that value again returns the same id and changes nothing -/
  valid_enc : ∀ s i, inv s → valid s i → ∃ v, d.decode s i = .ok v ∧ d.encode s v = (some i, s)
  /-- handed-out ids keep their meaning forever -/
  stable : ∀ s s' i, inv s → inv s' → le s s' → valid s i → valid s' i ∧ d.decode s' i = d.decode s i

end Measured.Spec
