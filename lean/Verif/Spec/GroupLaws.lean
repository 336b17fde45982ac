import Verif.Model.LabelGroup

/-!
# Specification: a label group set is a faithful numbering of label groups

`inv` is the invariant of the interners, `le` their growth, `valid s u` says that `u` is an id that
`encode` can hand out in state `s`.
-/

namespace Measured.Spec

structure GroupSetLaws {S G U : Type} (t : GroupSet S G U) (inv : S → Prop) (le : S → S → Prop)
    (valid : S → U → Prop) : Prop where
  le_refl : ∀ s, le s s
  le_trans : ∀ s s' s'', le s s' → le s' s'' → le s s''
  /-- a cardinality is a `usize` -/
  card_lt : ∀ c, t.cardinality = some c → c < W64
  /-- `encode` never panics, keeps the interners well formed and only grows them -/
  enc_total : ∀ s g, inv s → ∃ r, (t.encode g s).1 = .ok r
  enc_inv : ∀ s g, inv s → inv (t.encode g s).2 ∧ le s (t.encode g s).2
  /-- an id decodes to the group it was given for -/
  enc_dec : ∀ s g u s', inv s → t.encode g s = (.ok (some u), s') → valid s' u ∧ t.decode s' u = .ok g
  /-- an id that was handed out decodes, and its group encodes to it without changing anything -/
  valid_enc : ∀ s u, inv s → valid s u → ∃ g, t.decode s u = .ok g ∧ t.encode g s = (.ok (some u), s)
  /-- ids keep their meaning while interners grow -/
  stable : ∀ s s' u, inv s → inv s' → le s s' → valid s u → valid s' u ∧ t.decode s' u = t.decode s u
  /-- with a known cardinality every id has a dense index in range that decodes to the same group -/
  dense : ∀ s u c, inv s → t.cardinality = some c → valid s u →
    ∃ i, i < c ∧ t.encodeDense u = .ok (some i) ∧ t.decodeDense s i = t.decode s u
  /-- with a known cardinality every index in range belongs to an id -/
  dense_surj : ∀ s i c, inv s → t.cardinality = some c → i < c →
    ∃ u, valid s u ∧ t.encodeDense u = .ok (some i)

end Measured.Spec
