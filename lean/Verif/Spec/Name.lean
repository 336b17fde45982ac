import Verif.Model.Prim

/-!
# Specification: Prometheus data model, metric and label names

<https://prometheus.io/docs/concepts/data_model/#metric-names-and-labels>:
metric names match `[a-zA-Z_:][a-zA-Z0-9_:]*`, label names match `[a-zA-Z_][a-zA-Z0-9_]*`.
A tiny regular-expression semantics: a character class is a list of closed ranges.
-/

namespace Measured.Spec

/-- A character class: list of inclusive byte ranges. -/
abbrev Class := List (Nat × Nat)

def inClass (c : Class) (b : Byte) : Prop := ∃ r ∈ c, r.1 ≤ b.toNat ∧ b.toNat ≤ r.2

/-- The language of the regex `[first][rest]*`. -/
def matchesFirstRest (first rest : Class) (s : Bytes) : Prop :=
  ∃ b bs, s = b :: bs ∧ inClass first b ∧ ∀ x ∈ bs, inClass rest x

/-- `a-zA-Z` -/
def alpha : Class := [(0x61, 0x7a), (0x41, 0x5a)]
/-- `0-9` -/
def digit : Class := [(0x30, 0x39)]
/-- `_` -/
def underscore : Class := [(0x5f, 0x5f)]
/-- `:` -/
def colon : Class := [(0x3a, 0x3a)]

/-- `[a-zA-Z_:][a-zA-Z0-9_:]*` -/
def MetricNameRe (s : Bytes) : Prop :=
  matchesFirstRest (alpha ++ underscore ++ colon) (alpha ++ digit ++ underscore ++ colon) s

/-- `[a-zA-Z_][a-zA-Z0-9_]*` -/
def LabelNameRe (s : Bytes) : Prop :=
  matchesFirstRest (alpha ++ underscore) (alpha ++ digit ++ underscore) s

/-- The name a user expects from namespaces (outermost first), a base name and suffixes (innermost
first): `ns1_ns2_…_name` followed by the suffixes. -/
def qualifiedName (namespaces : List Bytes) (base : Bytes) (suffixes : List Bytes) : Bytes :=
  (namespaces.map (fun n => n ++ [0x5f])).flatten ++ base ++ suffixes.flatten

end Measured.Spec
