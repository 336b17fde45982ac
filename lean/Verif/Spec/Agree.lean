import Verif.Spec.ProtoFamily

/-! When a text exposition and a protobuf exposition tell the same. -/

namespace Measured.Spec

/-- `MetricType` of metrics.proto for a word of a TYPE line. -/
def typeNumber : TypeWord → Nat
  | .counter => 0
  | .gauge => 1
  | .summary => 2
  | .untyped => 3
  | .histogram => 4

/-- The double of a number read from text. -/
def Val.double : Val → F64
  | .int x => F64.ofInt x
  | .float x => x

/-- The sample and the metric have the same labels, in the same order; the number is in the field of the type and is
the double nearest to that of the text (NaNs are not told apart). -/
structure SampleAgrees (type : Option TypeWord) (s : Sample) (p : PMetric) : Prop where
  labels : p.labels = s.labels.map fun l => ⟨some l.1, some l.2⟩
  value : ∃ x, canon x = s.value.double ∧
    (p.counter = if type = some .counter then some (some x) else none) ∧
    p.gauge = if type = some .gauge then some (some x) else none

structure FamilyAgrees (g : Family) (p : PFamily) : Prop where
  name : p.name = some g.name
  help : p.help = g.help
  type : p.type = g.type.map typeNumber
  own : ∀ s ∈ g.samples, s.name = g.name
  samples : List.Forall₂ (SampleAgrees g.type) g.samples p.metrics

/-- Two scrapes: the text format also shows families without samples. -/
def ScrapesAgree (gs : List Family) (ps : List PFamily) : Prop :=
  List.Forall₂ FamilyAgrees (gs.filter fun g => g.samples ≠ []) ps

end Measured.Spec
