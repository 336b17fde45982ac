import Verif.Spec.Text
import Verif.Spec.Name

/-!
# Specification: which samples and families an exposition should show

What a reader of the text format (`Spec.Text`) should find for a metric family with given samples. A histogram
with bounds `b₀, …, bₙ₋₁` has `n` bucket samples with cumulative counts, an `le="+Inf"` bucket, `_sum`, `_count`.
-/

namespace Measured.Spec

/-- A sample with label values that are not yet text. -/
structure Expected where
  name : Bytes
  labels : Labels
  value : Val

/-- Numbers up to the payload of NaN. -/
def canon (x : F64) : F64 := if x.isNaN then F64.nan else x

/-- The samples of one metric, in order. -/
def expected (n : Bytes) (ls : Labels) : Metric → List Expected
  | .counter c => [⟨n, ls, .int c⟩]
  | .gauge c => [⟨n, ls, .int c⟩]
  | .floatGauge x => [⟨n, ls, .float (canon x)⟩]
  | .histogram le h =>
    le.mapIdx (fun i b => ⟨n ++ b!"_bucket", ls ++ [(b!"le", .float b)], .int ((h.buckets.take (i + 1)).sum : Nat)⟩) ++
    [⟨n ++ b!"_bucket", ls ++ [(b!"le", .float (F64.inf false))], .int ((h.buckets.sum + h.inf : Nat))⟩,
     ⟨n ++ b!"_sum", ls, .float (canon h.sum)⟩,
     ⟨n ++ b!"_count", ls, .int ((h.buckets.sum + h.inf : Nat))⟩]

/-- The sample read is the expected one. -/
def SampleReads (rf : Bytes → Option F64) (x : Expected) (s : Sample) : Prop :=
  s.name = x.name ∧ LabelsRead rf x.labels s.labels ∧ s.value = x.value

/-- A family to be written. -/
structure FamilyIn where
  name : Name
  help : Option Bytes
  kind : Kind
  samples : List (Labels × Metric)

/-- The encoder calls for a family: HELP (if any), TYPE, samples. -/
def FamilyIn.calls (f : FamilyIn) : List EncCall :=
  (match f.help with
    | some t => [.help f.name t]
    | none => []) ++
  .type f.kind f.name :: f.samples.map fun s => .sample s.2 s.1 f.name

/-- The TYPE of a kind. -/
def kindWord : Kind → TypeWord
  | .counter => .counter
  | .gauge => .gauge
  | .floatGauge => .gauge
  | .histogram => .histogram

/-- The family read, given the text of the family's name. -/
structure FamilyReads (rf : Bytes → Option F64) (n : Bytes) (f : FamilyIn) (g : Family) : Prop where
  name : g.name = n
  help : g.help = f.help
  type : g.type = some (kindWord f.kind)
  samples : List.Forall₂ (SampleReads rf) (f.samples.flatMap fun s => expected n s.1 s.2) g.samples

def Line.isSample : Line → Bool
  | .sample _ => true
  | _ => false

/-- Blocks of lines with one blank line after every block that has a sample, except at the very end. -/
def joinBlocks : List (List Line) → List Line
  | [] => []
  | [b] => b
  | b :: b' :: bs => b ++ (if b.any Line.isSample then [.blank] else []) ++ joinBlocks (b' :: bs)

end Measured.Spec
