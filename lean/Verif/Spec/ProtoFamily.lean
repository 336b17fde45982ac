import Verif.Spec.Wire
import Verif.Spec.Exposition

/-!
# Specification: decoding `io.prometheus.client.MetricFamily`

<https://github.com/prometheus/client_model/blob/master/io/prometheus/client/metrics.proto>. Of a field that is not
`repeated`, the last occurrence counts. Unknown fields are skipped; a known field with the wrong wire type is an error.
-/

namespace Measured.Spec

/-- The values of field `tag`, in order. -/
def fieldsOf (tag : Nat) (fs : List (Nat × WireVal)) : List WireVal :=
  (fs.filter fun f => f.1 = tag).map Prod.snd

def asBytes : WireVal → Option Bytes
  | .bytes b => some b
  | _ => none

def asVarint : WireVal → Option Nat
  | .varint v => some v
  | _ => none

/-- Little endian. -/
def leNat : Bytes → Nat
  | [] => 0
  | b :: bs => b.toNat + 256 * leNat bs

def asDouble : WireVal → Option F64
  | .fixed64 b => if h : leNat b < 2 ^ 64 then some ⟨leNat b, h⟩ else none
  | _ => none

/-- A nested message. -/
def asMessage {α : Type} (decode : List (Nat × WireVal) → Option α) : WireVal → Option α
  | .bytes b => match readFields b with
    | some fs => decode fs
    | none => none
  | _ => none

/-- The last occurrence of an optional field. -/
def optionalField {α : Type} (decode : WireVal → Option α) (tag : Nat) (fs : List (Nat × WireVal)) :
    Option (Option α) := (readAll decode (fieldsOf tag fs)).map List.getLast?

def repeatedField {α : Type} (decode : WireVal → Option α) (tag : Nat) (fs : List (Nat × WireVal)) :
    Option (List α) := readAll decode (fieldsOf tag fs)

/-- `message LabelPair { optional string name = 1; optional string value = 2; }` -/
structure PLabel where
  name : Option Bytes
  value : Option Bytes
  deriving DecidableEq

def decodeLabel (fs : List (Nat × WireVal)) : Option PLabel :=
  match optionalField asBytes 1 fs, optionalField asBytes 2 fs with
  | some n, some v => some ⟨n, v⟩
  | _, _ => none

/-- `message Gauge { optional double value = 1; }`, and `Counter` without exemplar and time stamp. -/
def decodeValue (fs : List (Nat × WireVal)) : Option (Option F64) := optionalField asDouble 1 fs

/-- `message Metric { repeated LabelPair label = 1; optional Gauge gauge = 2; optional Counter counter = 3; … }` -/
structure PMetric where
  labels : List PLabel
  gauge : Option (Option F64)
  counter : Option (Option F64)
  deriving DecidableEq

def decodeMetric (fs : List (Nat × WireVal)) : Option PMetric :=
  match repeatedField (asMessage decodeLabel) 1 fs, optionalField (asMessage decodeValue) 2 fs,
    optionalField (asMessage decodeValue) 3 fs with
  | some ls, some g, some c => some ⟨ls, g, c⟩
  | _, _, _ => none

/-- `message MetricFamily { optional string name = 1; optional string help = 2; optional MetricType type = 3;
repeated Metric metric = 4; }` -/
structure PFamily where
  name : Option Bytes
  help : Option Bytes
  type : Option Nat
  metrics : List PMetric
  deriving DecidableEq

def decodeFamily (fs : List (Nat × WireVal)) : Option PFamily :=
  match optionalField asBytes 1 fs, optionalField asBytes 2 fs, optionalField asVarint 3 fs,
    repeatedField (asMessage decodeMetric) 4 fs with
  | some n, some h, some t, some ms => some ⟨n, h, t, ms⟩
  | _, _, _, _ => none

/-- A scrape: length-delimited families. -/
def decodeScrape (bs : Bytes) : Option (List PFamily) :=
  match readDelimited bs with
  | some msgs => readAll (fun b => asMessage decodeFamily (.bytes b)) msgs
  | none => none

/-! ## What should be decoded -/

/-- `COUNTER = 0`, `GAUGE = 1`, `HISTOGRAM = 4` -/
def kindCode : Kind → Nat
  | .counter => 0
  | .gauge => 1
  | .floatGauge => 1
  | .histogram => 4

/-- The double nearest to the value of a metric, in the field of its type. -/
def ProtoValueReads (x : Metric) (p : PMetric) : Prop :=
  match x with
  | .counter c => p.counter = some (some (F64.ofNat c)) ∧ p.gauge = none
  | .gauge c => p.gauge = some (some (F64.ofInt c)) ∧ p.counter = none
  | .floatGauge x => p.gauge = some (some x) ∧ p.counter = none
  | .histogram _ _ => False

structure ProtoSampleReads (rf : Bytes → Option F64) (s : Labels × Metric) (p : PMetric) : Prop where
  labels : ∃ texts, LabelsRead rf s.1 texts ∧ p.labels = texts.map fun t => ⟨some t.1, some t.2⟩
  value : ProtoValueReads s.2 p

/-- The family decoded, given the text of the family's name. -/
structure ProtoReads (rf : Bytes → Option F64) (n : Bytes) (f : FamilyIn) (g : PFamily) : Prop where
  name : g.name = some n
  help : g.help = f.help
  type : g.type = some (kindCode f.kind)
  metrics : List.Forall₂ (ProtoSampleReads rf) f.samples g.metrics

/-! ## Conditions on a scrape -/

/-- An upper bound for the size of a scrape; `text` gives the text of label values. -/
def labelSize (text : LVal → Bytes) (l : Bytes × LVal) : Nat := 64 + l.1.length + (text l.2).length

def sampleSize (text : LVal → Bytes) (s : Labels × Metric) : Nat := 64 + (s.1.map (labelSize text)).sum

def familySize (text : LVal → Bytes) (n : Bytes) (f : FamilyIn) : Nat :=
  64 + n.length + (f.help.getD []).length + (f.samples.map (sampleSize text)).sum

/-- No family with samples and without help follows a family that has help but no samples, unless a family with
samples comes in between. The first argument: whether there is such a family before. -/
def NoPendingHelp : Prop → List FamilyIn → Prop
  | _, [] => True
  | p, f :: fs => (p → f.help = none → f.samples = []) ∧ NoPendingHelp ((p ∨ f.help ≠ none) ∧ f.samples = []) fs

end Measured.Spec
