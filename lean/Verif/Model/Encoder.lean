import Verif.Model.Name
import Verif.Model.Histogram

/-!
# What encoders are called with

`Encoding` and `MetricEncoding` (core/src/metric/group.rs, core/src/metric.rs) as a record of three calls.
A `LabelGroup` is the list of name/value pairs it visits, in order (core/src/label/group.rs: derived groups
visit their fields in declaration order, `ComposedGroup` its parts in order, `NoLabels` nothing).
-/

namespace Measured

/-- A label value as a `LabelVisitor` sees it. core/src/label/value.rs:101-111 -/
inductive LVal where
  | int (x : Int)
  | float (x : F64)
  | str (s : Bytes)
  deriving DecidableEq

/-- The pairs a label group visits. -/
abbrev Labels := List (Bytes × LVal)

/-- The state of one metric together with its metadata. -/
inductive Metric where
  /-- `CounterState` -/
  | counter (count : Nat)
  /-- `GaugeState` -/
  | gauge (count : Int)
  /-- `FloatGaugeState` -/
  | floatGauge (x : F64)
  /-- `HistogramState` with its `Thresholds` -/
  | histogram (le : List F64) (h : HistInner)
  deriving DecidableEq

/-- The metric type, which `write_type` depends on. -/
inductive Kind where
  | counter
  | gauge
  | floatGauge
  | histogram
  deriving DecidableEq

def Metric.kind : Metric → Kind
  | .counter _ => .counter
  | .gauge _ => .gauge
  | .floatGauge _ => .floatGauge
  | .histogram _ _ => .histogram

/-- An encoder: `Encoding::write_help`, `MetricEncoding::write_type`, `MetricEncoding::collect_into`. -/
structure Encoder (E : Type) where
  help : Name → Bytes → RS E Unit
  type : Kind → Name → RS E Unit
  sample : Metric → Labels → Name → RS E Unit

/-- One call of an encoder. -/
inductive EncCall where
  | help (n : Name) (text : Bytes)
  | type (k : Kind) (n : Name)
  | sample (x : Metric) (ls : Labels) (n : Name)
  deriving DecidableEq

def Encoder.run {E : Type} (enc : Encoder E) : EncCall → RS E Unit
  | .help n t => enc.help n t
  | .type k n => enc.type k n
  | .sample x ls n => enc.sample x ls n

/-- Several calls, stopping at the first failure. -/
def Encoder.runAll {E : Type} (enc : Encoder E) : List EncCall → RS E Unit
  | [] => pure ()
  | c :: cs => do
    enc.run c
    enc.runAll cs

end Measured
