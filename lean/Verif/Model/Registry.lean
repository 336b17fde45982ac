import Verif.Model.ConcScrape
import Verif.Model.HistConc
import Verif.Model.HistDense
import Verif.Model.LabelledVec
import Verif.Model.Group

/-!
# A metric group in use

The struct behind `#[derive(MetricGroup)]` has one field per metric; threads use the fields through `&self`, while
another thread collects the group. The fields share no memory, so a run of the whole is an interleaving of runs of the
fields.
-/

namespace Measured.Conc
open Measured

/-! ## The fields -/

/-- What the fields are made of. -/
inductive Part : Type 1 where
  /-- `Metric<Counter>` or `Metric<Gauge>` (one 64-bit word). core/src/metric.rs:79-82 -/
  | word (v0 : Nat)
  /-- `Metric<FloatGauge>`. core/src/metric.rs:79-82 -/
  | float (v0 : F64)
  /-- `Metric<Histogram<N>>` with thresholds `le`. core/src/metric.rs:79-82 -/
  | histogram (le : List F64)
  /-- a sparse `MetricVec`, used through calls `C`. core/src/metric.rs:118-127 -/
  | sparse (K C : Type) (inst : DecidableEq K) (c : ShardConf K)
  /-- a dense `MetricVec`. core/src/metric.rs:118-127 -/
  | dense (C : Type) (cells : Nat)
  /-- a sparse `MetricVec` together with its label set, used through `with_labels` and the like. If another
  field has the same interners, a call of it on them is a step `foreign` of this one. core/src/metric.rs:118-127, 332-378 -/
  | labelled (m : Mode) (S V C : Type) (D : DynSet S V) (d : GroupDef V) (c : ShardConf (Nat × List Nat)) (h : Heap S)
  /-- a sparse vector of histograms with thresholds `le`, whose `observe` and `sample` take many steps.
  core/src/metric.rs:118-127 -/
  | sparseHist (K : Type) (inst : DecidableEq K) (c : ShardConf K) (le : List F64)
  /-- the same, dense. core/src/metric.rs:118-127 -/
  | denseHist (cells : Nat) (le : List F64)

/-- The states of a field, with all its threads. -/
@[reducible] def Part.S : Part → Type
  | .word _ => Mem IntOp Nat
  | .float _ => FloatSys
  | .histogram _ => HistSys
  | .sparse K C _ _ => SSys K C
  | .dense C _ => DSys C
  | .labelled _ S V C _ d _ _ => LVSys S V C d.n
  | .sparseHist K _ _ _ => HVSys K
  | .denseHist _ _ => HDSys

/-- What happens on a field. -/
@[reducible] def Part.E : Part → Type
  | .word _ => IntEvent
  | .float _ => FloatEvent
  | .histogram _ => HistEvent
  | .sparse K C _ _ => SEvent K C
  | .dense C _ => DEvent C
  | .labelled _ _ V C _ d _ _ => LVEvent V C d.n
  | .sparseHist K _ _ _ => HVEvent K
  | .denseHist _ _ => HDEvent

/-- The steps of a field. -/
def Part.Step : (p : Part) → p.S → p.E → p.S → Prop
  | .word _ => IntStep
  | .float _ => FloatStep
  | .histogram le => HistStep le
  | .sparse _ _ _ c => SStep c
  | .dense _ cells => DStep cells
  | .labelled m _ _ _ D d c _ => LVStep m D d c
  | .sparseHist _ _ c le => HVStep c le
  | .denseHist cells le => HDStep cells le

/-- A new field. -/
def Part.init : (p : Part) → p.S
  | .word v0 => Mem.new v0
  | .float v0 => FloatSys.new v0
  | .histogram le => HistSys.new le.length
  | .sparse _ _ _ _ => SSys.new
  | .dense _ _ => DSys.new
  | .labelled _ _ _ _ _ _ _ h => LVSys.new h
  | .sparseHist _ _ _ le => HVSys.new le.length
  | .denseHist _ le => HDSys.new le.length

/-- A step of one thread on one field. -/
inductive RegStep {n : Nat} (parts : Fin n → Part) :
    (∀ i, (parts i).S) → (Σ i, (parts i).E) → (∀ i, (parts i).S) → Prop where
  | on (s : ∀ i, (parts i).S) (i : Fin n) (e : (parts i).E) (x : (parts i).S) (h : (parts i).Step (s i) e x) :
    RegStep parts s ⟨i, e⟩ (Function.update s i x)

/-! ## The collecting thread -/

/-- A metric field, with what its `collect_family_into` does in this scrape. `name` has its namespaces.
derive/src/metric_group/to_tokens.rs:51-95 -/
structure ScrapeField where
  name : Name
  docs : List (List Char)
  run : ∀ {E : Type}, Encoder E → Name → RS E Unit

/-- `Metric::collect_family_into` that has read the metric as `x`. core/src/metric.rs:434-441 -/
def singleEncode {E : Type} (x : Metric) (enc : Encoder E) (n : Name) : RS E Unit := do
  enc.type x.kind n
  enc.sample x [] n

/-- The generated `collect_group_into`, for the metric fields in order. derive/src/metric_group/to_tokens.rs:51-95 -/
def regCollect {E : Type} (enc : Encoder E) : List ScrapeField → RS E Unit
  | [] => pure ()
  | f :: fs => do
    writeDocHelp enc f.name f.docs
    f.run enc f.name
    regCollect enc fs

end Measured.Conc
