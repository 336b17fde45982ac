import Verif.Spec.Process
import Verif.Spec.Tokio
import Verif.Spec.ProtoCalls

/-!
# Specification: what a protobuf scrape of the process and runtime collectors should show

The same as the text: the same series with the same values. `io.prometheus.client` is a proto2 file, so a family
without a type reads as one of type `COUNTER`, the first value of the enumeration.
-/

namespace Measured.Spec

/-- The type that a proto2 reader sees. -/
def PFamily.typeRead (g : PFamily) : Nat := g.type.getD 0

/-- A metric has a value of type `t`: the counter for `COUNTER`, the gauge for `GAUGE`. -/
def PMetric.valueOf (t : Nat) (p : PMetric) : Option F64 :=
  if t = 0 then p.counter.join else if t = 1 then p.gauge.join else none

/-- A fact about a process: a family without a type, with one gauge without labels. -/
def Fact.proto (f : Fact) : PFamily :=
  ⟨some f.name, some f.help, none, [⟨[], some (some (F64.ofInt f.value)), none⟩]⟩

/-- The samples of all runtimes in a family, under the labels shown. -/
def RtFamily.shown (rts : List RtCollector) (f : RtFamily) : List (Labels × Metric) :=
  rts.flatMap fun c => (f.samples c.runtime).map fun s => (runtimeLabel c.name ++ s.labels, s.value)

/-- The message of a family of the runtime collectors. -/
structure RtFamilyReads (rf : Bytes → Option F64) (rts : List RtCollector) (f : RtFamily) (g : PFamily) : Prop where
  name : g.name = some f.name
  help : g.help = some f.help
  type : g.type = none
  metrics : List.Forall₂ (ProtoSampleReads rf) (f.shown rts) g.metrics

/-- The families of a scrape that have samples. -/
def rtFamiliesShown (secs : Nat → F64) (net : Bool) (rts : List RtCollector) : List RtFamily :=
  (rtFamilies secs net).filter fun f => !(f.shown rts).isEmpty

end Measured.Spec
