import Verif.Model.Registry
import Verif.Spec.Concurrent
import Verif.Props.ConcScrape
import Verif.Props.HistConc
import Verif.Spec.ProtoFamily
import Verif.Spec.LabelledVec
import Verif.Spec.Group
import Verif.Spec.LabelLaws
import Verif.Spec.HistDense

/-!
# Specification: what a scrape of a whole group may show while other threads work
-/

namespace Measured.Spec
open Measured.Conc

/-! ## The kinds of metrics in vectors -/

/-- Counters, gauges, float gauges, and histograms with the given bounds. -/
inductive MKind where
  | counter
  | gauge
  | float
  | histogram (le : List F64)

namespace MKind

/-- The calls. -/
@[reducible] def Call : MKind → Type
  | .counter => CounterCall
  | .gauge => GaugeCall
  | .float => FloatCall
  | .histogram _ => HistCall

/-- What calls add up to: a number, or a list of observations. -/
@[reducible] def Val : MKind → Type
  | .counter => Nat
  | .gauge => Int
  | .float => F64
  | .histogram _ => List F64

/-- The states in the program. -/
@[reducible] def State : MKind → Type
  | .counter => Nat
  | .gauge => Int
  | .float => F64
  | .histogram _ => HistInner

def ops (m : Mode) : (k : MKind) → MetricOps k.Call k.State
  | .counter => counterOps m
  | .gauge => gaugeOps m
  | .float => floatOps
  | .histogram le => histOps le

def view : (k : MKind) → k.State → Metric
  | .counter => .counter
  | .gauge => .gauge
  | .float => .floatGauge
  | .histogram le => .histogram le

def kind : MKind → Kind
  | .counter => .counter
  | .gauge => .gauge
  | .float => .floatGauge
  | .histogram _ => .histogram

def zero : (k : MKind) → k.Val
  | .counter => (0 : Nat)
  | .gauge => (0 : Int)
  | .float => F64.pzero
  | .histogram _ => ([] : List F64)

def apply : (k : MKind) → k.Call → k.Val → k.Val
  | .counter => CounterCall.apply
  | .gauge => GaugeCall.apply
  | .float => FloatCall.apply
  | .histogram _ => HistCall.apply

/-- The lines of a series with the given value. -/
def shown : (k : MKind) → Bytes → Labels → k.Val → List Expected
  | .counter => shownCounter
  | .gauge => shownGauge
  | .float => shownFloat
  | .histogram le => shownHistogram le

/-- The value in a protobuf message: the nearest double, in the field of the type. (There are no histograms.) -/
def proto : (k : MKind) → k.Val → PMetric → Prop
  | .counter => fun v p => p.counter = some (some (F64.ofNat v)) ∧ p.gauge = none
  | .gauge => fun v p => p.gauge = some (some (F64.ofInt v)) ∧ p.counter = none
  | .float => fun v p => p.gauge = some (some v) ∧ p.counter = none
  | .histogram _ => fun _ _ => False

/-- Bounds in ascending order. -/
def Ok : MKind → Prop
  | .histogram le => NonDecreasing le ∧ ∀ b ∈ le, b.isNaN = false
  | _ => True

/-- The arguments are of their types; no NaN is observed. -/
def CallOk : (k : MKind) → k.Call → Prop
  | .counter => CounterCall.Ok
  | .gauge => GaugeCall.Ok
  | .float => fun _ => True
  | .histogram _ => fun c => (HistCall.value c).isNaN = false

/-- The number can be shown; there are not too many observations. -/
def Fits : (k : MKind) → k.Val → Prop
  | .counter => fun v => v < 2 ^ 63
  | .gauge => InI64
  | .float => fun _ => True
  | .histogram _ => fun xs => xs.length < 2 ^ 63

end MKind

/-! ## What a family must be -/

/-- What is said about a family: it is that of a field with the given name and documentation; it has entries for keys;
an entry shows the value as it `was` at some moment, and no key is left out that was `there`. A metric that is not in a
vector has the only key `()`. -/
structure Claim : Type 1 where
  K : Type
  k : MKind
  name : Name
  docs : List (List Char)
  labels : K → Labels
  was : K → k.Val → Prop
  there : K → Prop

/-- Entries that are as they must be: none twice, all true, none missing. -/
def Claim.Entries (c : Claim) (l : List (c.K × c.k.Val)) : Prop :=
  (l.map Prod.fst).Nodup ∧ (∀ q ∈ l, c.was q.1 q.2) ∧ ∀ x, c.there x → x ∈ l.map Prod.fst

/-- A family read from the text. -/
def Claim.text (rf : Bytes → Option F64) (c : Claim) (g : Family) : Prop :=
  ∃ l ss, c.Entries l ∧ g = ⟨c.name.text, docHelp c.docs, some (kindWord c.k.kind), ss⟩ ∧
    List.Forall₂ (SampleReads rf) (l.flatMap fun q => c.k.shown c.name.text (c.labels q.1) q.2) ss

/-- A family read from a protobuf message. -/
def Claim.message (rf : Bytes → Option F64) (c : Claim) (g : PFamily) : Prop :=
  ∃ l ms, c.Entries l ∧ g = ⟨some c.name.text, docHelp c.docs, some (kindCode c.k.kind), ms⟩ ∧
    List.Forall₂ (fun q p => (∃ texts, LabelsRead rf (c.labels q.1) texts ∧
      p.labels = texts.map fun t => ⟨some t.1, some t.2⟩) ∧ c.k.proto q.2 p) l ms

/-- The word after some of the updates so far, in an order that agrees with each thread's; the others are not from the
reader `t`. -/
def WordWas (t : Tid) (v0 : Nat) (tr : List IntEvent) (w : Int) : Prop :=
  ∃ seen rest, Linearises (intUpdates tr) (seen ++ rest) ∧ (∀ u ∈ rest, u.1 ≠ t) ∧
    w = seen.foldl (fun v u => IntOp.on v u.2) (v0 : Int)

def FloatWas (t : Tid) (v0 : F64) (tr : List FloatEvent) (v : F64) : Prop :=
  ∃ seen rest, Linearises (floatEffects tr) (seen ++ rest) ∧ (∀ u ∈ rest, u.1 ≠ t) ∧
    v = seen.foldl (fun v u => FloatOp.on v u.2) v0

/-! ## Fields in use -/

/-- `FieldInUse t p tr f c`: in the run `tr` of the field `p`, thread `t` collects it; `f` is what it then gives its
encoder, and `c` is what the family must be. -/
inductive FieldInUse (t : Tid) : (p : Part) → List p.E → ScrapeField → Claim → Prop where
  /-- a counter, read as `v` -/
  | counter (v0 v : Nat) (tr tr' : List IntEvent) (name : Name) (docs : List (List Char)) (hfit : v < 2 ^ 63) :
    FieldInUse t (.word v0) (tr ++ .read t v :: tr') ⟨name, docs, singleEncode (.counter v)⟩
      ⟨Unit, .counter, name, docs, fun _ => [], fun _ (a : Nat) => WordWas t v0 tr a, fun _ => True⟩
  /-- a gauge; the word is the two's complement of what is shown -/
  | gauge (v0 v : Nat) (tr tr' : List IntEvent) (name : Name) (docs : List (List Char)) :
    FieldInUse t (.word v0) (tr ++ .read t v :: tr') ⟨name, docs, singleEncode (.gauge (asI64Wrap v))⟩
      ⟨Unit, .gauge, name, docs, fun _ => [], fun _ (a : Int) => InI64 a ∧ ∃ w, WordWas t v0 tr w ∧ a % 2 ^ 64 = w % 2 ^ 64,
        fun _ => True⟩
  /-- a float gauge -/
  | float (v0 v : F64) (tr tr' : List FloatEvent) (name : Name) (docs : List (List Char)) :
    FieldInUse t (.float v0) (tr ++ .read t v :: tr') ⟨name, docs, singleEncode (.floatGauge v)⟩
      ⟨Unit, .float, name, docs, fun _ => [], fun _ => FloatWas t v0 tr, fun _ => True⟩
  /-- a histogram; the sample has exactly the observations that are over -/
  | histogram (le : List F64) (out : List Nat) (inf : Nat) (sum : F64) (tr tr' : List HistEvent) (name : Name)
      (docs : List (List Char)) (hle : NonDecreasing le) (hnan : ∀ b ∈ le, b.isNaN = false)
      (hok : ∀ x ∈ completed tr, x.isNaN = false) (hfit : (completed tr).length < 2 ^ 63) :
    FieldInUse t (.histogram le) (tr ++ .sample t (out, inf, sum) :: tr')
      ⟨name, docs, singleEncode (.histogram le ⟨out, inf, sum⟩)⟩
      ⟨Unit, .histogram le, name, docs, fun _ => [], fun _ (xs : List F64) => xs.Perm (completed tr), fun _ => True⟩
  /-- a sparse vector -/
  | sparse (m : Mode) (K : Type) (inst : DecidableEq K) (c : ShardConf K) (k : MKind) (labels : K → Labels)
      (tr₁ tr₂ tr₃ : List (SEvent K k.Call)) (acc : List (K × List k.Call)) (name : Name) (docs : List (List Char))
      (hc : ∀ x, c.shardOf x < c.n) (hk : k.Ok) (hone : .startPass t ∉ tr₂)
      (hok : ∀ v x u, .update v x u ∈ tr₁ ++ tr₂ → k.CallOk u)
      (hfit : ∀ p x us, p <+: tr₂ → mapOf (tr₁ ++ .startPass t :: p) x = some us →
        (∀ l ∈ labels x, LabelNameRe l.1) ∧ k.Fits (sumUp k.apply k.zero us)) :
    FieldInUse t (.sparse K k.Call inst c) (tr₁ ++ .startPass t :: tr₂ ++ .endPass t acc :: tr₃)
      ⟨name, docs, fun enc n => passEncode enc n k.kind labels k.view (k.ops m) (emitted t tr₂)⟩
      ⟨K, k, name, docs, labels, SparseWas t tr₁ tr₂ k.zero k.apply, SparseThere t tr₁ tr₂⟩
  /-- a dense vector -/
  | dense (m : Mode) (cells : Nat) (k : MKind) (labels : Nat → Labels) (tr₁ tr₂ tr₃ : List (DEvent k.Call)) (name : Name)
      (docs : List (List Char)) (hk : k.Ok) (hone : .startPass t ∉ tr₂)
      (hok : ∀ v i o u, .update v i o u ∈ tr₁ ++ tr₂ → k.CallOk u) (hlab : ∀ i, ∀ l ∈ labels i, LabelNameRe l.1)
      (hfit : ∀ i us, us <+: denseUpdates i (tr₁ ++ .startPass t :: tr₂) → k.Fits (sumUp k.apply k.zero us)) :
    FieldInUse t (.dense k.Call cells) (tr₁ ++ .startPass t :: tr₂ ++ .endPass t :: tr₃)
      ⟨name, docs, fun enc n => passEncode enc n k.kind labels k.view (k.ops m) (denseEmitted t tr₂)⟩
      ⟨Nat, k, name, docs, labels, DenseWas t tr₁ tr₂ k.zero k.apply, DenseThere t tr₁⟩
  /-- a sparse vector together with its label set; the entries are for label groups -/
  | labelled (m m' : Mode) (S V : Type) (D : DynSet S V) (d : GroupDef V) (c : ShardConf (Nat × List Nat)) (h : Heap S)
      (inv : S → Prop) (le : S → S → Prop) (valid : S → Nat → Prop) (k : MKind) (labels : d.Group → Labels)
      (tr₁ tr₂ tr₃ : List (LVEvent V k.Call d.n)) (acc : List ((Nat × List Nat) × List k.Call)) (name : Name)
      (docs : List (List Char)) (L : DynSetLaws D inv le valid) (hl : FieldsLawful FixedSetLaws d) (hf : Spec.Fits d)
      (hh : ∀ r, inv (h r)) (hc : ∀ x, c.shardOf x < c.n) (hk : k.Ok) (hone : .vec (.startPass t) ∉ tr₂)
      (hok : ∀ v x u, .vec (.update v x u) ∈ tr₁ ++ tr₂ → k.CallOk u) (hlab : ∀ g, ∀ l ∈ labels g, LabelNameRe l.1)
      (hfit : ∀ p x us, p <+: vecEvents tr₂ → mapOf (vecEvents tr₁ ++ .startPass t :: p) x = some us →
        k.Fits (sumUp k.apply k.zero us)) :
    FieldInUse t (.labelled m S V k.Call D d c h) (tr₁ ++ .vec (.startPass t) :: tr₂ ++ .vec (.endPass t acc) :: tr₃)
      ⟨name, docs, fun enc n => passEncode enc n k.kind labels k.view (k.ops m') (shownBy t tr₂)⟩
      ⟨d.Group, k, name, docs, labels, GroupWas t tr₁ tr₂ k.zero k.apply, GroupThere t tr₁ tr₂⟩
  /-- a sparse vector of histograms, step by step; an entry shows the observations that were over -/
  | sparseHist (K : Type) (inst : DecidableEq K) (c : ShardConf K) (le : List F64) (labels : K → Labels)
      (tr₁ tr₂ tr₃ : List (HVEvent K)) (acc : List (K × List Empty)) (name : Name) (docs : List (List Char))
      (hc : ∀ x, c.shardOf x < c.n) (hle : NonDecreasing le) (hnan : ∀ b ∈ le, b.isNaN = false)
      (hone : .vec (.startPass t) ∉ tr₂) (hok : ∀ v x u y, .observe v x (.done u y) ∈ tr₁ ++ tr₂ → y.isNaN = false)
      (hfit : ∀ p x xs, p <+: tr₂ → finishedOf (tr₁ ++ .vec (.startPass t) :: p) x = some xs →
        (∀ l ∈ labels x, LabelNameRe l.1) ∧ xs.length < 2 ^ 63) :
    FieldInUse t (.sparseHist K inst c le) (tr₁ ++ .vec (.startPass t) :: tr₂ ++ .vec (.endPass t acc) :: tr₃)
      ⟨name, docs, fun enc n => hvEncode enc n labels le (hvEmitted t tr₂)⟩
      ⟨K, .histogram le, name, docs, labels, HVWas t tr₁ tr₂, HVThere t tr₁ tr₂⟩
  /-- a dense vector of histograms, step by step -/
  | denseHist (cells : Nat) (le : List F64) (labels : Nat → Labels) (tr₁ tr₂ tr₃ : List HDEvent) (name : Name)
      (docs : List (List Char)) (hle : NonDecreasing le) (hnan : ∀ b ∈ le, b.isNaN = false)
      (hone : .vec (.startPass t) ∉ tr₂) (hok : ∀ v i u y, .observe v i (.done u y) ∈ tr₁ ++ tr₂ → y.isNaN = false)
      (hlab : ∀ i, ∀ l ∈ labels i, LabelNameRe l.1) (hfit : ∀ i, (hdFinished i (tr₁ ++ tr₂)).length < 2 ^ 63) :
    FieldInUse t (.denseHist cells le) (tr₁ ++ .vec (.startPass t) :: tr₂ ++ .vec (.endPass t) :: tr₃)
      ⟨name, docs, fun enc n => hvEncode enc n labels le (hdEmitted t tr₂)⟩
      ⟨Nat, .histogram le, name, docs, labels, HDWas t tr₁ tr₂, HDThere t tr₁⟩

/-- What happened on field `i`. -/
def onField {n : Nat} {parts : Fin n → Part} (i : Fin n) : List (Σ i, (parts i).E) → List (parts i).E
  | [] => []
  | ⟨j, e⟩ :: tr => if h : j = i then (h ▸ e) :: onField i tr else onField i tr

/-! ## The size of a scrape -/

/-- An encoder that notes its calls. -/
def notebook : Encoder (List EncCall) where
  help n t := fun l => (.ok (), l ++ [.help n t])
  type k n := fun l => (.ok (), l ++ [.type k n])
  sample x ls n := fun l => (.ok (), l ++ [.sample x ls n])

/-- An upper bound for the bytes that a field takes; `text` gives the text of label values. -/
def fieldSize (text : LVal → Bytes) (f : ScrapeField) : Nat :=
  64 + f.name.text.length + ((docHelp f.docs).getD []).length + ((f.run notebook f.name []).2.map fun
    | .sample x ls _ => sampleSize text (ls, x)
    | _ => 0).sum

end Measured.Spec
