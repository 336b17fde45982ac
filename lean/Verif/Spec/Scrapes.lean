import Verif.Spec.Registry

/-!
# Specification: two scrapes of a whole group, one after the other
-/

namespace Measured.Spec
open Measured.Conc

namespace MKind

/-- What a value of the first scrape may be in the second: counters grow; a histogram keeps its observations and gets
more of them. -/
def Later : (k : MKind) → k.Val → k.Val → Prop
  | .counter => fun a b : Nat => a ≤ b
  | .gauge => fun _ _ => True
  | .float => fun _ _ => True
  | .histogram _ => fun xs ys : List F64 => xs <+: ys

/-- Two values on lines of the same series. The counters and the counts of histograms do not go down; nor do the sums of
histograms, if none of the observations `ys` that the second is about is negative. -/
def NoLess : (k : MKind) → k.Val → Spec.Val → Spec.Val → Prop
  | .counter, _, .int u, .int w => u ≤ w
  | .histogram _, _, .int u, .int w => u ≤ w
  | .histogram _, ys, .float u, .float w => (∀ y ∈ (ys : List F64), F64.fle F64.pzero y = true) → F64.fle u w = true
  | .gauge, _, .int _, .int _ => True
  | .float, _, .float _, .float _ => True
  | _, _, _, _ => False

end MKind

/-- The same family, in a later scrape. -/
@[reducible] def Claim.again (c : Claim) (was : c.K → c.k.Val → Prop) (there : c.K → Prop) : Claim :=
  ⟨c.K, c.k, c.name, c.docs, c.labels, was, there⟩

/-- Every sample of the first family is about some key. If that key has been kept, the second family has a sample with the
same name and labels, whose value is not less. -/
def Claim.GoesOn (rf : Bytes → Option F64) (c : Claim) (was : c.K → c.k.Val → Prop) (kept : c.K → Prop)
    (g g' : Family) : Prop :=
  ∀ s ∈ g.samples, ∃ x a e, c.was x a ∧ e ∈ c.k.shown c.name.text (c.labels x) a ∧ SampleReads rf e s ∧
    (kept x → ∃ b, was x b ∧ c.k.Later a b ∧ ∃ s' ∈ g'.samples, s'.name = s.name ∧ LabelsRead rf e.labels s'.labels ∧
      c.k.NoLess b s.value s'.value)

/-- The same for the messages of a protobuf scrape, where counters are doubles. A family without entries is left out, so
the second one is there only if an entry has been kept. -/
def Claim.GoesOnMessage (rf : Bytes → Option F64) (c : Claim) (was : c.K → c.k.Val → Prop) (kept : c.K → Prop)
    (g g' : Option PFamily) : Prop :=
  ∀ f, g = some f → ∀ p ∈ f.metrics, ∃ x a texts, c.was x a ∧ LabelsRead rf (c.labels x) texts ∧
    p.labels = texts.map (fun t => ⟨some t.1, some t.2⟩) ∧ c.k.proto a p ∧
    (kept x → ∃ b, was x b ∧ c.k.Later a b ∧ ∃ f', g' = some f' ∧ ∃ p' ∈ f'.metrics, ∃ texts',
      LabelsRead rf (c.labels x) texts' ∧ p'.labels = texts'.map (fun t => ⟨some t.1, some t.2⟩) ∧ c.k.proto b p' ∧
      ∀ u, p.counter = some (some u) → ∃ w, p'.counter = some (some w) ∧ F64.fle u w = true)

/-- `FieldTwice t t' p tr f f' c was there kept`: in the run `tr` of the field `p`, thread `t` collects it and gives its
encoder `f`; when that is over, thread `t'` does it again and gives its encoder `f'`. The first family must be as in `c`,
the second as in `c.again was there`. The keys in `kept` have not been removed in between. -/
inductive FieldTwice (t t' : Tid) : (p : Part) → List p.E → ScrapeField → ScrapeField → (c : Claim) →
    (c.K → c.k.Val → Prop) → (c.K → Prop) → (c.K → Prop) → Prop where
  /-- a counter that is only incremented and does not overflow -/
  | counter (v0 v w : Nat) (tr tr₁ tr₂ tr₃ : List IntEvent) (name : Name) (docs : List (List Char))
      (htr : tr = tr₁ ++ .read t v :: tr₂ ++ .read t' w :: tr₃) (hfit : v < 2 ^ 63) (hfit' : w < 2 ^ 63)
      (hsync : t' = t ∨ .sync t' t ∈ tr₂) (hadd : ∀ a ∈ intUpdates (tr₁ ++ tr₂), ∃ x, a.2 = .add x)
      (hov : v0 + netChange (intUpdates (tr₁ ++ tr₂)) < 2 ^ 64) :
    FieldTwice t t' (.word v0) tr ⟨name, docs, singleEncode (.counter v)⟩ ⟨name, docs, singleEncode (.counter w)⟩
      ⟨Unit, .counter, name, docs, fun _ => [], fun _ (a : Nat) => WordWas t v0 tr₁ a, fun _ => True⟩
      (fun _ (a : Nat) => WordWas t' v0 (tr₁ ++ .read t v :: tr₂) a) (fun _ => True) (fun _ => True)
  | gauge (v0 v w : Nat) (tr tr₁ tr₂ tr₃ : List IntEvent) (name : Name) (docs : List (List Char))
      (htr : tr = tr₁ ++ .read t v :: tr₂ ++ .read t' w :: tr₃) :
    FieldTwice t t' (.word v0) tr ⟨name, docs, singleEncode (.gauge (asI64Wrap v))⟩
      ⟨name, docs, singleEncode (.gauge (asI64Wrap w))⟩
      ⟨Unit, .gauge, name, docs, fun _ => [],
        fun _ (a : Int) => InI64 a ∧ ∃ w, WordWas t v0 tr₁ w ∧ a % 2 ^ 64 = w % 2 ^ 64, fun _ => True⟩
      (fun _ (a : Int) => InI64 a ∧ ∃ w, WordWas t' v0 (tr₁ ++ .read t v :: tr₂) w ∧ a % 2 ^ 64 = w % 2 ^ 64)
      (fun _ => True) (fun _ => True)
  | float (v0 v w : F64) (tr tr₁ tr₂ tr₃ : List FloatEvent) (name : Name) (docs : List (List Char))
      (htr : tr = tr₁ ++ .read t v :: tr₂ ++ .read t' w :: tr₃) :
    FieldTwice t t' (.float v0) tr ⟨name, docs, singleEncode (.floatGauge v)⟩ ⟨name, docs, singleEncode (.floatGauge w)⟩
      ⟨Unit, .float, name, docs, fun _ => [], fun _ => FloatWas t v0 tr₁, fun _ => True⟩
      (fun _ => FloatWas t' v0 (tr₁ ++ .read t v :: tr₂)) (fun _ => True) (fun _ => True)
  | histogram (le : List F64) (out out' : List Nat) (inf inf' : Nat) (sum sum' : F64) (tr tr₁ tr₂ tr₃ : List HistEvent)
      (name : Name) (docs : List (List Char))
      (htr : tr = tr₁ ++ .sample t (out, inf, sum) :: tr₂ ++ .sample t' (out', inf', sum') :: tr₃)
      (hle : NonDecreasing le) (hnan : ∀ b ∈ le, b.isNaN = false)
      (hok : ∀ x ∈ completed (tr₁ ++ tr₂), x.isNaN = false) (hfit : (completed (tr₁ ++ tr₂)).length < 2 ^ 63) :
    FieldTwice t t' (.histogram le) tr ⟨name, docs, singleEncode (.histogram le ⟨out, inf, sum⟩)⟩
      ⟨name, docs, singleEncode (.histogram le ⟨out', inf', sum'⟩)⟩
      ⟨Unit, .histogram le, name, docs, fun _ => [], fun _ (xs : List F64) => xs.Perm (completed tr₁), fun _ => True⟩
      (fun _ (xs : List F64) => xs.Perm (completed (tr₁ ++ tr₂))) (fun _ => True) (fun _ => True)
  /-- a sparse vector, where some keys may be removed -/
  | sparse (m : Mode) (K : Type) (inst : DecidableEq K) (sc : ShardConf K) (k : MKind) (labels : K → Labels)
      (tr tr₁ a mid b tr₃ : List (SEvent K k.Call)) (acc acc' : List (K × List k.Call)) (name : Name)
      (docs : List (List Char))
      (htr : tr = tr₁ ++ .startPass t :: a ++ .endPass t acc :: mid ++ .startPass t' :: b ++ .endPass t' acc' :: tr₃)
      (hc : ∀ x, sc.shardOf x < sc.n) (hk : k.Ok) (hone : .startPass t ∉ a) (hone' : .startPass t' ∉ b)
      (hok : ∀ v x u, .update v x u ∈ tr → k.CallOk u)
      (hfit : ∀ p x us, p <+: tr → mapOf p x = some us →
        (∀ l ∈ labels x, LabelNameRe l.1) ∧ k.Fits (sumUp k.apply k.zero us)) :
    FieldTwice t t' (.sparse K k.Call inst sc) tr
      ⟨name, docs, fun enc n => passEncode enc n k.kind labels k.view (k.ops m) (emitted t a)⟩
      ⟨name, docs, fun enc n => passEncode enc n k.kind labels k.view (k.ops m) (emitted t' b)⟩
      ⟨K, k, name, docs, labels, SparseWas t tr₁ a k.zero k.apply, SparseThere t tr₁ a⟩
      (SparseWas t' (tr₁ ++ .startPass t :: a ++ .endPass t acc :: mid) b k.zero k.apply)
      (SparseThere t' (tr₁ ++ .startPass t :: a ++ .endPass t acc :: mid) b)
      (fun x => ∀ v r, .remove v x (some r) ∉ a ++ mid ++ b)
  /-- a dense vector, collected the second time by a thread that knows what the first knew when it was done -/
  | dense (m : Mode) (cells : Nat) (k : MKind) (labels : Nat → Labels) (tr tr₁ a mid b tr₃ : List (DEvent k.Call))
      (name : Name) (docs : List (List Char))
      (htr : tr = tr₁ ++ .startPass t :: a ++ .endPass t :: mid ++ .startPass t' :: b ++ .endPass t' :: tr₃)
      (hk : k.Ok) (hone : .startPass t ∉ a) (hone' : .startPass t' ∉ b) (hinf : Informed t t' mid)
      (hok : ∀ v i o u, .update v i o u ∈ tr → k.CallOk u) (hlab : ∀ i, ∀ l ∈ labels i, LabelNameRe l.1)
      (hfit : ∀ i us, us <+: denseUpdates i tr → k.Fits (sumUp k.apply k.zero us)) :
    FieldTwice t t' (.dense k.Call cells) tr
      ⟨name, docs, fun enc n => passEncode enc n k.kind labels k.view (k.ops m) (denseEmitted t a)⟩
      ⟨name, docs, fun enc n => passEncode enc n k.kind labels k.view (k.ops m) (denseEmitted t' b)⟩
      ⟨Nat, k, name, docs, labels, DenseWas t tr₁ a k.zero k.apply, DenseThere t tr₁⟩
      (DenseWas t' (tr₁ ++ .startPass t :: a ++ .endPass t :: mid) b k.zero k.apply)
      (DenseThere t' (tr₁ ++ .startPass t :: a ++ .endPass t :: mid)) (fun _ => True)
  /-- a sparse vector together with its label set, where some groups may be removed -/
  | labelled (m m' : Mode) (S V : Type) (D : DynSet S V) (d : GroupDef V) (sc : ShardConf (Nat × List Nat)) (h : Heap S)
      (inv : S → Prop) (le : S → S → Prop) (valid : S → Nat → Prop) (k : MKind) (labels : d.Group → Labels)
      (tr tr₁ a mid b tr₃ : List (LVEvent V k.Call d.n)) (acc acc' : List ((Nat × List Nat) × List k.Call)) (name : Name)
      (docs : List (List Char))
      (htr : tr = tr₁ ++ .vec (.startPass t) :: a ++ .vec (.endPass t acc) :: mid ++ .vec (.startPass t') :: b ++
        .vec (.endPass t' acc') :: tr₃)
      (L : DynSetLaws D inv le valid) (hl : FieldsLawful FixedSetLaws d) (hf : Spec.Fits d) (hh : ∀ r, inv (h r))
      (hc : ∀ x, sc.shardOf x < sc.n) (hk : k.Ok) (hone : .vec (.startPass t) ∉ a) (hone' : .vec (.startPass t') ∉ b)
      (hok : ∀ v x u, .vec (.update v x u) ∈ tr → k.CallOk u) (hlab : ∀ g, ∀ l ∈ labels g, LabelNameRe l.1)
      (hfit : ∀ p x us, p <+: vecEvents tr → mapOf p x = some us → k.Fits (sumUp k.apply k.zero us)) :
    FieldTwice t t' (.labelled m S V k.Call D d sc h) tr
      ⟨name, docs, fun enc n => passEncode enc n k.kind labels k.view (k.ops m') (shownBy t a)⟩
      ⟨name, docs, fun enc n => passEncode enc n k.kind labels k.view (k.ops m') (shownBy t' b)⟩
      ⟨d.Group, k, name, docs, labels, GroupWas t tr₁ a k.zero k.apply, GroupThere t tr₁ a⟩
      (GroupWas t' (tr₁ ++ .vec (.startPass t) :: a ++ .vec (.endPass t acc) :: mid) b k.zero k.apply)
      (GroupThere t' (tr₁ ++ .vec (.startPass t) :: a ++ .vec (.endPass t acc) :: mid) b)
      (fun g => ∀ x, HandedOut tr g x → ∀ v r, .vec (.remove v x (some r)) ∉ a ++ mid ++ b)
  /-- a sparse vector of histograms, step by step, where some keys may be removed -/
  | sparseHist (K : Type) (inst : DecidableEq K) (sc : ShardConf K) (le : List F64) (labels : K → Labels)
      (tr tr₁ a mid b tr₃ : List (HVEvent K)) (acc acc' : List (K × List Empty)) (name : Name) (docs : List (List Char))
      (htr : tr = tr₁ ++ .vec (.startPass t) :: a ++ .vec (.endPass t acc) :: mid ++ .vec (.startPass t') :: b ++
        .vec (.endPass t' acc') :: tr₃)
      (hc : ∀ x, sc.shardOf x < sc.n) (hle : NonDecreasing le) (hnan : ∀ b ∈ le, b.isNaN = false)
      (hone : .vec (.startPass t) ∉ a) (hone' : .vec (.startPass t') ∉ b)
      (hok : ∀ v x u y, .observe v x (.done u y) ∈ tr → y.isNaN = false)
      (hfit : ∀ p x xs, p <+: tr → finishedOf p x = some xs → (∀ l ∈ labels x, LabelNameRe l.1) ∧ xs.length < 2 ^ 63) :
    FieldTwice t t' (.sparseHist K inst sc le) tr
      ⟨name, docs, fun enc n => hvEncode enc n labels le (hvEmitted t a)⟩
      ⟨name, docs, fun enc n => hvEncode enc n labels le (hvEmitted t' b)⟩
      ⟨K, .histogram le, name, docs, labels, HVWas t tr₁ a, HVThere t tr₁ a⟩
      (HVWas t' (tr₁ ++ .vec (.startPass t) :: a ++ .vec (.endPass t acc) :: mid) b)
      (HVThere t' (tr₁ ++ .vec (.startPass t) :: a ++ .vec (.endPass t acc) :: mid) b)
      (fun x => ∀ v h, .removed v x h ∉ a ++ mid ++ b)
  /-- a dense vector of histograms, step by step, collected the second time by a thread that knows what the first knew when
  it was done -/
  | denseHist (cells : Nat) (le : List F64) (labels : Nat → Labels) (tr tr₁ a mid b tr₃ : List HDEvent) (name : Name)
      (docs : List (List Char))
      (htr : tr = tr₁ ++ .vec (.startPass t) :: a ++ .vec (.endPass t) :: mid ++ .vec (.startPass t') :: b ++
        .vec (.endPass t') :: tr₃)
      (hle : NonDecreasing le) (hnan : ∀ b ∈ le, b.isNaN = false) (hone : .vec (.startPass t) ∉ a)
      (hone' : .vec (.startPass t') ∉ b) (hinf : Informed t t' (hdVec mid))
      (hok : ∀ v i u y, .observe v i (.done u y) ∈ tr → y.isNaN = false) (hlab : ∀ i, ∀ l ∈ labels i, LabelNameRe l.1)
      (hfit : ∀ i, (hdFinished i tr).length < 2 ^ 63) :
    FieldTwice t t' (.denseHist cells le) tr
      ⟨name, docs, fun enc n => hvEncode enc n labels le (hdEmitted t a)⟩
      ⟨name, docs, fun enc n => hvEncode enc n labels le (hdEmitted t' b)⟩
      ⟨Nat, .histogram le, name, docs, labels, HDWas t tr₁ a, HDThere t tr₁⟩
      (HDWas t' (tr₁ ++ .vec (.startPass t) :: a ++ .vec (.endPass t) :: mid) b)
      (HDThere t' (tr₁ ++ .vec (.startPass t) :: a ++ .vec (.endPass t) :: mid)) (fun _ => True)

end Measured.Spec
