import Verif.Spec.Registry
import Verif.Props.Atomic
import Verif.Props.Group
import Verif.Props.Name
import Verif.Props.Proto
import Verif.Props.LabelledVec
import Verif.Props.HistDense

/-!
# C71: a scrape of a whole group in use
-/

namespace Measured
open Conc Spec Proto

/-! ## The fields do not disturb each other -/

theorem onField_append {n : Nat} {parts : Fin n → Part} (i : Fin n) (a b : List (Σ i, (parts i).E)) :
    onField i (a ++ b) = onField i a ++ onField i b := by
  induction a with
  | nil => rfl
  | cons e a ih =>
    obtain ⟨j, e⟩ := e
    simp only [List.cons_append, onField]
    split
    · rw [ih]; rfl
    · exact ih

/-- In a run of the whole, every field has a run of its own. -/
theorem reg_field {n : Nat} {parts : Fin n → Part} {tr : List (Σ i, (parts i).E)} {s : ∀ i, (parts i).S}
    (h : Exec (RegStep parts) (fun i => (parts i).init) tr s) (i : Fin n) :
    Exec (parts i).Step (parts i).init (onField i tr) (s i) := by
  induction h with
  | nil => exact .nil
  | @snoc tr s e s' _ hs ih =>
    rw [onField_append]
    cases hs with
    | on j e x hx =>
      by_cases hj : j = i
      · subst hj
        simp only [onField, ↓reduceDIte, Function.update_self]
        exact ih.snoc hx
      · simp only [onField, hj, ↓reduceDIte, List.append_nil]
        rw [Function.update_of_ne (Ne.symm hj)]
        exact ih

/-! ## From a field to a family -/

/-- The state of the program for a value. -/
def Spec.MKind.conc : (k : MKind) → k.Val → k.State
  | .counter => fun v : Nat => v % 2 ^ 64
  | .gauge => asI64Wrap
  | .float => id
  | .histogram le => histConc le

theorem mkind_follows (m : Mode) : (k : MKind) → Follows (k.ops m) k.CallOk k.conc k.zero k.apply
  | .counter => counter_follows m
  | .gauge => gauge_follows m
  | .float => float_follows
  | .histogram le =>
    ⟨(hist_follows le).zero, fun c a _ => (hist_follows le).shared c a trivial,
      fun c a _ => (hist_follows le).exclusive c a trivial⟩

theorem mkind_kind (k : MKind) (x : k.State) : (k.view x).kind = k.kind := by cases k <;> rfl

/-- What the encoder is given for the value shows it. -/
structure Spec.MKind.Right (k : MKind) (v : k.Val) : Prop where
  fits : Measured.Fits (k.view (k.conc v))
  text : ∀ n ls, expected n ls (k.view (k.conc v)) = k.shown n ls v
  proto : ∀ p, ProtoValueReads (k.view (k.conc v)) p → k.proto v p

theorem counter_right {v : Nat} (h : v < 2 ^ 63) : MKind.counter.Right v := by
  have : v % 2 ^ 64 = v := Nat.mod_eq_of_lt (by omega)
  refine ⟨?_, fun n ls => ?_, fun p hp => ?_⟩
  · show v % 2 ^ 64 < 2 ^ 63
    omega
  · show expected n ls (.counter (v % 2 ^ 64)) = shownCounter n ls v
    rw [this]; rfl
  · have hp : ProtoValueReads (.counter (v % 2 ^ 64)) p := hp
    rw [this] at hp
    exact hp

theorem gauge_right {v : Int} (h : InI64 v) : MKind.gauge.Right v := by
  have : asI64Wrap v = v := asI64Wrap_eq h
  refine ⟨trivial, fun n ls => ?_, fun p hp => ?_⟩
  · show expected n ls (.gauge (asI64Wrap v)) = shownGauge n ls v
    rw [this]; rfl
  · have hp : ProtoValueReads (.gauge (asI64Wrap v)) p := hp
    rw [this] at hp
    exact hp

theorem float_right (v : F64) : MKind.float.Right v := ⟨trivial, fun _ _ => rfl, fun _ hp => hp⟩

theorem hist_right {le : List F64} (hle : NonDecreasing le) (hnan : ∀ b ∈ le, b.isNaN = false) {xs : List F64}
    (hx : ∀ x ∈ xs, x.isNaN = false) (hf : xs.length < 2 ^ 63) : (MKind.histogram le).Right xs :=
  ⟨(histConc_shown hle hnan hx hf [] []).1, fun n ls => (histConc_shown hle hnan hx hf n ls).2, fun _ hp => hp.elim⟩

theorem mkind_right (k : MKind) (hk : k.Ok) (us : List k.Call) (hus : ∀ u ∈ us, k.CallOk u)
    (hf : k.Fits (sumUp k.apply k.zero us)) : k.Right (sumUp k.apply k.zero us) := by
  cases k with
  | counter => exact counter_right hf
  | gauge => exact gauge_right hf
  | float => exact float_right _
  | histogram le => exact hist_right hk.1 hk.2 (sumUp_noNaN hus) hf

/-- What the collecting thread does for the field is to write a family with the entries `l`, which are as they must be. -/
structure WritesFamily (f : ScrapeField) (c : Claim) (l : List (c.K × c.k.Val)) : Prop where
  name : c.name = f.name
  docs : c.docs = f.docs
  run : ∀ {E : Type} (enc : Encoder E), f.run enc f.name =
    enc.runAll (.type c.k.kind c.name :: l.map fun q => .sample (c.k.view (c.k.conc q.2)) (c.labels q.1) c.name)
  entries : c.Entries l
  labels : ∀ q ∈ l, LabelsOk (c.labels q.1)
  right : ∀ q ∈ l, c.k.Right q.2

/-- That family. -/
def Spec.Claim.fam (c : Claim) (l : List (c.K × c.k.Val)) : FamilyIn :=
  ⟨c.name, docHelp c.docs, c.k.kind, l.map fun q => (c.labels q.1, c.k.view (c.k.conc q.2))⟩

theorem single_writes (k : MKind) (name : Name) (docs : List (List Char)) (x : Metric) (a : k.Val) (was : k.Val → Prop)
    (hx : k.view (k.conc a) = x) (hr : k.Right a) (hw : was a) :
    WritesFamily ⟨name, docs, singleEncode x⟩ ⟨Unit, k, name, docs, fun _ => [], fun _ => was, fun _ => True⟩ [((), a)] where
  name := rfl
  docs := rfl
  run := fun enc => by
    subst hx
    simp only [List.map_cons, List.map_nil, runAll_cons, singleEncode, mkind_kind]
    exact congrArg _ (funext fun _ => (RS.bind_unit _).symm)
  entries := ⟨by simp, by simpa using hw, by simp⟩
  labels := by simp [LabelsOk]
  right := by simpa using hr

theorem pass_writes {K : Type} (m : Mode) (k : MKind) (hk : k.Ok) (name : Name) (docs : List (List Char))
    (labels : K → Labels) (l : List (K × List k.Call)) (hok : ∀ q ∈ l, ∀ u ∈ q.2, k.CallOk u)
    (hfit : ∀ q ∈ l, (∀ x ∈ labels q.1, LabelNameRe x.1) ∧ k.Fits (sumUp k.apply k.zero q.2))
    (was : K → k.Val → Prop) (there : K → Prop) (hn : (l.map Prod.fst).Nodup)
    (hw : ∀ q ∈ l, was q.1 (sumUp k.apply k.zero q.2)) (ht : ∀ x, there x → x ∈ l.map Prod.fst) :
    WritesFamily ⟨name, docs, fun enc n => passEncode enc n k.kind labels k.view (k.ops m) l⟩
      ⟨K, k, name, docs, labels, was, there⟩ (l.map fun q => (q.1, sumUp k.apply k.zero q.2)) where
  name := rfl
  docs := rfl
  run := fun enc => by
    simp only [passEncode]
    rw [passSamples_run enc name labels k.view (mkind_follows m k) l hok, runAll_cons]
    simp only [List.map_map]
    rfl
  entries := by
    refine ⟨by rw [List.map_map]; exact hn, ?_, ?_⟩
    · rintro ⟨x, a⟩ hq
      obtain ⟨q, hq', e⟩ := List.mem_map.1 hq
      cases e; exact hw q hq'
    · intro x hx
      rw [List.map_map]; exact ht x hx
  labels := by
    rintro ⟨x, a⟩ hq
    obtain ⟨q, hq', e⟩ := List.mem_map.1 hq
    cases e; exact (hfit q hq').1
  right := by
    rintro ⟨x, a⟩ hq
    obtain ⟨q, hq', e⟩ := List.mem_map.1 hq
    cases e; exact mkind_right k hk q.2 (hok q hq') (hfit q hq').2

theorem counter_writes {t : Tid} {v0 v : Nat} {tr tr' : List IntEvent} {x : Mem IntOp Nat}
    (he : Exec IntStep (Mem.new v0) (tr ++ .read t v :: tr') x) (name : Name) (docs : List (List Char)) (hfit : v < 2 ^ 63) :
    WritesFamily ⟨name, docs, singleEncode (.counter v)⟩
      ⟨Unit, .counter, name, docs, fun _ => [], fun _ (a : Nat) => WordWas t v0 tr a, fun _ => True⟩ [((), v)] := by
  obtain ⟨seen, rest, h1, h2, h3⟩ := C20_linear_read he
  refine single_writes .counter name docs (.counter v) v (fun a : Nat => WordWas t v0 tr a) ?_ (counter_right hfit)
    ⟨seen, rest, h1, h2, h3⟩
  show Metric.counter (v % 2 ^ 64) = _
  rw [Nat.mod_eq_of_lt (by omega)]

theorem gauge_writes {t : Tid} {v0 v : Nat} {tr tr' : List IntEvent} {x : Mem IntOp Nat}
    (he : Exec IntStep (Mem.new v0) (tr ++ .read t v :: tr') x) (name : Name) (docs : List (List Char)) :
    WritesFamily ⟨name, docs, singleEncode (.gauge (asI64Wrap v))⟩
      ⟨Unit, .gauge, name, docs, fun _ => [], fun _ (a : Int) => InI64 a ∧ ∃ w, WordWas t v0 tr w ∧ a % 2 ^ 64 = w % 2 ^ 64,
        fun _ => True⟩ [((), asI64Wrap v)] := by
  obtain ⟨seen, rest, h1, h2, h3⟩ := C20_linear_read he
  refine single_writes .gauge name docs (.gauge (asI64Wrap v)) (asI64Wrap v) _ ?_ (gauge_right (asI64Wrap_in _))
    ⟨asI64Wrap_in _, v, ⟨seen, rest, h1, h2, h3⟩, ?_⟩
  · show Metric.gauge (asI64Wrap (asI64Wrap v)) = _
    rw [asI64Wrap_eq (asI64Wrap_in _)]
  · unfold asI64Wrap; omega

theorem hist_writes {t : Tid} {le : List F64} {out : List Nat} {inf : Nat} {sum : F64} {tr tr' : List HistEvent} {x : HistSys}
    (he : Exec (HistStep le) (HistSys.new le.length) (tr ++ .sample t (out, inf, sum) :: tr') x) (name : Name)
    (docs : List (List Char)) (hle : NonDecreasing le) (hnan : ∀ b ∈ le, b.isNaN = false)
    (hok : ∀ x ∈ completed tr, x.isNaN = false) (hfit : (completed tr).length < 2 ^ 63) :
    WritesFamily ⟨name, docs, singleEncode (.histogram le ⟨out, inf, sum⟩)⟩
      ⟨Unit, .histogram le, name, docs, fun _ => [], fun _ (xs : List F64) => xs.Perm (completed tr), fun _ => True⟩
      [((), (sums tr).map Prod.snd)] := by
  obtain ⟨st, hp, hall, hr⟩ := sample_is he
  have hst : histConc le ((sums tr).map Prod.snd) = (⟨out, inf, sum⟩ : HistInner) := by
    have := (histConc_ok le ((sums tr).map Prod.snd)).1
    rw [hall] at this
    rw [← Out.ok.inj this]
    cases hr; rfl
  exact single_writes (.histogram le) name docs _ _ (fun xs : List F64 => xs.Perm (completed tr))
    (congrArg (Metric.histogram le) hst)
    (hist_right hle hnan (fun x hx => hok x (hp.subset hx)) (by rw [hp.length_eq]; exact hfit)) hp

theorem sparse_writes {t : Tid} (m : Mode) {K : Type} [DecidableEq K] {c : ShardConf K} (k : MKind) (labels : K → Labels)
    {tr₁ tr₂ tr₃ : List (SEvent K k.Call)} {acc : List (K × List k.Call)} {x : SSys K k.Call}
    (he : Exec (SStep c) SSys.new (tr₁ ++ .startPass t :: tr₂ ++ .endPass t acc :: tr₃) x)
    (name : Name) (docs : List (List Char))
    (hc : ∀ x, c.shardOf x < c.n) (hk : k.Ok) (hone : .startPass t ∉ tr₂)
    (hok : ∀ v x u, .update v x u ∈ tr₁ ++ tr₂ → k.CallOk u)
    (hfit : ∀ p x us, p <+: tr₂ → mapOf (tr₁ ++ .startPass t :: p) x = some us →
      (∀ l ∈ labels x, LabelNameRe l.1) ∧ k.Fits (sumUp k.apply k.zero us)) :
    WritesFamily ⟨name, docs, fun enc n => passEncode enc n k.kind labels k.view (k.ops m) (emitted t tr₂)⟩
      ⟨K, k, name, docs, labels, SparseWas t tr₁ tr₂ k.zero k.apply, SparseThere t tr₁ tr₂⟩
      ((emitted t tr₂).map fun q => (q.1, sumUp k.apply k.zero q.2)) := by
  obtain ⟨p1, p2, p3⟩ := C24_pass hc he hone
  refine pass_writes m k hk name docs labels (emitted t tr₂) ?_ ?_ _ _ p1 ?_ ?_
  · rintro ⟨x, us⟩ hq u hu
    obtain ⟨p, hp, hm⟩ := p2 x us hq
    obtain ⟨v, hv⟩ := mem_mapOf_update hm hu
    refine hok v x u ?_
    simp only [List.mem_append, List.mem_cons, reduceCtorEq, false_or] at hv ⊢
    exact hv.imp id fun hv => hp.subset hv
  · rintro ⟨x, us⟩ hq
    obtain ⟨p, hp, hm⟩ := p2 x us hq
    exact hfit p x us hp hm
  · rintro ⟨x, us⟩ hq
    obtain ⟨p, hp, hm⟩ := p2 x us hq
    exact ⟨p, us, hp, hm, rfl⟩
  · intro x hx
    obtain ⟨us, hus⟩ := p3 x hx
    exact List.mem_map.2 ⟨_, hus, rfl⟩

theorem dense_writes {t : Tid} (m : Mode) {cells : Nat} (k : MKind) (labels : Nat → Labels)
    {tr₁ tr₂ tr₃ : List (DEvent k.Call)} {x : DSys k.Call}
    (he : Exec (DStep cells) DSys.new (tr₁ ++ .startPass t :: tr₂ ++ .endPass t :: tr₃) x) (name : Name)
    (docs : List (List Char)) (hk : k.Ok) (hone : .startPass t ∉ tr₂)
    (hok : ∀ v i o u, .update v i o u ∈ tr₁ ++ tr₂ → k.CallOk u) (hlab : ∀ i, ∀ l ∈ labels i, LabelNameRe l.1)
    (hfit : ∀ i us, us <+: denseUpdates i (tr₁ ++ .startPass t :: tr₂) → k.Fits (sumUp k.apply k.zero us)) :
    WritesFamily ⟨name, docs, fun enc n => passEncode enc n k.kind labels k.view (k.ops m) (denseEmitted t tr₂)⟩
      ⟨Nat, k, name, docs, labels, DenseWas t tr₁ tr₂ k.zero k.apply, DenseThere t tr₁⟩
      ((denseEmitted t tr₂).map fun q => (q.1, sumUp k.apply k.zero q.2)) := by
  obtain ⟨p1, p2, p3⟩ := dense_pass he hone
  refine pass_writes m k hk name docs labels (denseEmitted t tr₂) ?_ ?_ _ _ (p1.imp fun h => Nat.ne_of_lt h) ?_ p3
  · rintro ⟨i, us⟩ hq u hu
    obtain ⟨v, o', hv⟩ := mem_denseUpdates ((p2 i us hq).1.subset hu)
    refine hok v i o' u ?_
    simpa using hv
  · rintro ⟨i, us⟩ hq
    exact ⟨hlab i, hfit i us (p2 i us hq).1⟩
  · rintro ⟨i, us⟩ hq
    obtain ⟨q1, q2⟩ := p2 i us hq
    exact ⟨us, q1, q2, rfl⟩

theorem labelled_writes {t : Tid} {m : Mode} (m' : Mode) {S V : Type} {D : DynSet S V} {d : GroupDef V}
    {c : ShardConf (Nat × List Nat)} {h : Heap S} {inv : S → Prop} {le : S → S → Prop} {valid : S → Nat → Prop} (k : MKind)
    (labels : d.Group → Labels) {tr₁ tr₂ tr₃ : List (LVEvent V k.Call d.n)} {acc : List ((Nat × List Nat) × List k.Call)}
    {x : LVSys S V k.Call d.n}
    (he : Exec (LVStep m D d c) (.new h) (tr₁ ++ .vec (.startPass t) :: tr₂ ++ .vec (.endPass t acc) :: tr₃) x)
    (name : Name) (docs : List (List Char)) (L : DynSetLaws D inv le valid) (hl : FieldsLawful FixedSetLaws d)
    (hf : Spec.Fits d) (hh : ∀ r, inv (h r)) (hc : ∀ x, c.shardOf x < c.n) (hk : k.Ok)
    (hone : .vec (.startPass t) ∉ tr₂) (hok : ∀ v x u, .vec (.update v x u) ∈ tr₁ ++ tr₂ → k.CallOk u)
    (hlab : ∀ g, ∀ l ∈ labels g, LabelNameRe l.1)
    (hfit : ∀ p x us, p <+: vecEvents tr₂ → mapOf (vecEvents tr₁ ++ .startPass t :: p) x = some us →
      k.Fits (sumUp k.apply k.zero us)) :
    WritesFamily ⟨name, docs, fun enc n => passEncode enc n k.kind labels k.view (k.ops m') (shownBy t tr₂)⟩
      ⟨d.Group, k, name, docs, labels, GroupWas t tr₁ tr₂ k.zero k.apply, GroupThere t tr₁ tr₂⟩
      ((shownBy t tr₂).map fun q => (q.1, sumUp k.apply k.zero q.2)) := by
  obtain ⟨p1, p2, p3⟩ := lv_pass L hl hf hc hh he hone
  refine pass_writes m' k hk name docs labels (shownBy t tr₂) ?_ ?_ _ _ p1 ?_ p3
  · rintro ⟨g, us⟩ hq u hu
    obtain ⟨⟨x, hx⟩, e⟩ := p2 g us hq
    obtain ⟨p, hp, hm⟩ := e x hx
    obtain ⟨v, hv⟩ := mem_mapOf_update hm hu
    refine hok v x u (List.mem_append.2 ?_)
    simp only [List.mem_append, List.mem_cons, reduceCtorEq, false_or] at hv
    exact hv.imp mem_vecEvents_update fun hv => mem_vecEvents_update (hp.subset hv)
  · rintro ⟨g, us⟩ hq
    obtain ⟨⟨x, hx⟩, e⟩ := p2 g us hq
    obtain ⟨p, hp, hm⟩ := e x hx
    exact ⟨hlab g, hfit p x us hp hm⟩
  · rintro ⟨g, us⟩ hq
    obtain ⟨e1, e2⟩ := p2 g us hq
    refine ⟨e1, fun x hx => ?_⟩
    obtain ⟨p, hp, hm⟩ := e2 x hx
    exact ⟨p, us, hp, hm, rfl⟩

/-- What the collecting thread does with samples of known observations. -/
theorem hists_write {K : Type} {le : List F64} (l : List (K × List F64)) {was : K → List F64 → Prop} {there : K → Prop}
    (p1 : (l.map Prod.fst).Nodup) (p2 : ∀ q ∈ l, was q.1 q.2) (p3 : ∀ k, there k → k ∈ l.map Prod.fst)
    (hle : NonDecreasing le) (hnan : ∀ b ∈ le, b.isNaN = false) (name : Name) (docs : List (List Char)) (labels : K → Labels)
    (hfit : ∀ k ys, was k ys → (∀ x ∈ labels k, LabelNameRe x.1) ∧ (∀ x ∈ ys, x.isNaN = false) ∧ ys.length < 2 ^ 63) :
    WritesFamily ⟨name, docs, fun enc n => hvEncode enc n labels le (l.map fun q => (q.1, (histConc le q.2).sample))⟩
      ⟨K, .histogram le, name, docs, labels, was, there⟩ l where
  name := rfl
  docs := rfl
  run := fun enc => by
    simp only [hvEncode]
    rw [runAll_cons]
    refine congrArg _ (funext fun _ => ?_)
    clear p1 p2 p3
    induction l with
    | nil => rfl
    | cons q l ih =>
      simp only [List.map_cons, hvSamples, runAll_cons]
      rw [ih]
      rfl
  entries := ⟨p1, p2, p3⟩
  labels := fun q hq => (hfit _ _ (p2 q hq)).1
  right := fun q hq => hist_right hle hnan (hfit _ _ (p2 q hq)).2.1 (hfit _ _ (p2 q hq)).2.2

theorem sparseHist_writes {t : Tid} {K : Type} [DecidableEq K] {c : ShardConf K} {le : List F64} (labels : K → Labels)
    {tr₁ tr₂ tr₃ : List (HVEvent K)} {acc : List (K × List Empty)} {x : HVSys K}
    (he : Exec (HVStep c le) (HVSys.new le.length) (tr₁ ++ .vec (.startPass t) :: tr₂ ++ .vec (.endPass t acc) :: tr₃) x)
    (name : Name) (docs : List (List Char)) (hc : ∀ x, c.shardOf x < c.n) (hle : NonDecreasing le)
    (hnan : ∀ b ∈ le, b.isNaN = false) (hone : .vec (.startPass t) ∉ tr₂)
    (hok : ∀ v x u y, .observe v x (.done u y) ∈ tr₁ ++ tr₂ → y.isNaN = false)
    (hfit : ∀ p x xs, p <+: tr₂ → finishedOf (tr₁ ++ .vec (.startPass t) :: p) x = some xs →
      (∀ l ∈ labels x, LabelNameRe l.1) ∧ xs.length < 2 ^ 63) :
    ∃ l, WritesFamily ⟨name, docs, fun enc n => hvEncode enc n labels le (hvEmitted t tr₂)⟩
      ⟨K, .histogram le, name, docs, labels, HVWas t tr₁ tr₂, HVThere t tr₁ tr₂⟩ l := by
  obtain ⟨p1, p2, p3⟩ := C84_pass hc he hone
  obtain ⟨l, hl, hw⟩ := hv_values p2
  have hkeys : l.map Prod.fst = (hvEmitted t tr₂).map Prod.fst := by rw [← hl, List.map_map]; rfl
  rw [← hkeys] at p1 p3
  rw [← hl]
  refine ⟨l, hists_write l p1 hw p3 hle hnan name docs labels ?_⟩
  rintro k ys ⟨p, xs, w1, w2, w3⟩
  obtain ⟨f1, f2⟩ := hfit p k xs w1 w2
  refine ⟨f1, fun x hx => ?_, by rw [w3.length_eq]; exact f2⟩
  obtain ⟨v, u, hv⟩ := mem_finished w2 (w3.subset hx)
  refine hok v k u x ?_
  simp only [List.mem_append, List.mem_cons, reduceCtorEq, false_or] at hv ⊢
  exact hv.imp id fun hv => w1.subset hv

theorem denseHist_writes {t : Tid} {cells : Nat} {le : List F64} (labels : Nat → Labels)
    {tr₁ tr₂ tr₃ : List HDEvent} {x : HDSys}
    (he : Exec (HDStep cells le) (HDSys.new le.length) (tr₁ ++ .vec (.startPass t) :: tr₂ ++ .vec (.endPass t) :: tr₃) x)
    (name : Name) (docs : List (List Char)) (hle : NonDecreasing le)
    (hnan : ∀ b ∈ le, b.isNaN = false) (hone : .vec (.startPass t) ∉ tr₂)
    (hok : ∀ v i u y, .observe v i (.done u y) ∈ tr₁ ++ tr₂ → y.isNaN = false)
    (hlab : ∀ i, ∀ l ∈ labels i, LabelNameRe l.1) (hfit : ∀ i, (hdFinished i (tr₁ ++ tr₂)).length < 2 ^ 63) :
    ∃ l, WritesFamily ⟨name, docs, fun enc n => hvEncode enc n labels le (hdEmitted t tr₂)⟩
      ⟨Nat, .histogram le, name, docs, labels, HDWas t tr₁ tr₂, HDThere t tr₁⟩ l := by
  obtain ⟨p1, p2, p3⟩ := C86_pass he hone
  obtain ⟨l, hl, hw⟩ := hv_values p2
  have hkeys : l.map Prod.fst = (hdEmitted t tr₂).map Prod.fst := by rw [← hl, List.map_map]; rfl
  rw [← hkeys] at p1 p3
  rw [← hl]
  refine ⟨l, hists_write l (p1.imp fun h => Nat.ne_of_lt h) hw p3 hle hnan name docs labels ?_⟩
  exact fun i ys hi => ⟨hlab i, hd_fits hok hfit hi⟩

theorem field_writes {t : Tid} {p : Part} {tr : List p.E} {f : ScrapeField} {c : Claim} (h : FieldInUse t p tr f c)
    {s : p.S} (he : Exec p.Step p.init tr s) : ∃ l, WritesFamily f c l := by
  cases h with
  | counter v0 v tr tr' name docs hfit => exact ⟨_, counter_writes he name docs hfit⟩
  | gauge v0 v tr tr' name docs => exact ⟨_, gauge_writes he name docs⟩
  | float v0 v tr tr' name docs =>
    exact ⟨_, single_writes .float name docs (.floatGauge v) v _ rfl (float_right v) (C21_read he)⟩
  | histogram le out inf sum tr tr' name docs hle hnan hok hfit => exact ⟨_, hist_writes he name docs hle hnan hok hfit⟩
  | sparse m K inst c k labels tr₁ tr₂ tr₃ acc name docs hc hk hone hok hfit =>
    exact ⟨_, sparse_writes m k labels he name docs hc hk hone hok hfit⟩
  | dense m cells k labels tr₁ tr₂ tr₃ name docs hk hone hok hlab hfit =>
    exact ⟨_, dense_writes m k labels he name docs hk hone hok hlab hfit⟩
  | labelled m m' S V D d c h inv le valid k labels tr₁ tr₂ tr₃ acc name docs L hl hf hh hc hk hone hok hlab hfit =>
    exact ⟨_, labelled_writes m' k labels he name docs L hl hf hh hc hk hone hok hlab hfit⟩
  | sparseHist K inst c le labels tr₁ tr₂ tr₃ acc name docs hc hle hnan hone hok hfit =>
    exact sparseHist_writes labels he name docs hc hle hnan hone hok hfit
  | denseHist cells le labels tr₁ tr₂ tr₃ name docs hle hnan hone hok hlab hfit =>
    exact denseHist_writes labels he name docs hle hnan hone hok hlab hfit

/-! ## The whole group -/

theorem regCollect_run {E : Type} (enc : Encoder E) (l : List (ScrapeField × Σ c : Claim, List (c.K × c.k.Val)))
    (h : ∀ q ∈ l, WritesFamily q.1 q.2.1 q.2.2) :
    regCollect enc (l.map Prod.fst) = enc.runAll ((l.map fun q => q.2.1.fam q.2.2).flatMap FamilyIn.calls) := by
  induction l with
  | nil => rfl
  | cons q l ih =>
    obtain ⟨f, c, es⟩ := q
    have hw := h _ List.mem_cons_self
    simp only [List.map_cons, regCollect, List.flatMap_cons]
    rw [ih fun q hq => h q (List.mem_cons_of_mem _ hq), hw.run enc, runAll_bind, FamilyIn.calls, runAll_bind,
      writeDocHelp_eq, RS.bind_assoc', ← hw.name, ← hw.docs]
    simp only [Claim.fam, List.map_map]
    cases docHelp c.docs <;> rfl

section
variable {ryu : F64 → Bytes} {rf : Bytes → Option F64} {n : Nat}

theorem group_run (fields : Fin n → ScrapeField) (c : Fin n → Claim) (es : ∀ i, List ((c i).K × (c i).k.Val))
    (hes : ∀ i, WritesFamily (fields i) (c i) (es i)) (E : Type) (enc : Encoder E) :
    regCollect enc (List.ofFn fields) = enc.runAll ((List.ofFn fun i => (c i).fam (es i)).flatMap FamilyIn.calls) := by
  have := regCollect_run enc (List.ofFn fun i => (fields i, (⟨c i, es i⟩ : Σ c : Claim, List (c.K × c.k.Val)))) (by
    intro q hq
    obtain ⟨i, rfl⟩ := List.mem_ofFn.1 hq
    exact hes i)
  simpa [List.map_ofFn, Function.comp_def] using this

/-- Fields that write families: what is read back from the text. -/
theorem group_text (F : FloatText ryu rf) (m : Mode) (fields : Fin n → ScrapeField) (c : Fin n → Claim)
    (es : ∀ i, List ((c i).K × (c i).k.Val)) (hes : ∀ i, WritesFamily (fields i) (c i) (es i))
    (hn : ∀ i, MetricNameRe (fields i).name.text) (hh : ∀ i x, docHelp (fields i).docs = some x → HelpOk x) :
    ∃ st out gs, regCollect (textEncoder m ryu) (List.ofFn fields) (TextEnc.new []) = (.ok (), ⟨st, out⟩) ∧
      readFamilies rf out = some gs ∧ ∃ hl : gs.length = n, ∀ i : Fin n, ∃ ss,
        gs[i.val]'(hl ▸ i.isLt) = ⟨(c i).name.text, docHelp (c i).docs, some (kindWord (c i).k.kind), ss⟩ ∧
        List.Forall₂ (SampleReads rf)
          ((es i).flatMap fun q => (c i).k.shown (c i).name.text ((c i).labels q.1) q.2) ss := by
  have hok : ∀ f ∈ List.ofFn fun i => (c i).fam (es i), FamilyOk f := by
    intro f hf
    obtain ⟨i, rfl⟩ := List.mem_ofFn.1 hf
    refine ⟨?_, ?_, ?_, ?_, ?_⟩
    · show MetricNameRe (c i).name.render
      rw [(hes i).name, ← (fields i).name.text_eq]; exact hn i
    · intro x hx
      replace hx : docHelp (c i).docs = some x := hx
      rw [(hes i).docs] at hx
      exact hh i x hx
    · rintro ⟨ls, x⟩ hx
      obtain ⟨q, _, e⟩ := List.mem_map.1 hx
      cases e; exact mkind_kind _ _
    · rintro ⟨ls, x⟩ hx
      obtain ⟨q, hq, e⟩ := List.mem_map.1 hx
      cases e; exact (hes i).labels q hq
    · rintro ⟨ls, x⟩ hx
      obtain ⟨q, hq, e⟩ := List.mem_map.1 hx
      cases e; exact ((hes i).right q hq).fits
  obtain ⟨st, out, gs, _, e1, e2, e3, _⟩ := C33_exposition_partial F m _ hok
  have hl : gs.length = n := by rw [← e3.length_eq, List.length_ofFn]
  refine ⟨st, out, gs, by rw [group_run fields c es hes]; exact e1, e2, hl, fun i => ?_⟩
  have hread := (List.forall₂_iff_get.1 e3).2 i.val (by simp) (hl ▸ i.isLt)
  simp only [List.get_eq_getElem, List.getElem_ofFn] at hread
  revert hread
  generalize gs[i.val]'(hl ▸ i.isLt) = g
  obtain ⟨gn, gh, gt, gss⟩ := g
  rintro ⟨r1, r2, r3, r4⟩
  simp only [Claim.fam] at r1 r2 r3 r4
  subst r1 r2 r3
  refine ⟨gss, rfl, ?_⟩
  rw [List.flatMap_map] at r4
  rwa [List.flatMap_congr fun q hq => ((hes i).right q hq).text _ _] at r4

end

section
variable {ryu : F64 → Bytes} {rf : Bytes → Option F64} {n : Nat} {parts : Fin n → Part}

theorem group_calls_true {trs : ∀ i, List (parts i).E} (h : ∀ i, ∃ s, Exec (parts i).Step (parts i).init (trs i) s)
    (t : Tid) (fields : Fin n → ScrapeField) (c : Fin n → Claim)
    (hu : ∀ i, FieldInUse t (parts i) (trs i) (fields i) (c i)) :
    ∃ es : ∀ i, List ((c i).K × (c i).k.Val), (∀ i, WritesFamily (fields i) (c i) (es i)) ∧
      ∀ (E : Type) (enc : Encoder E), regCollect enc (List.ofFn fields) =
        enc.runAll ((List.ofFn fun i => (c i).fam (es i)).flatMap FamilyIn.calls) := by
  choose s hs using h
  choose es hes using fun i => field_writes (hu i) (hs i)
  exact ⟨es, hes, group_run fields c es hes⟩

/-- C71, when each field has a run of its own, whatever else goes on. (In particular several fields may share interners, see
C75_shared.) -/
theorem C71_fields (F : FloatText ryu rf) (m : Mode) {trs : ∀ i, List (parts i).E}
    (h : ∀ i, ∃ s, Exec (parts i).Step (parts i).init (trs i) s) (t : Tid)
    (fields : Fin n → ScrapeField) (c : Fin n → Claim)
    (hu : ∀ i, FieldInUse t (parts i) (trs i) (fields i) (c i))
    (hn : ∀ i, MetricNameRe (fields i).name.text) (hh : ∀ i x, docHelp (fields i).docs = some x → HelpOk x) :
    ∃ st out gs, regCollect (textEncoder m ryu) (List.ofFn fields) (TextEnc.new []) = (.ok (), ⟨st, out⟩) ∧
      readFamilies rf out = some gs ∧ ∃ hl : gs.length = n, ∀ i : Fin n, (c i).text rf (gs[i.val]'(hl ▸ i.isLt)) := by
  obtain ⟨es, hes, _⟩ := group_calls_true h t fields c hu
  obtain ⟨st, out, gs, e1, e2, hl, e3⟩ := group_text F m fields c es hes hn hh
  refine ⟨st, out, gs, e1, e2, hl, fun i => ?_⟩
  obtain ⟨ss, g1, g2⟩ := e3 i
  exact ⟨es i, ss, (hes i).entries, g1, g2⟩

/-- C71. A group of counters, gauges, float gauges, histograms, and sparse and dense vectors of them (also with label groups
that are interned meanwhile), is in use by many threads while thread `t` collects it. The text that `t` gets is read back
as one family per field, in the order of the fields, each with its name, help and type and with true values: for each
field what C20, C21, C22, C24 and C75 promise of its memory. -/
theorem C71_group {tr : List (Σ i, (parts i).E)} {s : ∀ i, (parts i).S}
    (F : FloatText ryu rf) (m : Mode) (h : Exec (RegStep parts) (fun i => (parts i).init) tr s) (t : Tid)
    (fields : Fin n → ScrapeField) (c : Fin n → Claim)
    (hu : ∀ i, FieldInUse t (parts i) (onField i tr) (fields i) (c i))
    (hn : ∀ i, MetricNameRe (fields i).name.text) (hh : ∀ i x, docHelp (fields i).docs = some x → HelpOk x) :
    ∃ st out gs, regCollect (textEncoder m ryu) (List.ofFn fields) (TextEnc.new []) = (.ok (), ⟨st, out⟩) ∧
      readFamilies rf out = some gs ∧ ∃ hl : gs.length = n, ∀ i : Fin n, (c i).text rf (gs[i.val]'(hl ▸ i.isLt)) :=
  C71_fields F m (fun i => ⟨_, reg_field h i⟩) t fields c hu hn hh

theorem runAll_notebook (cs l : List EncCall) : notebook.runAll cs l = (.ok (), l ++ cs) := by
  induction cs generalizing l with
  | nil => simp [Encoder.runAll]
  | cons x cs ih =>
    rw [runAll_cons, RS.bind_run]
    have : notebook.run x l = (.ok (), l ++ [x]) := by cases x <;> rfl
    rw [this]
    simp only
    rw [ih, List.append_assoc, List.singleton_append]

theorem familySize_le (text : LVal → Bytes) {f : ScrapeField} {c : Claim} {l : List (c.K × c.k.Val)}
    (h : WritesFamily f c l) : familySize text (c.fam l).name.text (c.fam l) = fieldSize text f := by
  unfold familySize fieldSize
  rw [h.run notebook, runAll_notebook]
  simp only [Claim.fam, ← h.name, ← h.docs, List.nil_append, List.map_cons, List.sum_cons, Nat.zero_add, List.map_map]
  rfl

theorem forall₂_imp_mem {α β : Type} {R S : α → β → Prop} {l : List α} {k : List β} (h : List.Forall₂ R l k)
    (hi : ∀ a ∈ l, ∀ b, R a b → S a b) : List.Forall₂ S l k := by
  induction h with
  | nil => exact .nil
  | cons h _ ih => exact .cons (hi _ List.mem_cons_self _ h) (ih fun a ha => hi a (List.mem_cons_of_mem _ ha))

/-- No help is left over for a field without one, if a field with help before it has entries. -/
theorem noPendingHelp_of (fs : List FamilyIn) (p : Prop) (hp : p → ∀ f ∈ fs, f.help ≠ none)
    (h : fs.Pairwise fun f g => f.help ≠ none → g.help = none → f.samples ≠ []) : NoPendingHelp p fs := by
  induction fs generalizing p with
  | nil => trivial
  | cons f fs ih =>
    rw [List.pairwise_cons] at h
    refine ⟨fun hpp hn => absurd hn (hp hpp f List.mem_cons_self), ih _ ?_ h.2⟩
    rintro ⟨hpf, hs⟩ g hg hgn
    rcases hpf with hpp | hfh
    · exact hp hpp g (List.mem_cons_of_mem _ hg) hgn
    · exact h.1 g hg hfh hgn hs

end

/-- Fields that write families without histograms: what is read back from the messages. -/
theorem group_messages {ryu : F64 → Bytes} {rf : Bytes → Option F64} {n : Nat} (F : FloatText ryu rf) (m : Mode)
    (fields : Fin n → ScrapeField) (c : Fin n → Claim)
    (es : ∀ i, List ((c i).K × (c i).k.Val)) (hes : ∀ i, WritesFamily (fields i) (c i) (es i))
    (hk : ∀ i, (c i).k.kind ≠ .histogram)
    (hh : ∀ i j, i < j → docHelp (fields i).docs ≠ none → docHelp (fields j).docs = none → ∃ x, (c i).there x)
    (hs : ((List.ofFn fields).map (fieldSize (labelText ryu))).sum < 2 ^ 64) :
    ∃ e e' gs, regCollect (protoEncoder m ryu) (List.ofFn fields) (ProtoEnc.new ([] : Bytes)) = (.ok (), e) ∧
      flush m e = (.ok (), e') ∧ decodeScrape e'.writer = some gs ∧
      List.Forall₂ (fun i g => ∃ ms, g = ⟨some (c i).name.text, docHelp (c i).docs, some (kindCode (c i).k.kind), ms⟩ ∧
        List.Forall₂ (fun q p => (∃ texts, LabelsRead rf ((c i).labels q.1) texts ∧
          p.labels = texts.map fun t => ⟨some t.1, some t.2⟩) ∧ (c i).k.proto q.2 p) (es i) ms)
        ((List.finRange n).filter fun i => (es i).length ≠ 0) gs := by
  have hkind : ∀ f ∈ List.ofFn fun i => (c i).fam (es i), f.kind ≠ .histogram ∧ ∀ s ∈ f.samples, s.2.kind ≠ .histogram := by
    intro f hf
    obtain ⟨i, rfl⟩ := List.mem_ofFn.1 hf
    refine ⟨hk i, ?_⟩
    rintro ⟨ls, x⟩ hx
    obtain ⟨q, _, e⟩ := List.mem_map.1 hx
    cases e; rw [mkind_kind]; exact hk i
  have hsize : ((List.ofFn fun i => (c i).fam (es i)).map fun f => familySize (labelText ryu) f.name.text f).sum < 2 ^ 64 := by
    rw [List.map_ofFn] at hs ⊢
    have : ((fun f => familySize (labelText ryu) f.name.text f) ∘ fun i => (c i).fam (es i)) =
        fieldSize (labelText ryu) ∘ fields := funext fun i => familySize_le _ (hes i)
    rw [this]
    exact hs
  have hpend : NoPendingHelp False (List.ofFn fun i => (c i).fam (es i)) := by
    refine noPendingHelp_of _ _ False.elim ?_
    rw [List.pairwise_ofFn]
    intro i j hij hi hj he
    replace hi : docHelp (c i).docs ≠ none := hi
    replace hj : docHelp (c j).docs = none := hj
    rw [(hes i).docs] at hi
    rw [(hes j).docs] at hj
    obtain ⟨x, hx⟩ := hh i j hij hi hj
    have hm := (hes i).entries.2.2 x hx
    have he : es i = [] := by simpa [Claim.fam] using he
    rw [he] at hm
    cases hm
  obtain ⟨e', e'', out, gs, h1, h2, h3, h4, h5, _⟩ :=
    C44_partial F m _ (ProtoEnc.new ([] : Bytes)) ⟨rfl, .inl rfl⟩ hkind hsize hpend
  have hout : e''.writer = out := h3
  let live := (List.finRange n).filter fun i => (es i).length ≠ 0
  have hlive : ((List.ofFn fun i => (c i).fam (es i)).filter fun f => f.samples ≠ []) =
      live.map fun i => (c i).fam (es i) := by
    rw [List.ofFn_eq_map, List.filter_map]
    congr 1
    apply List.filter_congr
    intro i _
    cases hl : es i <;> simp [Claim.fam, hl]
  rw [hlive, List.forall₂_map_left_iff] at h5
  refine ⟨e', e'', gs, by rw [group_run fields c es hes]; exact h1, h2, by rw [hout]; exact h4, ?_⟩
  refine h5.imp fun i g hg => ?_
  obtain ⟨gn, gh, gt, gms⟩ := g
  obtain ⟨r1, r2, r3, r4⟩ := hg
  simp only [Claim.fam] at r1 r2 r3 r4
  subst r1 r2 r3
  rw [List.forall₂_map_left_iff] at r4
  refine ⟨gms, rfl, ?_⟩
  refine forall₂_imp_mem r4 fun q hq p hp => ⟨hp.labels, ?_⟩
  exact ((hes i).right q hq).proto p hp.value

section
variable {ryu : F64 → Bytes} {rf : Bytes → Option F64} {n : Nat} {parts : Fin n → Part}

/-- C72, when each field has a run of its own, whatever else goes on. -/
theorem C72_fields (F : FloatText ryu rf) (m : Mode) {trs : ∀ i, List (parts i).E}
    (h : ∀ i, ∃ s, Exec (parts i).Step (parts i).init (trs i) s) (t : Tid)
    (fields : Fin n → ScrapeField) (c : Fin n → Claim)
    (hu : ∀ i, FieldInUse t (parts i) (trs i) (fields i) (c i)) (hk : ∀ i, (c i).k.kind ≠ .histogram)
    (hh : ∀ i j, i < j → docHelp (fields i).docs ≠ none → docHelp (fields j).docs = none → ∃ x, (c i).there x)
    (hs : ((List.ofFn fields).map (fieldSize (labelText ryu))).sum < 2 ^ 64) :
    ∃ e e' gs live, regCollect (protoEncoder m ryu) (List.ofFn fields) (ProtoEnc.new ([] : Bytes)) = (.ok (), e) ∧
      flush m e = (.ok (), e') ∧ decodeScrape e'.writer = some gs ∧ live.Sublist (List.finRange n) ∧
      List.Forall₂ (fun i g => (c i).message rf g ∧ g.metrics ≠ []) live gs ∧ ∀ i, i ∉ live → ∀ x, ¬ (c i).there x := by
  obtain ⟨es, hes, _⟩ := group_calls_true h t fields c hu
  obtain ⟨e, e', gs, h1, h2, h3, h4⟩ := group_messages F m fields c es hes hk hh hs
  refine ⟨e, e', gs, (List.finRange n).filter fun i => (es i).length ≠ 0, h1, h2, h3, List.filter_sublist, ?_, ?_⟩
  · refine forall₂_imp_mem h4 fun i hi g hg => ?_
    obtain ⟨ms, rfl, hf⟩ := hg
    refine ⟨⟨es i, ms, (hes i).entries, rfl, hf⟩, ?_⟩
    intro hms
    replace hms : ms = [] := hms
    subst hms
    have : es i = [] := List.forall₂_nil_right_iff.1 hf
    simp [this] at hi
  · intro i hi x hx
    have hm := (hes i).entries.2.2 x hx
    apply hi
    refine List.mem_filter.2 ⟨List.mem_finRange i, ?_⟩
    cases hl : es i with
    | nil => rw [hl] at hm; cases hm
    | cons q qs => simp

/-- C72. The same group without histograms, collected with the protobuf encoder: the messages are, in the order of the
fields, families with true values; no family is missing but such that have no entry. A field with help may be followed by
one without only if it is sure to have an entry (see C44). -/
theorem C72_group {tr : List (Σ i, (parts i).E)} {s : ∀ i, (parts i).S}
    (F : FloatText ryu rf) (m : Mode) (h : Exec (RegStep parts) (fun i => (parts i).init) tr s) (t : Tid)
    (fields : Fin n → ScrapeField) (c : Fin n → Claim)
    (hu : ∀ i, FieldInUse t (parts i) (onField i tr) (fields i) (c i)) (hk : ∀ i, (c i).k.kind ≠ .histogram)
    (hh : ∀ i j, i < j → docHelp (fields i).docs ≠ none → docHelp (fields j).docs = none → ∃ x, (c i).there x)
    (hs : ((List.ofFn fields).map (fieldSize (labelText ryu))).sum < 2 ^ 64) :
    ∃ e e' gs live, regCollect (protoEncoder m ryu) (List.ofFn fields) (ProtoEnc.new ([] : Bytes)) = (.ok (), e) ∧
      flush m e = (.ok (), e') ∧ decodeScrape e'.writer = some gs ∧ live.Sublist (List.finRange n) ∧
      List.Forall₂ (fun i g => (c i).message rf g ∧ g.metrics ≠ []) live gs ∧ ∀ i, i ∉ live → ∀ x, ¬ (c i).there x :=
  C72_fields F m (fun i => ⟨_, reg_field h i⟩) t fields c hu hk hh hs

end

/-! ## A group with a counter and a dense vector of counters -/

namespace RegExample
open ConcExample

def parts : Fin 2 → Part
  | 0 => .word 0
  | 1 => .dense CounterCall 2

def hits : List (DEvent CounterCall) := dduring (.incBy 5) .inc (.incBy 7)

/-- Threads 0 and 2 increment while thread 1 collects the counter and then the vector. -/
def trace : List (Σ i, (parts i).E) :=
  ((dbefore (CounterCall.incBy 5)).map fun e => (⟨1, e⟩ : Σ i, (parts i).E)) ++
  (([.update 0 (.add 3), .update 2 (.add 4), .read 1 3] : List IntEvent).map fun e => (⟨0, e⟩ : Σ i, (parts i).E)) ++
  ((DEvent.startPass 1 :: hits ++ [DEvent.endPass 1]).map fun e => (⟨1, e⟩ : Σ i, (parts i).E))

theorem word_run : ∃ m, Exec IntStep (Mem.new 0) [.update 0 (.add 3), .update 2 (.add 4), .read 1 3] m := by
  let m0 : Mem IntOp Nat := Mem.new 0
  let m1 := m0.modify 0 (.add 3) 0 ((IntOp.add 3).eff.apply (m0.valAt 0))
  let m2 := m1.modify 2 (.add 4) 1 ((IntOp.add 4).eff.apply (m1.valAt 1))
  refine ⟨m2.load 1 1, ?_⟩
  refine exec_cons (m := m1) (.update m0 0 (.add 3) 0 ⟨by decide, by decide, by simp [m0, Mem.new]⟩) ?_
  refine exec_cons (m := m2) (.update m1 2 (.add 4) 1 ⟨by decide, by decide, ?_⟩) ?_
  · intro x hx
    simp [m1, m0, Mem.modify, Mem.new] at hx
  exact Exec.snoc (tr := []) .nil (IntStep.read m2 1 1 ⟨by decide, by decide⟩)

/-- A run of one field is a run of the whole. -/
theorem lift {n : Nat} {parts : Fin n → Part} (i : Fin n) {s : ∀ i, (parts i).S} {tr : List (parts i).E} {x : (parts i).S}
    (h : Exec (parts i).Step (s i) tr x) :
    Exec (RegStep parts) s (tr.map fun e => ⟨i, e⟩) (Function.update s i x) := by
  induction h with
  | nil => simpa using Exec.nil
  | @snoc tr y e y' _ hs ih =>
    rw [List.map_append, List.map_cons, List.map_nil]
    have := RegStep.on (Function.update s i y) i e y' (by simpa using hs)
    rw [Function.update_idem] at this
    exact ih.snoc this

theorem run : ∃ s, Exec (RegStep parts) (fun i => (parts i).init) trace s := by
  obtain ⟨d, hd⟩ := drun (CounterCall.incBy 5) .inc (.incBy 7)
  obtain ⟨w, hw⟩ := word_run
  have hd' : Exec (DStep 2) DSys.new (dbefore (CounterCall.incBy 5) ++ (.startPass 1 :: hits ++ [.endPass 1])) d := by
    simpa [hits] using hd
  obtain ⟨d₁, h1, h2⟩ := exec_split _ _ hd'
  have e1 := lift (parts := parts) (s := fun i => (parts i).init) 1 h1
  have e2 := lift (parts := parts) (s := Function.update (fun i => (parts i).init) 1 d₁) 0 (x := w) hw
  have e3 := lift (parts := parts)
    (s := Function.update (Function.update (fun i => (parts i).init) 1 d₁) 0 w) 1 (x := d) h2
  exact ⟨_, exec_append (exec_append e1 e2) e3⟩

def requests : Name := .str b!"requests"

theorem requests_ok : MetricNameRe requests.text := (C38_from_str _).1.1 (by decide)

def fields (m : Mode) : Fin 2 → ScrapeField
  | 0 => ⟨requests, [" Requests so far.".toList], singleEncode (.counter 3)⟩
  | 1 => ⟨name, [], fun enc n => passEncode enc n .counter idLabel .counter (counterOps m) (denseEmitted 1 hits)⟩

def claims : Fin 2 → Claim
  | 0 => ⟨Unit, .counter, requests, [" Requests so far.".toList], fun _ => [],
      fun _ (a : Nat) => WordWas 1 0 [.update 0 (.add 3), .update 2 (.add 4)] a, fun _ => True⟩
  | 1 => ⟨Nat, .counter, name, [], idLabel,
      DenseWas 1 (dbefore (CounterCall.incBy 5)) hits (0 : Nat) CounterCall.apply, DenseThere 1 (dbefore (CounterCall.incBy 5))⟩

theorem total_small (i : Nat) (us : List CounterCall)
    (hp : us <+: denseUpdates i (dbefore (CounterCall.incBy 5) ++ .startPass 1 :: hits)) :
    sumUp CounterCall.apply 0 us < 2 ^ 63 := by
  rcases prefix_three _ _ _ (dduring_updates _ _ _ i us hp) with rfl | rfl | rfl | rfl <;> decide

theorem in_use (m : Mode) : ∀ i, FieldInUse 1 (parts i) (onField i trace) (fields m i) (claims i)
  | 0 => FieldInUse.counter 0 3 [.update 0 (.add 3), .update 2 (.add 4)] [] requests _ (by decide)
  | 1 => FieldInUse.dense m 2 .counter idLabel (dbefore (CounterCall.incBy 5)) hits [] name [] trivial
    (by simp [hits, dduring])
    (by
      intro v k o x hx
      simp only [dbefore, hits, dduring, List.cons_append, List.nil_append, List.mem_cons, reduceCtorEq,
        DEvent.update.injEq, false_or, or_false, List.not_mem_nil] at hx
      rcases hx with ⟨_, _, _, rfl⟩ | ⟨_, _, _, rfl⟩ | ⟨_, _, _, rfl⟩ <;>
        (simp only [MKind.CallOk]; unfold CounterCall.Ok; decide))
    idLabel_ok total_small

example {ryu : F64 → Bytes} {rf : Bytes → Option F64} (F : FloatText ryu rf) (m : Mode) :
    ∃ st out a b, regCollect (textEncoder m ryu) (List.ofFn (fields m)) (TextEnc.new []) = (.ok (), ⟨st, out⟩) ∧
      readFamilies rf out = some [a, b] ∧ (claims 0).text rf a ∧ (claims 1).text rf b := by
  obtain ⟨s, h⟩ := run
  obtain ⟨st, out, gs, e1, e2, hl, e3⟩ := C71_group F m h 1 (fields m) claims (in_use m)
    (by
      intro i
      match i with
      | 0 => exact requests_ok
      | 1 => exact name_ok)
    (by
      intro i x hx
      match i with
      | 0 =>
        have : docHelp [" Requests so far.".toList] = some b!"Requests so far." := by decide +kernel
        rw [show (fields m 0).docs = [" Requests so far.".toList] from rfl, this] at hx
        cases hx
        refine ⟨by decide, by decide, ?_⟩
        intro b bs hb
        cases hb
        rfl
      | 1 => cases hx)
  match gs, hl, e3 with
  | [a, b], _, e3 => exact ⟨st, out, a, b, e1, e2, e3 0, e3 1⟩

/-- Both have entries: the counter always, the vector because thread 1 knows of the series. -/
example {ryu : F64 → Bytes} {rf : Bytes → Option F64} (F : FloatText ryu rf) (m : Mode) :
    ∃ e e' a b, regCollect (protoEncoder m ryu) (List.ofFn (fields m)) (ProtoEnc.new ([] : Bytes)) = (.ok (), e) ∧
      flush m e = (.ok (), e') ∧ decodeScrape e'.writer = some [a, b] ∧ (claims 0).message rf a ∧ (claims 1).message rf b := by
  obtain ⟨s, h⟩ := run
  obtain ⟨e, e', gs, live, h1, h2, h3, h4, h5, h6⟩ := C72_group F m h 1 (fields m) claims (in_use m)
    (by
      intro i
      match i with
      | 0 => decide
      | 1 => decide)
    (by
      intro i j hij hi _
      match i with
      | 0 => exact ⟨(), trivial⟩
      | 1 => exact absurd rfl hi)
    (by
      have h0 : fieldSize (labelText ryu) (fields m 0) = 64 + 8 + 16 + (0 + (64 + 0)) := by
        have : docHelp [" Requests so far.".toList] = some b!"Requests so far." := by decide +kernel
        show 64 + requests.text.length + ((docHelp [" Requests so far.".toList]).getD []).length + (0 + (64 + 0)) = _
        rw [this]; rfl
      have h1 : fieldSize (labelText ryu) (fields m 1) =
          64 + 4 + 0 + (0 + (64 + (64 + 2 + (itoa 1).length + 0) + 0)) := by cases m <;> rfl
      have h2 : (itoa 1).length = 1 := by decide +kernel
      show fieldSize (labelText ryu) (fields m 0) + (fieldSize (labelText ryu) (fields m 1) + 0) < 2 ^ 64
      rw [h0, h1, h2]
      decide)
  have hall : ∀ i, i ∈ live := by
    intro i
    by_contra hi
    match i with
    | 0 => exact h6 0 hi () trivial
    | 1 => exact h6 1 hi (1 : Nat) ⟨(dbefore (CounterCall.incBy 5)).take 4, (dbefore (CounterCall.incBy 5)).drop 5, 0, 0, rfl,
      .sync (tr := [.update 0 1 0 (CounterCall.incBy 5)]) (.keep (tr := []) .start)⟩
  have hl : live = [0, 1] := by
    have : live.length = 2 := by
      refine Nat.le_antisymm h4.length_le ?_
      exact ((List.nodup_finRange 2).subperm fun i _ => hall i).length_le
    exact h4.eq_of_length this
  subst hl
  match gs, h5 with
  | [a, b], .cons ha (.cons hb .nil) => exact ⟨e, e', a, b, h1, h2, h3, ha.1, hb.1⟩

end RegExample

/-! ## A counter, and a vector of counters with label groups -/

namespace RegLabelled
open LVExample RegExample

def parts : Fin 2 → Part
  | 0 => .word 0
  | 1 => .labelled .debug (Rodeo String) String CounterCall threadedRodeo exampleDef one exampleHeap

def word : List IntEvent := [.update 0 (.add 3), .update 2 (.add 4), .read 1 3]
def five : CounterCall := .incBy 5

def hits : List (LVEvent String CounterCall 3) :=
  before five ++ .vec (.startPass 1) :: during five .inc ++ .vec (.endPass 1 [(key, [five, .inc])]) :: []

def trace : List (Σ i, (parts i).E) :=
  (word.map fun e => (⟨0, e⟩ : Σ i, (parts i).E)) ++ (hits.map fun e => (⟨1, e⟩ : Σ i, (parts i).E))

theorem run : ∃ s, Exec (RegStep parts) (fun i => (parts i).init) trace s := by
  obtain ⟨w, hw⟩ := word_run
  obtain ⟨v, hv⟩ := LVExample.run five .inc
  have e1 := lift (parts := parts) (s := fun i => (parts i).init) 0 (x := w) hw
  have e2 := lift (parts := parts) (s := Function.update (fun i => (parts i).init) 0 w) 1 (x := v) hv
  exact ⟨_, exec_append e1 e2⟩

def hitsName : Name := .str b!"hits"

theorem hitsName_ok : MetricNameRe hitsName.text := (C38_from_str _).1.1 (by decide)

def fields (m : Mode) : Fin 2 → ScrapeField
  | 0 => ⟨requests, [], singleEncode (.counter 3)⟩
  | 1 => ⟨hitsName, [], fun enc n => passEncode enc n .counter (derivedLabels exampleDef text) .counter (counterOps m)
      (shownBy 1 (during five .inc))⟩

def claims : Fin 2 → Claim
  | 0 => ⟨Unit, .counter, requests, [], fun _ => [],
      fun _ (a : Nat) => WordWas 1 0 [.update 0 (.add 3), .update 2 (.add 4)] a, fun _ => True⟩
  | 1 => ⟨exampleDef.Group, .counter, hitsName, [], derivedLabels exampleDef text,
      GroupWas 1 (before five) (during five .inc) (0 : Nat) CounterCall.apply, GroupThere 1 (before five) (during five .inc)⟩

theorem in_use (m : Mode) : ∀ i, FieldInUse 1 (parts i) (onField i trace) (fields m i) (claims i)
  | 0 => FieldInUse.counter 0 3 [.update 0 (.add 3), .update 2 (.add 4)] [] requests _ (by decide)
  | 1 => FieldInUse.labelled .debug m (Rodeo String) String threadedRodeo exampleDef one exampleHeap _ _ _ .counter
    (derivedLabels exampleDef text) (before five) (during five .inc) [] _ hitsName [] threadedRodeo_laws exampleDef_lawful
    LVExample.fits heap_ok (fun _ => Nat.zero_lt_one) trivial (no_start _ _)
    (by
      intro v k x hx
      rcases all_updates _ _ hx with rfl | rfl <;> (simp only [MKind.CallOk]; unfold CounterCall.Ok; decide))
    visit_ok
    (by
      intro p k us hp hm
      rcases during_keys _ _ p hp k us hm with rfl | rfl <;> (show sumUp CounterCall.apply 0 _ < 2 ^ 63; decide))

/-- The second family has the label group, which somebody used before the scrape. -/
example {ryu : F64 → Bytes} {rf : Bytes → Option F64} (F : FloatText ryu rf) (m : Mode) :
    ∃ st out a b, regCollect (textEncoder m ryu) (List.ofFn (fields m)) (TextEnc.new []) = (.ok (), ⟨st, out⟩) ∧
      readFamilies rf out = some [a, b] ∧ (claims 0).text rf a ∧ (claims 1).text rf b ∧ (claims 1).there group := by
  obtain ⟨s, h⟩ := run
  obtain ⟨st, out, gs, e1, e2, hl, e3⟩ := C71_group F m h 1 (fields m) claims (in_use m)
    (by
      intro i
      match i with
      | 0 => exact requests_ok
      | 1 => exact hitsName_ok)
    (by
      intro i x hx
      match i with
      | 0 => cases hx
      | 1 => cases hx)
  match gs, hl, e3 with
  | [a, b], _, e3 => exact ⟨st, out, a, b, e1, e2, e3 0, e3 1, there _ _⟩

end RegLabelled

end Measured
