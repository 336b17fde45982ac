import Verif.Model.MetricVec
import Verif.Model.Encoder

/-!
# Metric groups

Model of `core/src/metric/group.rs`, of the `MetricFamilyEncoding` impls in `core/src/metric.rs` and of the
code generated by `#[derive(MetricGroup)]` (`derive/src/metric_group`).
-/

namespace Measured

/-! ## Encoders inside a namespace -/

/-- `WithNamespace<&mut E>` as an encoder: every name is wrapped before the call is passed on.
core/src/metric/group.rs:92-147 -/
def Encoder.withNamespace {E : Type} (ns : Bytes) (enc : Encoder E) : Encoder E where
  help n t := enc.help (.ns ns n) t
  type k n := enc.type k (.ns ns n)
  sample x ls n := enc.sample x ls (.ns ns n)

/-! ## Families -/

/-- The values with a `MetricFamilyEncoding` impl: `Metric<M>`, `MetricVec<M, L>`, `Option<_>`. For a vector,
`visit` gives the labels that a decoded group visits, and `view` the metric state with the vector's metadata. -/
inductive Fam : Type 1 where
  | metric (x : Metric)
  | vec {S G U M : Type} (t : GroupSet S G U) (visit : G → Labels) (kind : Kind) (view : M → Metric)
      (v : MetricVec S U M)
  | absent
  | present (f : Fam)

/-- `collect_family_into`. core/src/metric.rs:425-471 -/
def Fam.collect {E : Type} (enc : Encoder E) (n : Name) : Fam → RS E Unit
  | .metric x => do
    enc.type x.kind n
    enc.sample x [] n
  | .vec t visit kind view v =>
    v.collectFamilyInto t (enc.type kind n) fun g x => enc.sample (view x) (visit g) n
  | .absent => pure ()
  | .present f => f.collect enc n

/-! ## Doc comments -/

/-- `char::is_whitespace`: the Unicode property `White_Space`. -/
def charIsWhitespace (c : Char) : Bool :=
  let x := c.toNat
  (9 ≤ x && x ≤ 13) || x == 0x20 || x == 0x85 || x == 0xa0 || x == 0x1680 || (0x2000 ≤ x && x ≤ 0x200a) ||
    x == 0x2028 || x == 0x2029 || x == 0x202f || x == 0x205f || x == 0x3000

/-- `str::trim`. -/
def trim (s : List Char) : List Char :=
  ((s.dropWhile charIsWhitespace).reverse.dropWhile charIsWhitespace).reverse

/-- The bytes of a `str`. -/
def utf8 (s : List Char) : Bytes := s.flatMap String.utf8EncodeChar

/-- The help text of a field with the given `doc` attributes, appended without separator and trimmed.
derive/src/metric_group/attr.rs:163-172, derive/src/metric_group/to_tokens.rs:58-63 -/
def docHelp : List (List Char) → Option Bytes
  | [] => none
  | d :: ds => some (utf8 (trim (d :: ds).flatten))

/-- The `#help` part of a visit. derive/src/metric_group/to_tokens.rs:58-67 -/
def writeDocHelp {E : Type} (enc : Encoder E) (n : Name) (docs : List (List Char)) : RS E Unit :=
  match docHelp docs with
  | none => pure ()
  | some t => enc.help n t

/-! ## Groups -/

mutual
/-- The values with a `MetricGroup` impl. `manual` is a hand-written group that makes the given calls. -/
inductive Group : Type 1 where
  | derived (fields : Fields)
  | composed (a b : Group)
  | namespaced (ns : Bytes) (g : Group)
  | absent
  | present (g : Group)
  /-- `Arc<G>`, `&G` -/
  | pointer (g : Group)
  | manual (calls : List EncCall)

/-- The fields of a derived group, in declaration order. For a metric field, `name` is the `rename` string or the
field's identifier; the generated code names it in a `const`, so that an invalid name does not compile. -/
inductive Fields : Type 1 where
  | nil
  | metric (name : Bytes) (docs : List (List Char)) (f : Fam) (rest : Fields)
  | flatten (g : Group) (rest : Fields)
  | namespaced (ns : Bytes) (g : Group) (rest : Fields)
end

mutual
/-- `collect_group_into`. core/src/metric/group.rs:41-90 -/
def Group.collect {E : Type} (enc : Encoder E) : Group → RS E Unit
  | .derived fs => fs.collect enc
  | .composed a b => do
    a.collect enc
    b.collect enc
  | .namespaced ns g => g.collect (enc.withNamespace ns)
  | .absent => pure ()
  | .present g => g.collect enc
  | .pointer g => g.collect enc
  | .manual calls => enc.runAll calls

/-- The generated `collect_group_into`. `WithNamespace::new` of a `namespace` field is called here, at run time,
and panics if the namespace is invalid. derive/src/metric_group/to_tokens.rs:51-95, core/src/metric/name.rs:185-190 -/
def Fields.collect {E : Type} (enc : Encoder E) : Fields → RS E Unit
  | .nil => pure ()
  | .metric name docs f rest => do
    writeDocHelp enc (.str name) docs
    f.collect enc (.str name)
    rest.collect enc
  | .flatten g rest => do
    g.collect enc
    rest.collect enc
  | .namespaced ns g rest => do
    RS.lift (constAssertMetricName ns)
    g.collect (enc.withNamespace ns)
    rest.collect enc
end

end Measured
