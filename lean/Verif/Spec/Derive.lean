import Verif.Model.Derive
import Verif.Spec.MetricGroup

/-! # What the attributes of the derive macros mean, independent of the order in which they are parsed -/

namespace Measured.Spec
open Measured.Derive

section metric
variable {E : Type}

/-- The arguments of all `metric` attributes. -/
def metricArgs (attrs : List (MetricAttr E)) : List (MetricArg E) :=
  attrs.flatMap fun | .metric l => l | _ => []

/-- The `doc` attributes. -/
def docAttrs (attrs : List (MetricAttr E)) : List (Option (List Char)) :=
  attrs.filterMap fun | .doc t => some t | _ => none

def kindArg : MetricArg E → Option MetricKind
  | .rename s => some (.metric (some s))
  | .namespaced s => some (.group (some s))
  | .flatten => some (.group none)
  | _ => none

def initArg : MetricArg E → Option E
  | .init e => some e
  | _ => none

def metadataArg : MetricArg E → Option E
  | .metadata e => some e
  | _ => none

def labelSetArg : MetricArg E → Option E
  | .labelSet e => some e
  | _ => none

/-- The attributes of a field do not contradict each other: no unknown argument, doc attributes are strings, at most one of
`rename`, `namespace` and `flatten`, at most one `init`, `metadata`, `label_set`, and `init` not with the other two. -/
structure MetricAttrsOk (attrs : List (MetricAttr E)) : Prop where
  known : .bad ∉ metricArgs attrs
  docs : none ∉ docAttrs attrs
  kind : ((metricArgs attrs).filterMap kindArg).length ≤ 1
  init : ((metricArgs attrs).filterMap initArg).length ≤ 1
  metadata : ((metricArgs attrs).filterMap metadataArg).length ≤ 1
  labelSet : ((metricArgs attrs).filterMap labelSetArg).length ≤ 1
  exclusive : (metricArgs attrs).filterMap initArg ≠ [] →
    (metricArgs attrs).filterMap metadataArg = [] ∧ (metricArgs attrs).filterMap labelSetArg = []

/-- The kind of a field: the attribute given, or a metric under the field's own name. -/
def metricKindOf (attrs : List (MetricAttr E)) : MetricKind :=
  ((metricArgs attrs).filterMap kindArg).head?.getD (.metric none)

/-- The doc comment of a field: all its doc attributes joined, if there is one. -/
def docOf (attrs : List (MetricAttr E)) : Option (List Char) :=
  if (docAttrs attrs).isEmpty then none else some ((docAttrs attrs).flatMap fun d => d.getD [])

/-- The expression that a field starts with: `init` if given; else the constructor with the given label set and metadata,
default metadata if only the label set is given; else `Default`. -/
inductive StartsWith (dflt : E) (attrs : List (MetricAttr E)) : InitExpr E → Prop where
  | raw {e : E} : .init e ∈ metricArgs attrs → StartsWith dflt attrs (.raw e)
  | both {ls md : E} : .labelSet ls ∈ metricArgs attrs → .metadata md ∈ metricArgs attrs →
      StartsWith dflt attrs (.withLabelSetAndMetadata ls md)
  | labelSet {ls : E} : .labelSet ls ∈ metricArgs attrs → (∀ md, .metadata md ∉ metricArgs attrs) →
      StartsWith dflt attrs (.withLabelSetAndMetadata ls dflt)
  | metadata {md : E} : .metadata md ∈ metricArgs attrs → (∀ ls, .labelSet ls ∉ metricArgs attrs) →
      StartsWith dflt attrs (.withMetadata md)
  | default : (∀ e, .init e ∉ metricArgs attrs) → (∀ md, .metadata md ∉ metricArgs attrs) →
      (∀ ls, .labelSet ls ∉ metricArgs attrs) → StartsWith dflt attrs .default

/-- What a field contributes to the group. -/
inductive FieldItems : MetricField E → Member → List Item → Prop where
  | renamed {fd : MetricField E} {f : Fam} {s : Bytes} : .rename s ∈ metricArgs fd.attrs →
      FieldItems fd (.fam f) [.field [] s (docOf fd.attrs).toList f]
  | plain {fd : MetricField E} {f : Fam} : (metricArgs fd.attrs).filterMap kindArg = [] →
      FieldItems fd (.fam f) [.field [] fd.ident (docOf fd.attrs).toList f]
  | flatten {fd : MetricField E} {g : Group} : .flatten ∈ metricArgs fd.attrs → FieldItems fd (.group g) (items g)
  | namespaced {fd : MetricField E} {g : Group} {ns : Bytes} : .namespaced ns ∈ metricArgs fd.attrs →
      FieldItems fd (.group g) ((items g).map (Item.within ns))

end metric

section label
variable {P : Type}

/-- The arguments of all `label` attributes. -/
def labelArgs (attrs : List (Option (List (LabelArg P)))) : List (LabelArg P) := attrs.flatMap fun a => a.getD []

def labelKindArg : LabelArg P → Option (LabelKind P)
  | .fixed => some .fixed
  | .fixedWith p => some (.fixedWith p)
  | .dynamicWith p => some (.dynamicWith p)
  | _ => none

def labelRenameArg : LabelArg P → Option Bytes
  | .rename s => some s
  | _ => none

def labelDefaultArg : LabelArg P → Option Unit
  | .default => some ()
  | _ => none

/-- At most one of `fixed`, `fixed_with`, `dynamic_with`, at most one `default`, at most one `rename`, nothing else. -/
structure LabelAttrsOk (attrs : List (Option (List (LabelArg P)))) : Prop where
  known : .bad ∉ labelArgs attrs
  kind : ((labelArgs attrs).filterMap labelKindArg).length ≤ 1
  default : ((labelArgs attrs).filterMap labelDefaultArg).length ≤ 1
  rename : ((labelArgs attrs).filterMap labelRenameArg).length ≤ 1

end label

section enum
variable {P : Type}

/-- The documented names of the cases. -/
def caseNames : List (Bytes × RenameAll) :=
  [(b!"UpperCamelCase", .upperCamel), (b!"lowerCamelCase", .lowerCamel), (b!"snake_case", .snake),
   (b!"kebab-case", .kebab), (b!"SHOUTY_SNAKE_CASE", .shoutySnake), (b!"SHOUTY-KEBAB-CASE", .shoutyKebab),
   (b!"Title Case", .title), (b!"Train-Case", .train)]

def krateArg : EnumArg P → Option P
  | .krate p => some p
  | _ => none

def renameAllArg : EnumArg P → Option Bytes
  | .renameAll s => some s
  | _ => none

def singletonArg : EnumArg P → Option Bytes
  | .singleton s => some s
  | _ => none

/-- The attribute `#[label(a, b, …)]`, without a comma at the end. -/
def writtenArgs (args : List (EnumArg P)) : List (EnumTok P) := (args.map .arg).intersperse .comma

/-- Each argument at most once over all attributes, `rename_all` with a documented name. -/
structure EnumArgsOk (args : List (EnumArg P)) : Prop where
  known : .bad ∉ args
  krate : (args.filterMap krateArg).length ≤ 1
  renameAll : (args.filterMap renameAllArg).length ≤ 1
  singleton : (args.filterMap singletonArg).length ≤ 1
  documented : ∀ s ∈ args.filterMap renameAllArg, ∃ c, (s, c) ∈ caseNames

end enum

end Measured.Spec
