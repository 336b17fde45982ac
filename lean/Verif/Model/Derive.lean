import Verif.Model.Group
import Verif.Model.Visit

/-!
# The derive macros: attributes, names and constructors

Model of `derive/src/*/attr.rs`, of the parts of `derive/src/*/parse.rs` and `to_tokens.rs` that are not in
`Model/Label`, `Model/LabelGroup` and `Model/Group`. `none` is a compile error. Parsing of Rust (`syn`) is not modelled:
an attribute is the list of its arguments, and an argument that `syn` or the final `() => return Err(…)` of a match rejects
is `bad`. `E` stands for Rust expressions, paths and the like.
-/

namespace Measured.Derive

/-! ## `#[derive(MetricGroup)]` -/

/-- One argument of a `#[metric(…)]` attribute on a field. derive/src/metric_group/attr.rs:81-159 -/
inductive MetricArg (E : Type) where
  | rename (s : Bytes)
  | namespaced (s : Bytes)
  | flatten
  | init (e : E)
  | metadata (e : E)
  | labelSet (e : E)
  | bad
  deriving DecidableEq

/-- One attribute of a field. `doc none` is a `doc` attribute that is not `doc = "…"`, such as `#[doc(hidden)]`.
derive/src/metric_group/attr.rs:79-172 -/
inductive MetricAttr (E : Type) where
  | metric (args : List (MetricArg E))
  | doc (text : Option (List Char))
  | other
  deriving DecidableEq

/-- `MetricGroupFieldAttrsKind`. derive/src/metric_group/attr.rs:57-61 -/
inductive MetricKind where
  | metric (rename : Option Bytes)
  | group (ns : Option Bytes)
  deriving DecidableEq

/-- `MetricGroupFieldAttrsInit`. derive/src/metric_group/attr.rs:63-70 -/
inductive MetricInit (E : Type) where
  | raw (e : E)
  | metric (metadata labelSet : Option E)
  deriving DecidableEq

/-- The variables of the parser. derive/src/metric_group/attr.rs:74-76 -/
structure MetricState (E : Type) where
  args : Option MetricKind
  docs : Option (List Char)
  init : Option (MetricInit E)
  deriving DecidableEq

section metric
variable {E : Type}

/-- `if args.replace(arg).is_some() { return Err(…) }`. derive/src/metric_group/attr.rs:84-103 -/
def MetricState.setKind (s : MetricState E) (k : MetricKind) : Option (MetricState E) :=
  if s.args.isSome then none else some { s with args := some k }

/-- One argument. derive/src/metric_group/attr.rs:81-159 -/
def MetricState.arg (s : MetricState E) : MetricArg E → Option (MetricState E)
  | .rename r => s.setKind (.metric (some r))
  | .namespaced ns => s.setKind (.group (some ns))
  | .flatten => s.setKind (.group none)
  | .init e => if s.init.isSome then none else some { s with init := some (.raw e) }
  | .metadata e =>
    match s.init.getD (.metric none none) with
    | .metric none ls => some { s with init := some (.metric (some e) ls) }
    | .metric (some _) _ => none
    | .raw _ => none
  | .labelSet e =>
    match s.init.getD (.metric none none) with
    | .metric md none => some { s with init := some (.metric md (some e)) }
    | .metric _ (some _) => none
    | .raw _ => none
  | .bad => none

/-- `parse_nested_meta`: the arguments one after the other. -/
def MetricState.argList (s : MetricState E) : List (MetricArg E) → Option (MetricState E)
  | [] => some s
  | a :: as => (s.arg a).bind fun s => s.argList as

/-- One attribute. derive/src/metric_group/attr.rs:79-172 -/
def MetricState.attr (s : MetricState E) : MetricAttr E → Option (MetricState E)
  | .metric args => s.argList args
  | .doc none => none
  | .doc (some t) => some { s with docs := some (s.docs.getD [] ++ t) }
  | .other => some s

def MetricState.attrList (s : MetricState E) : List (MetricAttr E) → Option (MetricState E)
  | [] => some s
  | a :: as => (s.attr a).bind fun s => s.attrList as

/-- `MetricGroupFieldAttrs`. derive/src/metric_group/attr.rs:50-55 -/
structure MetricFieldAttrs (E : Type) where
  kind : MetricKind
  docs : Option (List Char)
  init : Option (MetricInit E)
  deriving DecidableEq

/-- `MetricGroupFieldAttrs::parse_attrs`. derive/src/metric_group/attr.rs:73-179 -/
def parseMetricField (attrs : List (MetricAttr E)) : Option (MetricFieldAttrs E) :=
  ((⟨none, none, none⟩ : MetricState E).attrList attrs).map fun s =>
    ⟨s.args.getD (.metric none), s.docs, s.init⟩

/-- What a field holds: a `MetricFamilyEncoding` or a `MetricGroup`. -/
inductive Member : Type 1 where
  | fam (f : Fam)
  | group (g : Group)

/-- A field of a struct with `#[derive(MetricGroup)]`. -/
structure MetricField (E : Type) where
  ident : Bytes
  attrs : List (MetricAttr E)

/-- The `const` of a metric field: `name_string`, whose `SHOUTY_SNAKE_CASE` form is the identifier of the constant.
derive/src/metric_group/to_tokens.rs:55-56 -/
def metricName (ident : Bytes) : MetricKind → Option Bytes
  | .metric rename => some (rename.getD ident)
  | .group _ => none

/-- The parts of the generated `collect_group_into`, field by field. A field of a kind that its type does not implement does
not compile. derive/src/metric_group/to_tokens.rs:51-86 -/
def visits : List (Bytes × MetricFieldAttrs E × Member) → Option Fields
  | [] => some .nil
  | (ident, a, x) :: rest =>
    (visits rest).bind fun fs =>
      match a.kind, x with
      | .metric rename, .fam f => some (.metric (rename.getD ident) a.docs.toList f fs)
      | .group none, .group g => some (.flatten g fs)
      | .group (some ns), .group g => some (.namespaced ns g fs)
      | _, _ => none

/-- The attributes of all fields. derive/src/metric_group/parse.rs:8-19, 40-44 -/
def parseFields : List (MetricField E × Member) → Option (List (Bytes × MetricFieldAttrs E × Member))
  | [] => some []
  | (f, x) :: rest =>
    (parseMetricField f.attrs).bind fun a => (parseFields rest).map fun r => (f.ident, a, x) :: r

/-- Two constants of one function body may not have the same name, and their initialisers are evaluated when
compiling. `shout` is `format_ident!("{}", s.to_shouty_snake_case())` (`none` if that is not an identifier).
derive/src/metric_group/to_tokens.rs:55-66 -/
def constsCompile (shout : Bytes → Option Bytes) (names : List Bytes) : Bool :=
  decide ((names.map shout).Nodup) && names.all fun n => (shout n).isSome && constAssertMetricName n == .ok ()

/-- `#[derive(MetricGroup)]`: the group of a struct, or a compile error. derive/src/metric_group/*.rs -/
def deriveMetricGroup (shout : Bytes → Option Bytes) (fields : List (MetricField E × Member)) : Option Group :=
  (parseFields fields).bind fun l =>
    if constsCompile shout (l.filterMap fun p => metricName p.1 p.2.1.kind) then (visits l).map .derived else none

/-! ### The generated `new` -/

/-- The expression that initialises a field. -/
inductive InitExpr (E : Type) where
  /-- `#init` -/
  | raw (e : E)
  /-- `<ty>::with_label_set_and_metadata(ls, md)` -/
  | withLabelSetAndMetadata (labelSet metadata : E)
  /-- `<ty>::with_metadata(md)` -/
  | withMetadata (metadata : E)
  /-- `<ty as Default>::default()` -/
  | default
  deriving DecidableEq

/-- One field of the generated `new`; `dflt` is the expression `::core::default::Default::default()`.
derive/src/metric_group/to_tokens.rs:99-113 -/
def initExpr (dflt : E) : Option (MetricInit E) → InitExpr E
  | some (.raw e) => .raw e
  | some (.metric metadata labelSet) =>
    match labelSet with
    | some ls => .withLabelSetAndMetadata ls (metadata.getD dflt)
    | none => .withMetadata (metadata.getD dflt)
  | none => .default

end metric

/-! ## `#[derive(LabelGroup)]` -/

/-- One argument of a `#[label(…)]` attribute on a field. derive/src/label_group/attr.rs:82-119 -/
inductive LabelArg (P : Type) where
  | fixed
  | fixedWith (p : P)
  | dynamicWith (p : P)
  | default
  | rename (s : Bytes)
  | bad
  deriving DecidableEq

/-- `LabelGroupFieldAttrsKind`. derive/src/label_group/attr.rs:50-55 -/
inductive LabelKind (P : Type) where
  | fixed
  | fixedWith (p : P)
  | dynamicWith (p : P)
  deriving DecidableEq

/-- The variables of the parser. derive/src/label_group/attr.rs:75-77 -/
structure LabelState (P : Type) where
  kind : Option (LabelKind P)
  default : Option Unit
  rename : Option Bytes
  deriving DecidableEq

section label
variable {P : Type}

/-- derive/src/label_group/attr.rs:84-111 -/
def LabelState.setKind (s : LabelState P) (k : LabelKind P) : Option (LabelState P) :=
  if s.kind.isSome then none else some { s with kind := some k }

/-- One argument. derive/src/label_group/attr.rs:82-119 -/
def LabelState.arg (s : LabelState P) : LabelArg P → Option (LabelState P)
  | .fixed => s.setKind .fixed
  | .fixedWith p => s.setKind (.fixedWith p)
  | .dynamicWith p => s.setKind (.dynamicWith p)
  | .default => if s.default.isSome then none else some { s with default := some () }
  | .rename r => if s.rename.isSome then none else some { s with rename := some r }
  | .bad => none

def LabelState.argList (s : LabelState P) : List (LabelArg P) → Option (LabelState P)
  | [] => some s
  | a :: as => (s.arg a).bind fun s => s.argList as

/-- One attribute after the other; `none` is an attribute other than `label`. derive/src/label_group/attr.rs:79-124 -/
def LabelState.attrList (s : LabelState P) : List (Option (List (LabelArg P))) → Option (LabelState P)
  | [] => some s
  | none :: as => s.attrList as
  | some args :: as => (s.argList args).bind fun s => s.attrList as

/-- `LabelGroupFieldAttrs`. derive/src/label_group/attr.rs:43-48 -/
structure LabelFieldAttrs (P : Type) where
  kind : LabelKind P
  default : Bool
  rename : Option Bytes
  deriving DecidableEq

/-- `LabelGroupFieldAttrs::parse_attrs`. derive/src/label_group/attr.rs:74-136 -/
def parseLabelField (attrs : List (Option (List (LabelArg P)))) : Option (LabelFieldAttrs P) :=
  ((⟨none, none, none⟩ : LabelState P).attrList attrs).map fun s =>
    let kind := s.kind.getD .fixed
    ⟨kind, (match s.default with | some () => true | none => false) ||
      (match kind with | .fixed => true | _ => false), s.rename⟩

/-- `get_sort_key`: `Dynamic < Fixed`. derive/src/label_group/attr.rs:57-71 -/
def labelSortKey : LabelKind P → Nat
  | .fixed => 1
  | .fixedWith _ => 1
  | .dynamicWith _ => 0

/-- How the generated `new` fills a field of the set. -/
inductive SetInit (P : Type) where
  /-- `StaticLabelSet::new()` -/
  | static
  /-- `<path as Default>::default()` -/
  | default (p : P)
  /-- the argument with the field's name -/
  | arg
  deriving DecidableEq

/-- derive/src/label_group/to_tokens.rs:107-122 -/
def setInit (a : LabelFieldAttrs P) : SetInit P :=
  if a.default then
    match a.kind with
    | .fixed => .static
    | .fixedWith p => .default p
    | .dynamicWith p => .default p
  else .arg

/-- The sorted fields. derive/src/label_group/to_tokens.rs:58-59 -/
def sortedLabelFields (fs : List (Bytes × LabelFieldAttrs P)) : List (Bytes × LabelFieldAttrs P) :=
  sortByKey (fun f => labelSortKey f.2.kind) fs

/-- One argument of the generated `new` (`Fixed => unreachable!(…)` at macro expansion).
derive/src/label_group/to_tokens.rs:139-148 -/
def newArg (f : Bytes × LabelFieldAttrs P) : Out (Bytes × P) :=
  match f.2.kind with
  | .fixed => .panic
  | .fixedWith p => .ok (f.1, p)
  | .dynamicWith p => .ok (f.1, p)

def newArgs : List (Bytes × LabelFieldAttrs P) → Out (List (Bytes × P))
  | [] => .ok []
  | f :: fs => do
    let a ← newArg f
    let as ← newArgs fs
    .ok (a :: as)

/-- The generated constructors: the arguments of `new`, how it fills the fields, and whether there is a `Default` impl.
derive/src/label_group/to_tokens.rs:107-158 -/
structure SetCtor (P : Type) where
  args : List (Bytes × P)
  fields : List (Bytes × SetInit P)
  hasDefault : Bool
  deriving DecidableEq

def setCtor (fs : List (Bytes × LabelFieldAttrs P)) : Out (SetCtor P) :=
  let sorted := sortedLabelFields fs
  let fields := sorted.map fun f => (f.1, setInit f.2)
  if sorted.all fun f => f.2.default then .ok ⟨[], fields, true⟩
  else do
    let args ← newArgs (sorted.filter fun f => !f.2.default)
    .ok ⟨args, fields, false⟩

end label

/-! ## `#[derive(FixedCardinalityLabel)]` -/

/-- `RenameAll`. derive/src/value/attr.rs:100-109 -/
inductive RenameAll where
  | upperCamel | lowerCamel | snake | kebab | shoutySnake | shoutyKebab | title | train
  deriving DecidableEq

/-- `RenameAll::parse`. derive/src/value/attr.rs:130-146 -/
def parseRenameAll (s : Bytes) : Option RenameAll :=
  if s = b!"UpperCamelCase" then some .upperCamel
  else if s = b!"lowerCamelCase" then some .lowerCamel
  else if s = b!"snake_case" then some .snake
  else if s = b!"kebab-case" then some .kebab
  else if s = b!"SHOUTY_SNAKE_CASE" then some .shoutySnake
  else if s = b!"SHOUTY-KEBAB-CASE" then some .shoutyKebab
  else if s = b!"Title Case" then some .title
  else if s = b!"Train-Case" then some .train
  else none

/-- An argument of the `#[label(…)]` attribute of an enum. derive/src/value/attr.rs:40-65 -/
inductive EnumArg (P : Type) where
  | krate (p : P)
  | renameAll (s : Bytes)
  | singleton (s : Bytes)
  | bad
  deriving DecidableEq

/-- The input of `ContainerAttrs::parse`: arguments and commas. -/
inductive EnumTok (P : Type) where
  | arg (a : EnumArg P)
  | comma
  deriving DecidableEq

/-- `ContainerAttrs`. derive/src/value/attr.rs:10-16 -/
structure EnumAttrs (P : Type) where
  krate : Option P
  renameAll : Option RenameAll
  singleton : Option Bytes
  deriving DecidableEq

section enum
variable {P : Type}

/-- One turn of the loop after the comma. derive/src/value/attr.rs:39-66 -/
def EnumAttrs.tok (s : EnumAttrs P) : EnumTok P → Option (EnumAttrs P)
  | .arg (.krate p) => if s.krate.isSome then none else some { s with krate := some p }
  | .arg (.renameAll r) =>
    (parseRenameAll r).bind fun r => if s.renameAll.isSome then none else some { s with renameAll := some r }
  | .arg (.singleton n) => if s.singleton.isSome then none else some { s with singleton := some n }
  | .arg .bad => none
  | .comma => none

/-- `ContainerAttrs::parse`. derive/src/value/attr.rs:31-69 -/
def EnumAttrs.parse (first : Bool) (s : EnumAttrs P) : List (EnumTok P) → Option (EnumAttrs P)
  | [] => some s
  | t :: ts =>
    if first then (s.tok t).bind fun s => EnumAttrs.parse false s ts
    else
      match t, ts with
      | .comma, t' :: ts' => (s.tok t').bind fun s => EnumAttrs.parse false s ts'
      | _, _ => none

/-- `ContainerAttrs::parse_attrs` over the `label` attributes of the enum. derive/src/value/attr.rs:19-27 -/
def EnumAttrs.parseAttrs (s : EnumAttrs P) : List (List (EnumTok P)) → Option (EnumAttrs P)
  | [] => some s
  | a :: as => (EnumAttrs.parse true s a).bind fun s => s.parseAttrs as

/-- A variant. `disc` is the integer literal of its discriminant. derive/src/value/parse.rs:10-39 -/
structure Variant where
  ident : Bytes
  rename : Option Bytes
  disc : Option Int
  deriving DecidableEq

/-- The value that a variant visits. `heck` is `RenameAll::apply`. derive/src/value/to_tokens.rs:22-34,
derive/src/value/parse.rs:54 -/
def variantLabel (heck : RenameAll → Bytes → Bytes) (a : EnumAttrs P) (v : Variant) : LVal :=
  match v.disc with
  | some i => .int i
  | none => .str (v.rename.getD (heck (a.renameAll.getD .snake) v.ident))

/-- The discriminants rustc gives to the variants: the literal, or one more than the one before, from 0. -/
def discriminants : Int → List Variant → List Int
  | _, [] => []
  | next, v :: vs => v.disc.getD next :: discriminants (v.disc.getD next + 1) vs

end enum

end Measured.Derive
