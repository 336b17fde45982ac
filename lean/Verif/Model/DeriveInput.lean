import Verif.Model.Derive

/-!
# The derive macros: which types they accept

Model of `TryFrom<DeriveInput>` in `derive/src/*/parse.rs` and of the attributes of the type itself and of enum variants.
A compile error is `err`, a panic of the macro is `panic`. Attributes are as in `Model/Derive`: `none` is an attribute of
another name, and an attribute that is not a list of arguments, or an argument that does not parse, is `bad`. The generics,
visibility and spans of the input are left out.
-/

namespace Measured.Derive

/-- `syn::Fields`: the fields of a struct or of a variant. -/
inductive FieldsIn (F : Type) where
  | named (fs : List F)
  | unnamed (fs : List F)
  | unit
  deriving DecidableEq

/-- `syn::Data`. -/
inductive DataIn (F V : Type) where
  | struct (fs : FieldsIn F)
  | enum (vs : List V)
  | union (fs : List F)
  deriving DecidableEq

/-- `Option::unwrap`. -/
def unwrap {α : Type} : Option α → Out α
  | some a => .ok a
  | none => .panic

/-- `?` on a `syn::Result`. -/
def orErr {α : Type} : Option α → Out α
  | some a => .ok a
  | none => .err

/-- `.into_iter().map(f).collect::<Result<Vec<_>, _>>()`, which stops at the first error. -/
def collectAll {α β : Type} (f : α → Out β) : List α → Out (List β)
  | [] => .ok []
  | a :: as => do
    let b ← f a
    let bs ← collectAll f as
    .ok (b :: bs)

/-! ## `#[derive(LabelGroup)]` -/

section labelGroup
variable {P V : Type}

/-- An argument of `#[label(…)]` on the struct. derive/src/label_group/attr.rs:20-34 -/
inductive LabelGroupArg (P : Type) where
  | krate (p : P)
  | set (ident : Bytes)
  | bad
  deriving DecidableEq

/-- `ContainerAttrs`. derive/src/label_group/attr.rs:8-13 -/
structure LabelGroupAttrs (P : Type) where
  krate : Option P
  set : Option Bytes
  deriving DecidableEq

/-- One argument. derive/src/label_group/attr.rs:20-34 -/
def LabelGroupAttrs.arg (s : LabelGroupAttrs P) : LabelGroupArg P → Option (LabelGroupAttrs P)
  | .krate p => if s.krate.isSome then none else some { s with krate := some p }
  | .set i => if s.set.isSome then none else some { s with set := some i }
  | .bad => none

def LabelGroupAttrs.argList (s : LabelGroupAttrs P) : List (LabelGroupArg P) → Option (LabelGroupAttrs P)
  | [] => some s
  | a :: as => (s.arg a).bind fun s => s.argList as

/-- `ContainerAttrs::parse_attrs`. derive/src/label_group/attr.rs:15-40 -/
def LabelGroupAttrs.attrList (s : LabelGroupAttrs P) :
    List (Option (List (LabelGroupArg P))) → Option (LabelGroupAttrs P)
  | [] => some s
  | none :: as => s.attrList as
  | some args :: as => (s.argList args).bind fun s => s.attrList as

/-- `syn::Field`, as far as `LabelGroupField` reads it. -/
structure LabelFieldIn (P : Type) where
  ident : Option Bytes
  attrs : List (Option (List (LabelArg P)))
  deriving DecidableEq

/-- `LabelGroupField::try_from`. derive/src/label_group/parse.rs:8-20 -/
def labelField (f : LabelFieldIn P) : Out (Bytes × LabelFieldAttrs P) := do
  let attrs ← orErr (parseLabelField f.attrs)
  let name ← unwrap f.ident
  .ok (name, attrs)

/-- `DeriveInput`, as far as `LabelGroup` reads it. -/
structure LabelGroupIn (P V : Type) where
  ident : Bytes
  attrs : List (Option (List (LabelGroupArg P)))
  data : DataIn (LabelFieldIn P) V

/-- `LabelGroup`. derive/src/label_group/mod.rs:10-17 -/
structure LabelGroupDecl (P : Type) where
  krate : P
  set : Bytes
  ident : Bytes
  fields : List (Bytes × LabelFieldAttrs P)
  deriving DecidableEq

/-- `LabelGroup::try_from`; `dflt` is the path `::measured` of `Krate::default`. derive/src/label_group/parse.rs:22-66,
derive/src/lib.rs:37-50 -/
def deriveLabelGroup (dflt : P) (i : LabelGroupIn P V) : Out (LabelGroupDecl P) := do
  let args ← orErr ((⟨none, none⟩ : LabelGroupAttrs P).attrList i.attrs)
  let set ← orErr args.set
  let fields ← (match i.data with
    | .enum _ => .err
    | .union _ => .err
    | .struct (.named n) => collectAll labelField n
    | .struct (.unnamed _) => .err
    | .struct .unit => .err)
  .ok ⟨args.krate.getD dflt, set, i.ident, fields⟩

end labelGroup

/-! ## `#[derive(MetricGroup)]` -/

section metricGroup
variable {E P I V : Type}

/-- An argument of `#[metric(…)]` on the struct; `new(…)` with the inputs of the function.
derive/src/metric_group/attr.rs:24-43 -/
inductive MetricGroupArg (P I : Type) where
  | krate (p : P)
  | new (inputs : I)
  | bad
  deriving DecidableEq

/-- `ContainerAttrs`. derive/src/metric_group/attr.rs:10-15 -/
structure MetricGroupAttrs (P I : Type) where
  krate : Option P
  inputs : Option I
  deriving DecidableEq

/-- One argument. derive/src/metric_group/attr.rs:24-43 -/
def MetricGroupAttrs.arg (s : MetricGroupAttrs P I) : MetricGroupArg P I → Option (MetricGroupAttrs P I)
  | .krate p => if s.krate.isSome then none else some { s with krate := some p }
  | .new i => if s.inputs.isSome then none else some { s with inputs := some i }
  | .bad => none

def MetricGroupAttrs.argList (s : MetricGroupAttrs P I) : List (MetricGroupArg P I) → Option (MetricGroupAttrs P I)
  | [] => some s
  | a :: as => (s.arg a).bind fun s => s.argList as

/-- `ContainerAttrs::parse_attrs`. derive/src/metric_group/attr.rs:17-48 -/
def MetricGroupAttrs.attrList (s : MetricGroupAttrs P I) :
    List (Option (List (MetricGroupArg P I))) → Option (MetricGroupAttrs P I)
  | [] => some s
  | none :: as => s.attrList as
  | some args :: as => (s.argList args).bind fun s => s.attrList as

/-- `syn::Field`, as far as `MetricGroupField` reads it. -/
structure MetricFieldIn (E : Type) where
  ident : Option Bytes
  attrs : List (MetricAttr E)
  deriving DecidableEq

/-- `MetricGroupField::try_from`. derive/src/metric_group/parse.rs:8-19 -/
def metricField (f : MetricFieldIn E) : Out (Bytes × MetricFieldAttrs E) := do
  let attrs ← orErr (parseMetricField f.attrs)
  let name ← unwrap f.ident
  .ok (name, attrs)

/-- `DeriveInput`, as far as `MetricGroup` reads it. -/
structure MetricGroupIn (E P I V : Type) where
  ident : Bytes
  attrs : List (Option (List (MetricGroupArg P I)))
  data : DataIn (MetricFieldIn E) V

/-- `MetricGroup`. derive/src/metric_group/mod.rs:8-14 -/
structure MetricGroupDecl (E P I : Type) where
  krate : P
  ident : Bytes
  fields : List (Bytes × MetricFieldAttrs E)
  inputs : Option I
  deriving DecidableEq

/-- `MetricGroup::try_from`. derive/src/metric_group/parse.rs:21-61 -/
def deriveMetricGroupDecl (dflt : P) (i : MetricGroupIn E P I V) : Out (MetricGroupDecl E P I) := do
  let args ← orErr ((⟨none, none⟩ : MetricGroupAttrs P I).attrList i.attrs)
  let fields ← (match i.data with
    | .enum _ => .err
    | .union _ => .err
    | .struct (.named n) => collectAll metricField n
    | .struct (.unnamed _) => .err
    | .struct .unit => .err)
  .ok ⟨args.krate.getD dflt, i.ident, fields, args.inputs⟩

/-- The generated `pub fn new(#inputs)`, if asked for: its inputs and how it fills the fields.
derive/src/metric_group/to_tokens.rs:97-125 -/
def newFn (dflt : E) (d : MetricGroupDecl E P I) : Option (I × List (Bytes × InitExpr E)) :=
  d.inputs.map fun i => (i, d.fields.map fun f => (f.1, initExpr dflt f.2.init))

end metricGroup

/-! ## `#[derive(FixedCardinalityLabel)]` -/

section label
variable {P F : Type}

/-- An argument of `#[label(…)]` on a variant. derive/src/value/attr.rs:83-92 -/
inductive VariantArg where
  | rename (s : Bytes)
  | bad
  deriving DecidableEq

/-- One argument. derive/src/value/attr.rs:83-92 -/
def variantArg (s : Option Bytes) : VariantArg → Option (Option Bytes)
  | .rename r => if s.isSome then none else some (some r)
  | .bad => none

def variantArgs (s : Option Bytes) : List VariantArg → Option (Option Bytes)
  | [] => some s
  | a :: as => (variantArg s a).bind fun s => variantArgs s as

/-- `VariantAttrs::parse_attrs`. derive/src/value/attr.rs:76-98 -/
def variantAttrs (s : Option Bytes) : List (Option (List VariantArg)) → Option (Option Bytes)
  | [] => some s
  | none :: as => variantAttrs s as
  | some args :: as => (variantArgs s args).bind fun s => variantAttrs s as

/-- The expression of a discriminant: an integer literal, another literal, another expression (such as `-1`). -/
inductive DiscExpr where
  | int (n : Nat)
  | lit
  | other
  deriving DecidableEq

/-- `syn::Variant`. -/
structure VariantIn (F : Type) where
  ident : Bytes
  attrs : List (Option (List VariantArg))
  fields : FieldsIn F
  disc : Option DiscExpr
  deriving DecidableEq

/-- The closure on the discriminant. derive/src/value/parse.rs:29-35 -/
def discValue : DiscExpr → Option Nat
  | .int n => some n
  | .lit => none
  | .other => none

/-- `FixedCardinalityLabelVariant::try_from`. derive/src/value/parse.rs:10-39 -/
def enumVariant (v : VariantIn F) : Out Variant := do
  let rename ← orErr (variantAttrs none v.attrs)
  match v.fields with
  | .named _ => .err
  | .unnamed _ => .err
  | .unit =>
    match v.disc with
    | none => .ok ⟨v.ident, rename, none⟩
    | some e => do
      let n ← orErr (discValue e)
      .ok ⟨v.ident, rename, some (n : Int)⟩

/-- `DeriveInput`, as far as `FixedCardinalityLabel` reads it: only `label` attributes are in `attrs`. -/
structure EnumIn (P F : Type) where
  ident : Bytes
  attrs : List (List (EnumTok P))
  data : DataIn F (VariantIn F)

/-- `FixedCardinalityLabel`. derive/src/value/mod.rs:10-16 -/
structure EnumDecl (P : Type) where
  krate : P
  renameAll : RenameAll
  ident : Bytes
  variants : List Variant
  singleton : Option Bytes
  deriving DecidableEq

/-- `FixedCardinalityLabel::try_from`. derive/src/value/parse.rs:41-75 -/
def deriveEnum (dflt : P) (i : EnumIn P F) : Out (EnumDecl P) := do
  let args ← orErr ((⟨none, none, none⟩ : EnumAttrs P).parseAttrs i.attrs)
  let variants ← (match i.data with
    | .enum vs => collectAll enumVariant vs
    | .union _ => .err
    | .struct _ => .err)
  .ok ⟨args.krate.getD dflt, args.renameAll.getD .snake, i.ident, variants, args.singleton⟩

end label

end Measured.Derive
