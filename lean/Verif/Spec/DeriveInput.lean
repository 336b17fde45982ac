import Verif.Model.DeriveInput
import Verif.Spec.Derive

/-! # Which types the derive macros accept, independent of the order in which they are checked -/

namespace Measured.Spec
open Measured.Derive

/-- The arguments of all attributes that the macro reads. -/
def argsOf {α : Type} (attrs : List (Option (List α))) : List α := attrs.flatMap fun a => a.getD []

/-- The crate that the generated code refers to: the one given, else `::measured`. -/
inductive CrateIs {P A : Type} (krate : P → A) (args : List A) (dflt : P) : P → Prop where
  | given {p : P} : krate p ∈ args → CrateIs krate args dflt p
  | default : (∀ p, krate p ∉ args) → CrateIs krate args dflt dflt

section labelGroup
variable {P V : Type}

def lgCrateArg : LabelGroupArg P → Option P
  | .krate p => some p
  | _ => none

def lgSetArg : LabelGroupArg P → Option Bytes
  | .set s => some s
  | _ => none

/-- A struct with named fields, `set` given once, `crate` at most once, nothing else, and every field as it should be. -/
structure LabelGroupOk (i : LabelGroupIn P V) : Prop where
  known : .bad ∉ argsOf i.attrs
  krate : ((argsOf i.attrs).filterMap lgCrateArg).length ≤ 1
  set : ((argsOf i.attrs).filterMap lgSetArg).length = 1
  fields : ∃ fs, i.data = .struct (.named fs) ∧ ∀ f ∈ fs, LabelAttrsOk f.attrs

end labelGroup

section metricGroup
variable {E P I V : Type}

def mgCrateArg : MetricGroupArg P I → Option P
  | .krate p => some p
  | _ => none

def mgNewArg : MetricGroupArg P I → Option I
  | .new i => some i
  | _ => none

/-- A struct with named fields, `crate` and `new` at most once each, nothing else, and every field as it should be. -/
structure MetricGroupOk (i : MetricGroupIn E P I V) : Prop where
  known : .bad ∉ argsOf i.attrs
  krate : ((argsOf i.attrs).filterMap mgCrateArg).length ≤ 1
  new : ((argsOf i.attrs).filterMap mgNewArg).length ≤ 1
  fields : ∃ fs, i.data = .struct (.named fs) ∧ ∀ f ∈ fs, MetricAttrsOk f.attrs

end metricGroup

section label
variable {P F : Type}

/-- A variant without fields, renamed at most once, and with an integer literal as its discriminant, if it has one. -/
structure VariantOk (v : VariantIn F) : Prop where
  known : .bad ∉ argsOf v.attrs
  rename : (argsOf v.attrs).length ≤ 1
  fields : v.fields = .unit
  disc : ∀ e, v.disc = some e → ∃ n, e = .int n

/-- What the macro reads off a variant. -/
structure VariantRead (v : VariantIn F) (w : Variant) : Prop where
  ident : w.ident = v.ident
  rename : ∀ s, w.rename = some s ↔ .rename s ∈ argsOf v.attrs
  disc : ∀ x : Int, w.disc = some x ↔ ∃ n : Nat, v.disc = some (.int n) ∧ x = n

/-- An enum all of whose variants are as they should be, with attributes that are lists of arguments (without a comma at the
end), each at most once. -/
structure EnumOk (i : EnumIn P F) : Prop where
  attrs : ∃ argss : List (List (EnumArg P)), i.attrs = argss.map writtenArgs ∧ EnumArgsOk argss.flatten
  variants : ∃ vs, i.data = .enum vs ∧ ∀ v ∈ vs, VariantOk v

end label

end Measured.Spec
