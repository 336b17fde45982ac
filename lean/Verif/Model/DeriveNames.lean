import Verif.Model.LabelGroup
import Verif.Model.Text

/-!
# The names in the `decode` that `derive(LabelGroup)` writes

`Model/LabelGroup.lean` takes the local variables of the generated `decode` apart from the fields of the struct. In the
generated code they are not apart: `let #name = …` binds a variable with the name of the field in the same block as `index`,
`card`, `index1` and `dynamic_index0`, `dynamic_index1`, …, and the macro gives all of them the hygiene of the call site
(`quote!`, `format_ident!`). So a field may hide a variable of the macro, or be hidden by one. Here the body is a list of
statements over named variables, with what the type checker says about it and what it does.

Simplified: the types are `usize` and the types of the fields. `LabelValue` is not implemented for `usize`
(core/src/label/impls.rs:33-49) and cannot be outside of the crate, so no field is a `usize`. Types of fields that can be
divided by a `usize`, and constants with the name of a field (which would turn `let` into a match), are left out. All label
values are in one type `V`; the checker does not tell the types of two fields apart in the literal, so it accepts more
than rustc.
-/

namespace Measured.Names

/-- An identifier. -/
abbrev Id := Bytes

/-- `format_ident!("dynamic_index{i}")`. derive/src/label_group/to_tokens.rs:329-333 -/
def dynIndex (j : Nat) : Id := b!"dynamic_index" ++ decDigits j

/-- What stands on the right of a `let`. -/
inductive Expr (n : Nat) where
  /-- `<… as FixedCardinalitySet>::cardinality(&self.#name)`. derive/src/label_group/to_tokens.rs:100-101 -/
  | card (i : Fin n)
  | div (x y : Id)
  | rem (x y : Id)
  /-- `<… as LabelSet>::decode(&self.#name, x)`. derive/src/label_group/to_tokens.rs:322-323, 345 -/
  | decode (i : Fin n) (x : Id)

/-- A statement of the generated `decode`. -/
inductive Stmt (n : Nat) where
  | bind (x : Id) (e : Expr n)
  /-- `let (x, y) = (e, f);` -/
  | pair (x y : Id) (e f : Expr n)
  /-- `debug_assert_eq!(x, 0);` -/
  | assertZero (x : Id)

/-- A struct with `#[derive(LabelGroup)]`, and the identifiers of its fields. -/
structure Decl (V : Type) where
  group : GroupDef V
  ident : Fin group.n → Id
  /-- `value == 0`, if the type of the field implements `PartialEq` for some integer (and `Debug`) -/
  eqZero : Fin group.n → Option (V → Bool)

variable {S V : Type}

/-- `let card = …; let (index, index1) = (index / card, index % card); let #name = …;` for every fixed field.
derive/src/label_group/to_tokens.rs:357-361 -/
def fixedStmts {n : Nat} (ident : Fin n → Id) : List (FixedSet V × Fin n) → List (Stmt n)
  | [] => []
  | (_, i) :: rest =>
    .bind b!"card" (.card i) ::
    .pair b!"index" b!"index1" (.div b!"index" b!"card") (.rem b!"index" b!"card") ::
    .bind (ident i) (.decode i b!"index1") :: fixedStmts ident rest

/-- `let #name = …decode(&self.#name, dynamic_index#j);` for every dynamic field. derive/src/label_group/to_tokens.rs:335-349,
365-367 -/
def dynStmts {n : Nat} (ident : Fin n → Id) : Nat → List (Nat × Fin n) → List (Stmt n)
  | _, [] => []
  | j, (_, i) :: rest => .bind (ident i) (.decode i (dynIndex j)) :: dynStmts ident (j + 1) rest

/-- The body of the generated `decode`. derive/src/label_group/to_tokens.rs:355-367 -/
def body (d : Decl V) : List (Stmt d.group.n) :=
  fixedStmts d.ident d.group.fixed ++ .assertZero b!"index" :: dynStmts d.ident 0 d.group.dynamics

/-- The fields in the literal `Self::Group { #(#field_names,)* }`. derive/src/label_group/to_tokens.rs:351, 369-371 -/
def literal (d : Decl V) : List (Fin d.group.n) := d.group.fixed.map Prod.snd ++ d.group.dynamics.map Prod.snd

/-! ## Types -/

inductive Ty (n : Nat) where
  | usize
  | label (i : Fin n)
  deriving DecidableEq

/-- The variables in scope. -/
abbrev Scope (n : Nat) := Id → Option (Ty n)

def Expr.ty {n : Nat} (Γ : Scope n) : Expr n → Option (Ty n)
  | .card _ => some .usize
  | .div x y | .rem x y => if Γ x = some .usize ∧ Γ y = some .usize then some .usize else none
  | .decode i x => if Γ x = some .usize then some (.label i) else none

/-- A later `let` hides an earlier one. -/
def bindVar {α : Type} (f : Id → Option α) (x : Id) (a : α) : Id → Option α := fun y => if y = x then some a else f y

def Stmt.check {n : Nat} (eqZero : Fin n → Option (V → Bool)) (Γ : Scope n) : Stmt n → Option (Scope n)
  | .bind x e => (e.ty Γ).map (bindVar Γ x)
  | .pair x y e f => (e.ty Γ).bind fun a => (f.ty Γ).map fun b => bindVar (bindVar Γ x a) y b
  | .assertZero x =>
    match Γ x with
    | some .usize => some Γ
    | some (.label i) => if (eqZero i).isSome then some Γ else none
    | none => none

def checkAll {n : Nat} (eqZero : Fin n → Option (V → Bool)) : Scope n → List (Stmt n) → Option (Scope n)
  | Γ, [] => some Γ
  | Γ, s :: ss => (s.check eqZero Γ).bind fun Γ' => checkAll eqZero Γ' ss

/-- `let (index, dynamic_index0, …) = *value;` with `type Unique = (usize, usize, …)`.
derive/src/label_group/to_tokens.rs:166, 180, 355 -/
def unpack {α : Type} (index : α) (ks : List α) : Id → Option α := fun x =>
  if x = b!"index" then some index else (ks.zipIdx.find? fun p => dynIndex p.2 == x).map Prod.fst

/-- The literal is well typed: every field once, each from a variable that is not a `usize`. -/
def literalOk (d : Decl V) (Γ : Scope d.group.n) : Prop :=
  (∀ i, i ∈ literal d) ∧ (literal d).Nodup ∧ ∀ i ∈ literal d, ∃ j, Γ (d.ident i) = some (.label j)

/-- rustc accepts the generated `decode`. -/
def Compiles (d : Decl V) : Prop :=
  ∃ Γ, checkAll d.eqZero (unpack .usize (d.group.dynamics.map fun _ => .usize)) (body d) = some Γ ∧ literalOk d Γ

/-! ## What it does -/

inductive Val (V : Type) (n : Nat) where
  | num (k : Nat)
  | label (i : Fin n) (v : V)

/-- The values of the variables. -/
abbrev Vars (V : Type) (n : Nat) := Id → Option (Val V n)

/-- A variable that the checker has found to be a `usize`. -/
def num {n : Nat} (vs : Vars V n) (x : Id) : Out Nat :=
  match vs x with
  | some (.num k) => .ok k
  | _ => .panic

def Expr.eval (D : DynSet S V) (d : GroupDef V) (h : Heap S) (vs : Vars V d.n) : Expr d.n → Out (Val V d.n)
  | .card i =>
    match (d.field i).kind with
    | .fixed s => .ok (.num s.card)
    | .dynamic _ => .panic
  | .div x y => do
    let a ← num vs x
    let b ← num vs y
    let q ← divU a b
    .ok (.num q)
  | .rem x y => do
    let a ← num vs x
    let b ← num vs y
    let r ← modU a b
    .ok (.num r)
  | .decode i x => do
    let k ← num vs x
    match (d.field i).kind with
    | .fixed s => do
      let v ← s.decode k
      .ok (.label i v)
    | .dynamic r => do
      let v ← D.decode (h r) k
      .ok (.label i v)

def Stmt.run (m : Mode) (D : DynSet S V) (d : Decl V) (h : Heap S) (vs : Vars V d.group.n) :
    Stmt d.group.n → Out (Vars V d.group.n)
  | .bind x e => do
    let a ← e.eval D d.group h vs
    .ok (bindVar vs x a)
  | .pair x y e f => do
    let a ← e.eval D d.group h vs
    let b ← f.eval D d.group h vs
    .ok (bindVar (bindVar vs x a) y b)
  | .assertZero x =>
    match vs x with
    | some (.num k) => do
      debugAssert m (k = 0)
      .ok vs
    | some (.label i v) =>
      match d.eqZero i with
      | some z => do
        debugAssert m (z v)
        .ok vs
      | none => .panic
    | none => .panic

def runAll (m : Mode) (D : DynSet S V) (d : Decl V) (h : Heap S) : Vars V d.group.n → List (Stmt d.group.n) → Out (Vars V d.group.n)
  | vs, [] => .ok vs
  | vs, s :: ss => do
    let vs' ← s.run m D d h vs
    runAll m D d h vs' ss

/-- A label from a variable. -/
def Val.label? {n : Nat} : Val V n → Option V
  | .label _ v => some v
  | .num _ => none

/-- The generated `decode`, with its names. derive/src/label_group/to_tokens.rs:353-373 -/
def decode (m : Mode) (D : DynSet S V) (d : Decl V) (h : Heap S) (u : Nat × List Nat) : Out d.group.Group := do
  let vs ← runAll m D d h (unpack (.num u.1) (u.2.map .num)) (body d)
  buildGroup fun i => (vs (d.ident i)).bind Val.label?

end Measured.Names
