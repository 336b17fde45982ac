import Verif.Model.Label
import Verif.Model.Writer
import Mathlib.Data.List.FinRange
import Mathlib.Data.Fintype.Basic

/-!
# Label groups and label group sets

Model of `core/src/label/group.rs` and of the code produced by `derive(LabelGroup)`
(`derive/src/label_group/to_tokens.rs`, `derive/src/label_group/attr.rs`).
-/

namespace Measured

/-- `trait LabelGroupSet`. `S` is the state reachable through interior mutability (interners), `G` the
label group type, `U` the `Unique` type. core/src/label/group.rs:36-55 -/
structure GroupSet (S G U : Type) where
  /-- `cardinality()`; documented never to change -/
  cardinality : Option Nat
  encodeDense : U → Out (Option Nat)
  decodeDense : S → Nat → Out G
  encode : G → RS S (Option U)
  decode : S → U → Out G

/-- `?` on an `Option` inside an `Option`-returning function. -/
def tryOpt {α β : Type} (x : Out (Option α)) (f : α → Out (Option β)) : Out (Option β) :=
  x >>= fun
    | none => .ok none
    | some a => f a

/-! ## `ComposedGroup` -/

section composed
variable {S G₁ U₁ G₂ U₂ : Type}

/-- `ComposedGroup::cardinality`. core/src/label/group.rs:71-75 -/
def composedCardinality (a : GroupSet S G₁ U₁) (b : GroupSet S G₂ U₂) : Option Nat :=
  a.cardinality.bind fun x => b.cardinality.bind fun y => checkedMul x y

/-- `ComposedGroup::encode_dense`. core/src/label/group.rs:77-88 -/
def composedEncodeDense (m : Mode) (a : GroupSet S G₁ U₁) (b : GroupSet S G₂ U₂) (u : U₁ × U₂) :
    Out (Option Nat) :=
  tryOpt (b.encodeDense u.2) fun e1 => do
    let p ← mulU m e1 1
    let index ← addU m 0 p
    match b.cardinality with
    | none => .ok none
    | some c => do
      let mul ← mulU m 1 c
      tryOpt (a.encodeDense u.1) fun e0 => do
        let p ← mulU m e0 mul
        let index ← addU m index p
        .ok (some index)

/-- `ComposedGroup::decode_dense`. core/src/label/group.rs:90-104 -/
def composedDecodeDense (m : Mode) (a : GroupSet S G₁ U₁) (b : GroupSet S G₂ U₂) (s : S) (value : Nat) :
    Out (G₁ × G₂) := do
  let c1 ← expect b.cardinality
  let index ← divU value c1
  let index1 ← modU value c1
  let y ← b.decodeDense s index1
  let c0 ← expect a.cardinality
  let index' ← divU index c0
  let index1' ← modU index c0
  let x ← a.decodeDense s index1'
  debugAssert m (index' = 0)
  .ok (x, y)

/-- `ComposedGroup::encode`. core/src/label/group.rs:108-113 -/
def composedEncode (a : GroupSet S G₁ U₁) (b : GroupSet S G₂ U₂) (g : G₁ × G₂) : RS S (Option (U₁ × U₂)) :=
  a.encode g.1 >>= fun
    | none => pure none
    | some x => b.encode g.2 >>= fun
      | none => pure none
      | some y => pure (some (x, y))

/-- `ComposedGroup::decode`. core/src/label/group.rs:115-117 -/
def composedDecode (a : GroupSet S G₁ U₁) (b : GroupSet S G₂ U₂) (s : S) (u : U₁ × U₂) : Out (G₁ × G₂) := do
  let x ← a.decode s u.1
  let y ← b.decode s u.2
  .ok (x, y)

/-- `LabelGroupSet for ComposedGroup<A, B>`. Both parts live in one state `S`, so they may share an
interner (`Arc<ThreadedRodeo>`). core/src/label/group.rs:68-118 -/
def composed (m : Mode) (a : GroupSet S G₁ U₁) (b : GroupSet S G₂ U₂) : GroupSet S (G₁ × G₂) (U₁ × U₂) where
  cardinality := composedCardinality a b
  encodeDense := composedEncodeDense m a b
  decodeDense := composedDecodeDense m a b
  encode := composedEncode a b
  decode := composedDecode a b

end composed

/-- `LabelGroupSet for &'static T` and `for Arc<T>`: delegation. core/src/label/group.rs:133-183 -/
def refGroupSet {S G U : Type} (t : GroupSet S G U) : GroupSet S G U where
  cardinality := t.cardinality
  encodeDense u := t.encodeDense u
  decodeDense s n := t.decodeDense s n
  encode g := t.encode g
  decode s u := t.decode s u

/-- `LabelGroupSet for StaticLabelSet<T>` (an enum that is itself a label group, via
`#[label(singleton = "…")]`). core/src/label/value.rs:45-69 -/
def staticGroupSet {S V : Type} [DecidableEq V] (variants : List V) : GroupSet S V Nat where
  cardinality := some (staticLabelSet variants).card
  encodeDense u := .ok (some u)
  decodeDense _ n := (staticLabelSet variants).decode n
  encode g := fun s => (.ok ((staticLabelSet variants).encode g), s)
  decode _ u := (staticLabelSet variants).decode u

/-! ## `derive(LabelGroup)` -/

/-- Kind of a field: `fixed` covers `Fixed` (a `StaticLabelSet<ty>`) and `FixedWith`; a `dynamic` field
refers to an interner in the heap. Two fields may refer to the same interner (shared `Arc`).
derive/src/label_group/attr.rs:50-55 -/
inductive FieldKind (V : Type) where
  | fixed (set : FixedSet V)
  | dynamic (ref : Nat)

/-- One field of the struct. derive/src/label_group/mod.rs:19-26 -/
structure Field (V : Type) where
  /-- label name: `rename` or the field identifier (derive/src/label_group/to_tokens.rs:22) -/
  name : Bytes
  kind : FieldKind V

/-- A struct with `#[derive(LabelGroup)]`: its fields in declaration order. -/
structure GroupDef (V : Type) where
  n : Nat
  field : Fin n → Field V

/-- A value of the struct: one label value per field. -/
abbrev GroupDef.Group {V : Type} (d : GroupDef V) : Type := Fin d.n → V

/-- Heap of interners. -/
abbrev Heap (S : Type) := Nat → S

def Heap.set {S : Type} (h : Heap S) (r : Nat) (s : S) : Heap S := fun k => if k = r then s else h k

section derive
variable {S V : Type}

/-- `LabelGroupFieldAttrsSortKey`: `Dynamic < Fixed`. derive/src/label_group/attr.rs:57-71 -/
def sortKey : FieldKind V → Nat
  | .dynamic _ => 0
  | .fixed _ => 1

/-- Insert before the first element whose key is not smaller (building block of a stable sort). -/
def insertByKey {α : Type} (key : α → Nat) (x : α) : List α → List α
  | [] => [x]
  | y :: ys => if key x ≤ key y then x :: y :: ys else y :: insertByKey key x ys

/-- `slice::sort_by_key` (stable). -/
def sortByKey {α : Type} (key : α → Nat) : List α → List α
  | [] => []
  | x :: xs => insertByKey key x (sortByKey key xs)

/-- `slice::partition_point` on a partitioned slice. -/
def partitionPoint {α : Type} (p : α → Bool) (l : List α) : Nat := (l.takeWhile p).length

/-- derive/src/label_group/to_tokens.rs:58-59 -/
def GroupDef.sortedFields (d : GroupDef V) : List (Fin d.n) :=
  sortByKey (fun i => sortKey (d.field i).kind) (List.finRange d.n)

/-- derive/src/label_group/to_tokens.rs:84-85 -/
def GroupDef.part (d : GroupDef V) : Nat :=
  partitionPoint (fun i => sortKey (d.field i).kind == 0) d.sortedFields

/-- The interner of a dynamic field (`_ => unreachable!()` at macro expansion). -/
def dynRef (d : GroupDef V) (i : Fin d.n) : Option (Nat × Fin d.n) :=
  match (d.field i).kind with
  | .dynamic r => some (r, i)
  | .fixed _ => none

/-- The set of a fixed field (`DynamicWith(_) => unreachable!()` at macro expansion). -/
def fixedRef (d : GroupDef V) (i : Fin d.n) : Option (FixedSet V × Fin d.n) :=
  match (d.field i).kind with
  | .dynamic _ => none
  | .fixed s => some (s, i)

/-- derive/src/label_group/to_tokens.rs:86 -/
def GroupDef.dynamics (d : GroupDef V) : List (Nat × Fin d.n) :=
  (d.sortedFields.take d.part).filterMap (dynRef d)

/-- derive/src/label_group/to_tokens.rs:86-91: the fixed fields, reversed -/
def GroupDef.fixed (d : GroupDef V) : List (FixedSet V × Fin d.n) :=
  (d.sortedFields.drop d.part).reverse.filterMap (fixedRef d)

/-- `Some(1usize).and_then(|x| x.checked_mul(card0)).and_then(…)…`. derive/src/label_group/to_tokens.rs:163-164 -/
def checkedCards {n : Nat} : List (FixedSet V × Fin n) → Option Nat → Option Nat
  | [], acc => acc
  | (s, _) :: rest, acc => checkedCards rest (acc.bind fun x => checkedMul x s.card)

/-- Generated `cardinality`. derive/src/label_group/to_tokens.rs:160-189 -/
def derivedCardinality (d : GroupDef V) : Option Nat :=
  if d.dynamics.isEmpty then checkedCards d.fixed (some 1) else none

/-- Generated loop body `index += encode? * mul; mul *= card;`. derive/src/label_group/to_tokens.rs:279-287 -/
def encodeFixed {n : Nat} (m : Mode) (g : Fin n → V) :
    List (FixedSet V × Fin n) → (mul index : Nat) → Out (Option Nat)
  | [], _, index => .ok (some index)
  | (s, i) :: rest, mul, index =>
    match s.encode (g i) with
    | none => .ok none
    | some e => do
      let p ← mulU m e mul
      let index ← addU m index p
      let mul ← mulU m mul s.card
      encodeFixed m g rest mul index

/-- Generated tuple of dynamic encodes with `?`. derive/src/label_group/to_tokens.rs:262-276, 289-292 -/
def encodeDyn {n : Nat} (D : DynSet S V) (g : Fin n → V) :
    List (Nat × Fin n) → Heap S → Option (List Nat) × Heap S
  | [], h => (some [], h)
  | (r, i) :: rest, h =>
    match D.encode (h r) (g i) with
    | (none, s) => (none, h.set r s)
    | (some k, s) =>
      match encodeDyn D g rest (h.set r s) with
      | (none, h') => (none, h')
      | (some ks, h') => (some (k :: ks), h')

/-- Generated `encode`: fixed fields first, then the dynamic ones. `Unique` is `usize` or a tuple
`(usize, usize, …)`, here `Nat × List Nat`. derive/src/label_group/to_tokens.rs:278-294 -/
def derivedEncode (m : Mode) (D : DynSet S V) (d : GroupDef V) (g : d.Group) :
    RS (Heap S) (Option (Nat × List Nat)) := fun h =>
  match encodeFixed m g d.fixed 1 0 with
  | .ok (some index) =>
    match encodeDyn D g d.dynamics h with
    | (some ks, h') => (.ok (some (index, ks)), h')
    | (none, h') => (.ok none, h')
  | .ok none => (.ok none, h)
  | .err => (.err, h)
  | .panic => (.panic, h)

/-- The local variables bound by the generated `decode` (`let #name = …`). -/
abbrev Env (V : Type) (n : Nat) := Fin n → Option V

def Env.bind {n : Nat} (env : Env V n) (i : Fin n) (v : V) : Env V n :=
  fun j => if j = i then some v else env j

/-- Generated `let card = …; let (index, index1) = (index / card, index % card); let #name = decode(index1);`.
derive/src/label_group/to_tokens.rs:353-362 -/
def decodeFixed {n : Nat} : List (FixedSet V × Fin n) → Nat → Env V n → Out (Nat × Env V n)
  | [], index, env => .ok (index, env)
  | (s, i) :: rest, index, env => do
    let q ← divU index s.card
    let r ← modU index s.card
    let v ← s.decode r
    decodeFixed rest q (env.bind i v)

/-- Generated decodes of the dynamic fields. derive/src/label_group/to_tokens.rs:331-349, 366-368 -/
def decodeDyn {n : Nat} (D : DynSet S V) (h : Heap S) :
    List (Nat × Fin n) → List Nat → Env V n → Out (Env V n)
  | [], [], env => .ok env
  | (r, i) :: rest, k :: ks, env => do
    let v ← D.decode (h r) k
    decodeDyn D h rest ks (env.bind i v)
  | _, _, _ => .panic

/-- `Self::Group { #(#field_names,)* }` (a missing field would be a compile error).
derive/src/label_group/to_tokens.rs:370-372 -/
def buildGroup {n : Nat} (env : Env V n) : Out (Fin n → V) :=
  if h : ∀ i, (env i).isSome then .ok (fun i => (env i).get (h i)) else .panic

/-- Generated `decode`. derive/src/label_group/to_tokens.rs:353-373 -/
def derivedDecode (m : Mode) (D : DynSet S V) (d : GroupDef V) (h : Heap S) (u : Nat × List Nat) :
    Out d.Group := do
  let (index, env) ← decodeFixed d.fixed u.1 (fun _ => none)
  debugAssert m (index = 0)
  let env ← decodeDyn D h d.dynamics u.2 env
  buildGroup env

/-- Generated `encode_dense`. derive/src/label_group/to_tokens.rs:167-169, 182-184 -/
def derivedEncodeDense (d : GroupDef V) (u : Nat × List Nat) : Out (Option Nat) :=
  if d.dynamics.isEmpty then .ok (some u.1) else .ok none

/-- Generated `decode_dense`. derive/src/label_group/to_tokens.rs:170-172, 185-187 -/
def derivedDecodeDense (m : Mode) (D : DynSet S V) (d : GroupDef V) (h : Heap S) (n : Nat) : Out d.Group :=
  if d.dynamics.isEmpty then derivedDecode m D d h (n, []) else .panic

/-- The label group set generated by `derive(LabelGroup)`. derive/src/label_group/to_tokens.rs:205-221 -/
def derived (m : Mode) (D : DynSet S V) (d : GroupDef V) : GroupSet (Heap S) d.Group (Nat × List Nat) where
  cardinality := derivedCardinality d
  encodeDense := derivedEncodeDense d
  decodeDense := derivedDecodeDense m D d
  encode := derivedEncode m D d
  decode := derivedDecode m D d

/-- Generated `visit_values`: label names and values in declaration order. derive/src/label_group/to_tokens.rs:20-37 -/
def derivedVisit (d : GroupDef V) (g : d.Group) : List (Bytes × V) :=
  (List.finRange d.n).map fun i => ((d.field i).name, g i)

end derive
end Measured
