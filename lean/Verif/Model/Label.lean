import Verif.Model.Prim

/-!
# Label values and label sets

Model of `core/src/label/value.rs`, `core/src/label/impls.rs` and of the code produced by
`derive(FixedCardinalityLabel)` (`derive/src/value/to_tokens.rs`).

`V` is the type of label values. A `FixedSet` is an immutable `LabelSet + FixedCardinalitySet`,
a `DynSet` is a `DynamicLabelSet` with interior state `S`.
-/

namespace Measured

variable {V : Type}

/-- `LabelSet + FixedCardinalitySet` of an immutable set.
core/src/label/value.rs:150-158, 180-195 -/
structure FixedSet (V : Type) where
  /-- `FixedCardinalitySet::cardinality` -/
  card : Nat
  /-- `LabelSet::encode` -/
  encode : V → Option Nat
  /-- `LabelSet::decode` -/
  decode : Nat → Out V

/-- `DynamicLabelSet`: encoding may change the interior state.
core/src/label/value.rs:169-172, 180-195 -/
structure DynSet (S V : Type) where
  encode : S → V → Option Nat × S
  decode : S → Nat → Out V

/-! ## `derive(FixedCardinalityLabel)` -/

/-- `match self { V0 => 0, V1 => 1, … }`: first arm with that identifier. `none` means "not a variant"
(ruled out by typing in Rust). derive/src/value/to_tokens.rs:53-57 -/
def matchVariant [DecidableEq V] : List (V × Nat) → V → Option Nat
  | [], _ => none
  | (id, n) :: arms, v => if id = v then some n else matchVariant arms v

/-- `match value { 0 => V0, 1 => V1, …, _ => panic!("invalid value") }`.
derive/src/value/to_tokens.rs:59-64 -/
def matchIndex : List (Nat × V) → Nat → Out V
  | [], _ => .panic
  | (n, id) :: arms, v => if n = v then .ok id else matchIndex arms v

/-- `FixedCardinalityLabel::cardinality`. derive/src/value/to_tokens.rs:16, 49-51 -/
def enumCardinality (variants : List V) : Nat := variants.length

/-- `FixedCardinalityLabel::encode`. derive/src/value/to_tokens.rs:17, 19, 53-57 -/
def enumEncode [DecidableEq V] (variants : List V) (v : V) : Option Nat :=
  matchVariant (variants.zip (List.range (enumCardinality variants))) v

/-- `FixedCardinalityLabel::decode`. derive/src/value/to_tokens.rs:18, 20, 59-64 -/
def enumDecode (variants : List V) (n : Nat) : Out V :=
  matchIndex ((List.range (enumCardinality variants)).zip variants) n

/-- `StaticLabelSet<T>` for a derived enum `T`. core/src/label/value.rs:23-43 -/
def staticLabelSet [DecidableEq V] (variants : List V) : FixedSet V where
  card := enumCardinality variants
  encode v := enumEncode variants v
  decode n := enumDecode variants n

/-! ## `IndexSet`, `RodeoReader`, `phf::OrderedSet` -/

/-- Position of the first occurrence (`IndexSet::get_index_of`, `RodeoReader::get`,
`OrderedSet::get_index`: hash lookups of external crates, modelled by their contract on the ordered
list of members). -/
def getIndexOf [DecidableEq V] : List V → V → Option Nat
  | [], _ => none
  | x :: xs, v => if x = v then some 0 else (getIndexOf xs v).map (· + 1)

/-- `LabelSet for IndexSet<T>`. core/src/label/impls.rs:6-31 -/
def indexSet [DecidableEq V] (items : List V) : FixedSet V where
  card := items.length
  encode v := getIndexOf items v
  decode n := expect items[n]?

/-- `LabelSet for RodeoReader` (`K::try_from_usize(value).unwrap()` then `resolve`).
`cardinality` is the default `dynamic_cardinality().unwrap()`. core/src/label/impls.rs:51-75 -/
def rodeoReader [DecidableEq V] (items : List V) : FixedSet V where
  card := items.length
  encode v := match getIndexOf items v with
    | some k => some k
    | none => none
  decode n := expect items[n]?

/-- `LabelSet for phf::OrderedSet`. core/src/label/impls.rs:96-118 -/
def phfOrderedSet [DecidableEq V] (items : List V) : FixedSet V where
  card := items.length
  encode v := getIndexOf items v
  decode n := expect items[n]?

/-- `LabelSet`/`FixedCardinalitySet` for `Arc<T>`: delegation. core/src/label/impls.rs:120-142 -/
def arcSet (s : FixedSet V) : FixedSet V where
  card := s.card
  encode v := s.encode v
  decode n := s.decode n

/-! ## `ThreadedRodeo` -/

/-- State of an interner: the strings interned so far in id order, and how many ids the key type and
memory limit allow (`try_get_or_intern` fails beyond that). -/
structure Rodeo (V : Type) where
  items : List V
  cap : Nat

/-- `try_get_or_intern` (external crate, by contract). -/
def Rodeo.intern [DecidableEq V] (r : Rodeo V) (v : V) : Option Nat × Rodeo V :=
  match getIndexOf r.items v with
  | some i => (some i, r)
  | none =>
    if r.items.length < r.cap then (some r.items.length, { r with items := r.items ++ [v] })
    else (none, r)

/-- `LabelSet for ThreadedRodeo`. core/src/label/impls.rs:78-94 -/
def threadedRodeo [DecidableEq V] : DynSet (Rodeo V) V where
  encode r v := r.intern v
  decode r n := expect r.items[n]?

end Measured
