import Verif.Model.LabelGroup
import Verif.Model.Atomic

/-!
# Several threads encoding and decoding label groups

The generated `encode` and `decode` of a label group set take `&self`. `encode` calls the interner of one
dynamic field after the other, so calls of other threads come in between. One call on an interner
(`ThreadedRodeo::try_get_or_intern`, `ThreadedRodeo::resolve`) is one step; the interner itself is code of
another crate and taken to behave like that. Interners may be shared with others who use them at the same time (`foreign`). Arithmetic on local variables needs no step of its own.
-/

namespace Measured.Conc

/-- Where a thread is in the generated functions. derive/src/label_group/to_tokens.rs:278-294, 353-373 -/
inductive LabelPc (V : Type) (n : Nat) where
  /-- outside -/
  | idle
  /-- in `encode`: `index` is computed, `ks` are the values of the tuple so far, `rest` the fields left -/
  | encoding (g : Fin n → V) (index : Nat) (ks : List Nat) (rest : List (Nat × Fin n))
  /-- in `decode` of `u`: the local variables so far, the fields and the ids left -/
  | decoding (u : Nat × List Nat) (env : Env V n) (rest : List (Nat × Fin n)) (ks : List Nat)

/-- The interners, the ids handed out so far and the position of every thread. The ids are recorded because a
`Unique` can only be obtained from `encode` (C18): `decode` is called with one of them.
derive/src/label_group/to_tokens.rs:205-221 -/
structure LabelSys (S V : Type) (n : Nat) where
  heap : Heap S
  ids : List (Nat × List Nat)
  pc : Tid → LabelPc V n

/-- What can be seen of a run. -/
inductive LabelEvent (V : Type) (n : Nat) where
  /-- a step inside of a function -/
  | tau (t : Tid)
  /-- `encode(g)` returned `r` -/
  | encoded (t : Tid) (g : Fin n → V) (r : Option (Nat × List Nat))
  /-- `decode(u)` returned `g` -/
  | decoded (t : Tid) (u : Nat × List Nat) (g : Fin n → V)
  | panic (t : Tid)

/-- Change the position of one thread. -/
def LabelSys.goto {S V : Type} {n : Nat} (s : LabelSys S V n) (t : Tid) (p : LabelPc V n) : LabelSys S V n :=
  { s with pc := fun t' => if t' = t then p else s.pc t' }

/-- One step of one thread. -/
inductive LabelStep {S V : Type} (m : Mode) (D : DynSet S V) (d : GroupDef V) :
    LabelSys S V d.n → LabelEvent V d.n → LabelSys S V d.n → Prop where
  /-- `encode`: the fixed fields. derive/src/label_group/to_tokens.rs:279-287 -/
  | encodeStart {s t g index} : s.pc t = .idle → encodeFixed m g d.fixed 1 0 = .ok (some index) →
      LabelStep m D d s (.tau t) (s.goto t (.encoding g index [] d.dynamics))
  /-- `?` on a fixed field. derive/src/label_group/to_tokens.rs:251-259 -/
  | encodeRefused {s t g} : s.pc t = .idle → encodeFixed m g d.fixed 1 0 = .ok none →
      LabelStep m D d s (.encoded t g none) s
  /-- overflow in the arithmetic -/
  | encodePanic {s t} {g : d.Group} : s.pc t = .idle →
      (encodeFixed m g d.fixed 1 0 = .panic ∨ encodeFixed m g d.fixed 1 0 = .err) →
      LabelStep m D d s (.panic t) s
  /-- one dynamic field. derive/src/label_group/to_tokens.rs:262-276, 289-292 -/
  | intern {s t g index ks r i rest k x} : s.pc t = .encoding g index ks ((r, i) :: rest) →
      D.encode (s.heap r) (g i) = (some k, x) →
      LabelStep m D d s (.tau t)
        ({ s with heap := s.heap.set r x }.goto t (.encoding g index (ks ++ [k]) rest))
  /-- `?` on a dynamic field. derive/src/label_group/to_tokens.rs:262-276, 289-292 -/
  | internRefused {s t g index ks r i rest x} : s.pc t = .encoding g index ks ((r, i) :: rest) →
      D.encode (s.heap r) (g i) = (none, x) →
      LabelStep m D d s (.encoded t g none) ({ s with heap := s.heap.set r x }.goto t .idle)
  /-- the tuple is complete. derive/src/label_group/to_tokens.rs:289-292 -/
  | encodeEnd {s t g index ks} : s.pc t = .encoding g index ks [] →
      LabelStep m D d s (.encoded t g (some (index, ks))) ({ s with ids := (index, ks) :: s.ids }.goto t .idle)
  /-- `decode`: the fixed fields. derive/src/label_group/to_tokens.rs:353-364 -/
  | decodeStart {s t u index env} : s.pc t = .idle → u ∈ s.ids →
      decodeFixed d.fixed u.1 (fun _ => none) = .ok (index, env) → debugAssert m (index = 0) = .ok () →
      LabelStep m D d s (.tau t) (s.goto t (.decoding u env d.dynamics u.2))
  /-- a fixed set that cannot decode, or the failed `debug_assert`. derive/src/label_group/to_tokens.rs:353-364 -/
  | decodePanic {s t u} : s.pc t = .idle → u ∈ s.ids →
      (∀ index env, decodeFixed d.fixed u.1 (fun _ => none) = .ok (index, env) →
        debugAssert m (index = 0) ≠ .ok ()) →
      LabelStep m D d s (.panic t) s
  /-- one dynamic field. derive/src/label_group/to_tokens.rs:366-368 -/
  | resolve {s t u env r i rest k ks v} : s.pc t = .decoding u env ((r, i) :: rest) (k :: ks) →
      D.decode (s.heap r) k = .ok v →
      LabelStep m D d s (.tau t) (s.goto t (.decoding u (env.bind i v) rest ks))
  /-- an id the interner does not know. derive/src/label_group/to_tokens.rs:366-368 -/
  | resolvePanic {s t u env r i rest k ks} : s.pc t = .decoding u env ((r, i) :: rest) (k :: ks) →
      (∀ v, D.decode (s.heap r) k ≠ .ok v) →
      LabelStep m D d s (.panic t) (s.goto t .idle)
  /-- `Self::Group { … }`. derive/src/label_group/to_tokens.rs:370-372 -/
  | decodeEnd {s t u env g} : s.pc t = .decoding u env [] [] → buildGroup env = .ok g →
      LabelStep m D d s (.decoded t u g) (s.goto t .idle)
  /-- a tuple of the wrong length or an unbound field (compile errors in Rust) -/
  | decodeEndPanic {s t u env rest ks} : s.pc t = .decoding u env rest ks →
      (rest = [] ∧ ks ≠ [] ∨ rest ≠ [] ∧ ks = [] ∨ rest = [] ∧ ks = [] ∧ ∀ g, buildGroup env ≠ .ok g) →
      LabelStep m D d s (.panic t) (s.goto t .idle)
  /-- somebody else who has the interner (a clone of its `Arc`, for example in the label set of another vector) calls
  `encode` on it. core/src/label/impls.rs:126-142 -/
  | foreign {s t r v k x} : D.encode (s.heap r) v = (k, x) →
      LabelStep m D d s (.tau t) { s with heap := s.heap.set r x }

/-- Nobody is inside and no id has been handed out. -/
def LabelSys.start {S V : Type} {n : Nat} (h : Heap S) : LabelSys S V n := ⟨h, [], fun _ => .idle⟩

end Measured.Conc
