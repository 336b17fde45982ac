import Verif.Model.EncodeConc
import Verif.Model.SparseConc

/-!
# A sparse vector together with its label set

A `MetricVec` is a label set and a map from ids to metrics (core/src/metric.rs:118-122). The threads of
`Model/EncodeConc.lean` encode label groups with interners that they share; the threads of `Model/SparseConc.lean` use
the map. Here the two are put together: a thread looks up and removes only ids that some thread was given by `encode`
(`LabelId` has no other constructor, and is `Copy`), and a collecting thread decodes each key before it writes the sample.

The interners and the map share nothing but the ids, so their steps may be interleaved in any way. More runs are allowed
than the code has: a thread may do both kinds of steps by turns, and a decoded group may be used later than at once.
-/

namespace Measured.Conc

/-- A vector in use. `seen` is the last key that a thread decoded, with the group that it got. -/
structure LVSys (S V U : Type) (n : Nat) where
  lab : LabelSys S V n
  vec : SSys (Nat × List Nat) U
  seen : Tid → Option ((Nat × List Nat) × (Fin n → V))

/-- What can be seen of a run. -/
inductive LVEvent (V U : Type) (n : Nat) where
  /-- a step of `encode` or `decode` -/
  | lab (e : LabelEvent V n)
  /-- a step of the map -/
  | vec (e : SEvent (Nat × List Nat) U)
  /-- the sample of an entry is written. core/src/metric.rs:463-464 -/
  | shown (t : Tid) (k : Nat × List Nat) (g : Fin n → V) (us : List U)

/-- The steps of the map that a thread may take: ids come from `encode`, and entries are written by `shown`.
core/src/metric.rs:332-378, 463-464 -/
def Allowed {U : Type} (ids : List (Nat × List Nat)) : SEvent (Nat × List Nat) U → Prop
  | .startGet _ k => k ∈ ids
  | .startRemove _ k => k ∈ ids
  | .emit _ _ _ => False
  | _ => True

/-- The thread keeps what it decoded. -/
def noteDecode {V : Type} {n : Nat} (seen : Tid → Option ((Nat × List Nat) × (Fin n → V))) :
    LabelEvent V n → Tid → Option ((Nat × List Nat) × (Fin n → V))
  | .decoded t u g => Function.update seen t (some (u, g))
  | _ => seen

/-- One step of one thread. -/
inductive LVStep {S V U : Type} (m : Mode) (D : DynSet S V) (d : GroupDef V) (c : ShardConf (Nat × List Nat)) :
    LVSys S V U d.n → LVEvent V U d.n → LVSys S V U d.n → Prop where
  /-- inside of `label_set.encode` or `label_set.decode`. core/src/metric.rs:341-342, 464 -/
  | lab {s e l} : LabelStep m D d s.lab e l → LVStep m D d c s (.lab e) { s with lab := l, seen := noteDecode s.seen e }
  /-- inside of the map. core/src/metric.rs:360-378, 462-463 -/
  | vec {s e v} : SStep c s.vec e v → Allowed s.lab.ids e → LVStep m D d c s (.vec e) { s with vec := v }
  /-- `v.collect_into(&self.metadata, self.label_set.decode(k), &name, enc)`. core/src/metric.rs:463-464 -/
  | shown {s t k g us v} : SStep c s.vec (.emit t k us) v → s.seen t = some (k, g) →
      LVStep m D d c s (.shown t k g us) { s with vec := v, seen := Function.update s.seen t none }

/-- A new vector. core/src/metric.rs:298-304 -/
def LVSys.new {S V U : Type} {n : Nat} (h : Heap S) : LVSys S V U n := ⟨.start h, .new, fun _ => none⟩

end Measured.Conc
