import Verif.Model.LabelledVec

/-!
# Several vectors that share interners

`LabelSet` and `LabelGroupSet` are implemented for `Arc<T>` and `&'static T` (core/src/label/impls.rs:120-142,
core/src/label/group.rs:133-183), so that the label sets of several vectors may refer to the same interners. Everything else
belongs to one vector.
-/

namespace Measured.Conc

/-- What belongs to one vector alone. -/
structure VecOwn (V U : Type) (n : Nat) where
  ids : List (Nat × List Nat)
  pc : Tid → LabelPc V n
  vec : SSys (Nat × List Nat) U
  seen : Tid → Option ((Nat × List Nat) × (Fin n → V))

/-- The interners, and the vectors that use them. -/
structure SharedSys {ι : Type} (S V : Type) (U : ι → Type) (d : ι → GroupDef V) where
  heap : Heap S
  own : ∀ i, VecOwn V (U i) (d i).n

section
variable {ι S V : Type} [DecidableEq ι] {U : ι → Type} {d : ι → GroupDef V}

/-- Vector `i` with the interners. -/
def SharedSys.at (s : SharedSys S V U d) (i : ι) : LVSys S V (U i) (d i).n :=
  ⟨⟨s.heap, (s.own i).ids, (s.own i).pc⟩, (s.own i).vec, (s.own i).seen⟩

/-- The vector `i` has become `x`. -/
def SharedSys.put (s : SharedSys S V U d) (i : ι) (x : LVSys S V (U i) (d i).n) : SharedSys S V U d :=
  ⟨x.lab.heap, Function.update s.own i ⟨x.lab.ids, x.lab.pc, x.vec, x.seen⟩⟩

/-- A step of one thread on one vector. -/
inductive SharedStep (m : Mode) (D : DynSet S V) (c : ι → ShardConf (Nat × List Nat)) :
    SharedSys S V U d → (Σ i, LVEvent V (U i) (d i).n) → SharedSys S V U d → Prop where
  | on (s : SharedSys S V U d) (i : ι) (e : LVEvent V (U i) (d i).n) (x : LVSys S V (U i) (d i).n)
      (h : LVStep m D (d i) (c i) (s.at i) e x) : SharedStep m D c s ⟨i, e⟩ (s.put i x)

/-- New vectors. -/
def SharedSys.new (h : Heap S) : SharedSys S V U d := ⟨h, fun _ => ⟨[], fun _ => .idle, .new, fun _ => none⟩⟩

end

end Measured.Conc
