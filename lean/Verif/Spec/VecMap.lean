import Verif.Model.MetricVec

/-!
# Specification of a labelled metric: a map from label groups to metric states

The abstract machine knows nothing of ids, hashes, shards or cells. `dense` says which of the two
documented behaviours applies to removal and to `init_all_dense`.
-/

namespace Measured.Spec
variable {S G U M : Type}

/-- Abstract state: the label set's interners, the group of each obtained id, the live labels. -/
structure MapState (S G M : Type) where
  labels : S
  issued : List G
  live : G → Option M

/-- The group can be encoded in the current state of the label set. -/
def Encodable (t : GroupSet S G U) (s : S) (g : G) : Prop := ∃ u, (t.encode g s).1 = .ok (some u)

/-- The label set after being asked for `g`. -/
def afterLookup (t : GroupSet S G U) (s : S) (g : G) : S := (t.encode g s).2

def MapState.setLive [DecidableEq G] (st : MapState S G M) (g : G) (x : Option M) : MapState S G M :=
  { st with live := fun g' => if g' = g then x else st.live g' }

open Classical in
/-- One operation on the abstract map. -/
noncomputable def mapStep [DecidableEq G] (dense : Bool) (dflt : M) (t : GroupSet S G U) (st : MapState S G M) :
    VecOp G M → VecRes M × MapState S G M
  | .lookup g =>
    let st' := { st with labels := afterLookup t st.labels g }
    if Encodable t st.labels g then (.found true, { st' with issued := st.issued ++ [g] })
    else (.found false, st')
  | .access k f | .accessMut k f =>
    match st.issued[k]? with
    | none => (.noSuchId, st)
    | some g => (.state ((st.live g).getD dflt), st.setLive g (some (f ((st.live g).getD dflt))))
  | .update g f | .updateMut g f =>
    let st' := { st with labels := afterLookup t st.labels g }
    if Encodable t st.labels g then
      (.state ((st.live g).getD dflt), st'.setLive g (some (f ((st.live g).getD dflt))))
    else (.panic, st')
  | .remove k =>
    match st.issued[k]? with
    | none => (.noSuchId, st)
    | some g => if dense then (.removed none, st) else (.removed (st.live g), st.setLive g none)
  | .initAllDense =>
    let all : G → Option M := fun g =>
      if Encodable t st.labels g then some ((st.live g).getD dflt) else st.live g
    if dense then (.unit, { st with live := all }) else (.unit, st)

noncomputable def mapRun [DecidableEq G] (dense : Bool) (dflt : M) (t : GroupSet S G U) :
    MapState S G M → List (VecOp G M) → List (VecRes M) × MapState S G M
  | st, [] => ([], st)
  | st, op :: ops =>
    let r := mapStep dense dflt t st op
    let rs := mapRun dense dflt t r.2 ops
    (r.1 :: rs.1, rs.2)

/-- No live labels. -/
def MapState.empty (s : S) : MapState S G M := ⟨s, [], fun _ => none⟩

/-- `l` lists every live label exactly once, with its state. -/
def Enumerates (l : List (G × M)) (live : G → Option M) : Prop :=
  (l.map Prod.fst).Nodup ∧ ∀ g x, (g, x) ∈ l ↔ live g = some x

/-- Run an action for every element, stopping at the first error. -/
def forEach {E α : Type} (act : α → RS E Unit) : List α → RS E Unit
  | [] => pure ()
  | a :: as => act a >>= fun _ => forEach act as

/-- An encoder that records the samples. -/
def record (g : G) (x : M) : RS (List (G × M)) Unit := fun e => (.ok (), e ++ [(g, x)])

/-- The samples a collection produces, seen through an encoder that records them. -/
def samplesOf (t : GroupSet S G U) (v : MetricVec S U M) : List (G × M) :=
  (v.collectFamilyInto t (pure ()) record []).2

/-- The vectors a user can construct, and whether they are dense. `p` is the reported parallelism. -/
inductive Created (m : Mode) (p : Nat) (t : GroupSet S G U) (s : S) : Bool → MetricVec S U M → Prop where
  | new {v : MetricVec S U M} {cells : List (Option M)} :
      MetricVec.new m p t s = .ok v → v.inner = .dense cells → Created m p t s true v
  | newSparse {v : MetricVec S U M} {sm : ShardedMap U M} :
      MetricVec.new m p t s = .ok v → v.inner = .sparse sm → Created m p t s false v
  | dense {v : MetricVec S U M} : MetricVec.newDense t s = .ok v → Created m p t s true v
  | sparse {v : MetricVec S U M} : MetricVec.newSparse m p s = .ok v → Created m p t s false v

end Measured.Spec
