import Verif.Model.SparseWeak

/-!
# Specification: happens-before in a run of a sparse vector

From the events alone, without views or locations: the map of metrics with the updates made to each, and for every thread (and
the lock) how many of the updates of a metric happen before what it does next — its own ones, those before an update of
its own or in a value it saw, and those known to the threads that it is synchronised with, directly or through the lock.
-/

namespace Measured.Spec
open Conc

structure WGhost (K U : Type) where
  map : K → Option (List U)
  known : Agent → K → Nat

variable {K U : Type} [DecidableEq K]

/-- What happens before `b` happens before `a` too. -/
def WGhost.join (g : WGhost K U) (a b : Agent) : WGhost K U :=
  { g with known := Function.update g.known a fun k => max (g.known a k) (g.known b k) }

def WGhost.after (strong : Bool) (g : WGhost K U) : SWEvent K U → WGhost K U
  | .lockR t => if strong then (g.join (.thr t) .writers).join (.thr t) .readers else g.join (.thr t) .writers
  | .unlockR t => g.join .readers (.thr t)
  | .lockW t => (g.join (.thr t) .writers).join (.thr t) .readers
  | .unlockW t => g.join .writers (.thr t)
  | .sync t s => g.join (.thr t) (.thr s)
  | .insert _ k => ⟨Function.update g.map k (some []), fun a => Function.update (g.known a) k 0⟩
  | .remove _ k _ => ⟨Function.update g.map k none, fun a => Function.update (g.known a) k 0⟩
  | .add t k u => ⟨Function.update g.map k ((g.map k).map (· ++ [u])),
      Function.update g.known (.thr t) (Function.update (g.known (.thr t)) k
        (max (g.known (.thr t) k) (((g.map k).getD []).length + 1)))⟩
  | .see t k us => ⟨g.map,
      Function.update g.known (.thr t) (Function.update (g.known (.thr t)) k (max (g.known (.thr t) k) us.length))⟩
  | .panic _ | .silent _ => g

/-- After a run. -/
def wghost (strong : Bool) (tr : List (SWEvent K U)) : WGhost K U :=
  tr.foldl (WGhost.after strong) ⟨fun _ => none, fun _ _ => 0⟩

/-- What must be true of an event. Metrics are made where there is none and updated while they are in the map; removal
returns all updates; a collection shows some first of the updates, all those among them that happen before it. -/
def WOk (g : WGhost K U) : SWEvent K U → Prop
  | .insert _ k => g.map k = none
  | .add _ k _ => g.map k ≠ none
  | .remove _ k r => r = g.map k
  | .see t k us => ∃ xs, g.map k = some xs ∧ us <+: xs ∧ g.known (.thr t) k ≤ us.length
  | .panic _ => False
  | _ => True

/-- The updates of `k`, in order. -/
def wUpdates (k : K) : List (SWEvent K U) → List U
  | [] => []
  | .add _ k' u :: tr => if k' = k then u :: wUpdates k tr else wUpdates k tr
  | _ :: tr => wUpdates k tr

/-- The states of `k` that were removed, in order. -/
def wRemoved (k : K) : List (SWEvent K U) → List (List U)
  | [] => []
  | .remove _ k' (some us) :: tr => if k' = k then us :: wRemoved k tr else wRemoved k tr
  | _ :: tr => wRemoved k tr

/-- Whether an event makes or removes the metric of `k`. -/
def _root_.Measured.Conc.SWEvent.replaces (k : K) : SWEvent K U → Prop
  | .insert _ k' => k' = k
  | .remove _ k' _ => k' = k
  | _ => False

end Measured.Spec
