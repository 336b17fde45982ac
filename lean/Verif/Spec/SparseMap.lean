import Verif.Model.SparseConc

/-!
# Specification: the map that a run on a sparse vector amounts to

Functions of the events of a run only.
-/

namespace Measured.Spec
open Measured.Conc

variable {K U : Type} [DecidableEq K]

/-- What an event does to a map from keys to the updates made to them. -/
def mapAfter (m : K → Option (List U)) : SEvent K U → K → Option (List U)
  | .insert _ k => fun k' => if k' = k then some [] else m k'
  | .update _ k u => fun k' => if k' = k then (m k').map (· ++ [u]) else m k'
  | .remove _ k _ => fun k' => if k' = k then none else m k'
  | _ => m

/-- The map after a run. -/
def mapOf (tr : List (SEvent K U)) : K → Option (List U) := tr.foldl mapAfter fun _ => none

/-- An event fits the map before it. -/
def EventOk (m : K → Option (List U)) : SEvent K U → Prop
  | .insert _ k => m k = none
  | .acquired _ k => m k ≠ none
  | .update _ k _ => m k ≠ none
  | .remove _ k r => r = m k
  | .panic _ => False
  | _ => True

/-- The updates to `k` in a run. -/
def updatesOf (k : K) : List (SEvent K U) → List U
  | [] => []
  | .update _ k' u :: tr => if k' = k then u :: updatesOf k tr else updatesOf k tr
  | _ :: tr => updatesOf k tr

/-- The states of `k` returned by `remove_metric`. -/
def removedOf (k : K) : List (SEvent K U) → List (List U)
  | [] => []
  | .remove _ k' (some us) :: tr => if k' = k then us :: removedOf k tr else removedOf k tr
  | _ :: tr => removedOf k tr

end Measured.Spec
