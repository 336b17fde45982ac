import Verif.Model.DenseConc

/-! # Specification: what a run on a dense vector amounts to -/

namespace Measured.Spec
open Measured.Conc

variable {U : Type}

/-- The updates made to label `i`, in order, whatever state they went to. -/
def denseUpdates (i : Nat) : List (DEvent U) → List U
  | [] => []
  | .update _ j _ u :: tr => if j = i then u :: denseUpdates i tr else denseUpdates i tr
  | _ :: tr => denseUpdates i tr

/-- The states made for label `i`. -/
def denseInits (i : Nat) : List (DEvent U) → List Nat
  | [] => []
  | .init _ j o :: tr => if j = i then o :: denseInits i tr else denseInits i tr
  | _ :: tr => denseInits i tr

/-- The thread learns of the initialisation of label `i`. -/
def DEvent.touches (t : Tid) (i : Nat) : DEvent U → Prop
  | .acquired s j _ | .init s j _ | .update s j _ _ | .emit s j _ => s = t ∧ j = i
  | _ => False

/-- Thread `t` has learned, through happens-before edges, what thread `s` knew at the beginning of `tr`. -/
inductive Informed (s : Tid) : Tid → List (DEvent U) → Prop where
  | start : Informed s s []
  | keep {t : Tid} {tr : List (DEvent U)} {e : DEvent U} : Informed s t tr → Informed s t (tr ++ [e])
  | sync {t u : Tid} {tr : List (DEvent U)} : Informed s u tr → Informed s t (tr ++ [.sync t u])

end Measured.Spec
