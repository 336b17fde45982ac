import Verif.Model.LabelledVec
import Verif.Spec.ConcScrape

/-!
# Specification: label groups of a vector in use

Functions of the events of a run only.
-/

namespace Measured.Spec
open Measured.Conc

variable {V U C A : Type} {n : Nat}

/-- What happened to the interners. -/
def labEvents : List (LVEvent V U n) → List (LabelEvent V n)
  | [] => []
  | .lab e :: tr => e :: labEvents tr
  | _ :: tr => labEvents tr

/-- What happened to the map. Writing an entry is the map's `emit`. -/
def vecEvents : List (LVEvent V U n) → List (SEvent (Nat × List Nat) U)
  | [] => []
  | .lab _ :: tr => vecEvents tr
  | .vec e :: tr => e :: vecEvents tr
  | .shown t k _ us :: tr => .emit t k us :: vecEvents tr

/-- What thread `t` wrote: for which groups, with the calls that had taken effect. -/
def shownBy (t : Tid) : List (LVEvent V U n) → List ((Fin n → V) × List U)
  | [] => []
  | .shown t' _ g us :: tr => if t' = t then (g, us) :: shownBy t tr else shownBy t tr
  | _ :: tr => shownBy t tr

/-- Somebody was given the id for the group. -/
def HandedOut (tr : List (LVEvent V U n)) (g : Fin n → V) (k : Nat × List Nat) : Prop :=
  ∃ t, .lab (.encoded t g (some k)) ∈ tr

/-- Somebody was given an id for the group, and whatever id anybody was given for it had the value at some moment of the
pass that thread `t` began after `pre` and that ended after `seg`. -/
def GroupWas (t : Tid) (pre seg : List (LVEvent V C n)) (zero : A) (apply : C → A → A) (g : Fin n → V) (a : A) : Prop :=
  (∃ k, HandedOut (pre ++ .vec (.startPass t) :: seg) g k) ∧
    ∀ k, HandedOut (pre ++ .vec (.startPass t) :: seg) g k → SparseWas t (vecEvents pre) (vecEvents seg) zero apply k a

/-- Somebody was given an id for the group that was in the vector at all moments of the pass. -/
def GroupThere (t : Tid) (pre seg : List (LVEvent V C n)) (g : Fin n → V) : Prop :=
  ∃ k, HandedOut (pre ++ .vec (.startPass t) :: seg) g k ∧ SparseThere t (vecEvents pre) (vecEvents seg) k

end Measured.Spec
