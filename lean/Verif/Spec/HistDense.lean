import Verif.Model.HistDense
import Verif.Spec.HistVec
import Verif.Spec.ConcScrape

/-! # Specification: what a run on a dense vector of histograms amounts to -/

namespace Measured.Spec
open Measured.Conc

/-- The observations on label `i` that are over. -/
def hdFinished (i : Nat) : List HDEvent → List F64
  | [] => []
  | .observe _ j (.done _ x) :: tr => if j = i then x :: hdFinished i tr else hdFinished i tr
  | _ :: tr => hdFinished i tr

/-- The samples that thread `t` has taken. -/
def hdEmitted (t : Tid) : List HDEvent → List (Nat × (List Nat × Nat × F64))
  | [] => []
  | .emit u i r :: tr => if u = t then (i, r) :: hdEmitted t tr else hdEmitted t tr
  | _ :: tr => hdEmitted t tr

/-- The steps on the vector alone. -/
def hdVec : List HDEvent → List (DEvent Empty)
  | [] => []
  | .vec e :: tr => e :: hdVec tr
  | .emit t i _ :: tr => .emit t i [] :: hdVec tr
  | _ :: tr => hdVec tr

/-- The observations `a` are, in some order, those on label `i` that were over at some moment of the pass that thread `t`
began after `pre` and that ended after `seg`. -/
def HDWas (t : Tid) (pre seg : List HDEvent) (i : Nat) (a : List F64) : Prop :=
  ∃ p, p <+: seg ∧ a.Perm (hdFinished i (pre ++ .vec (.startPass t) :: p))

/-- When the pass began, thread `t` had learned that somebody had used the label. -/
def HDThere (t : Tid) (pre : List HDEvent) (i : Nat) : Prop := DenseThere t (hdVec pre) i

end Measured.Spec
