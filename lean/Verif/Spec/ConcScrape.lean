import Verif.Spec.Api
import Verif.Spec.SparseMap
import Verif.Spec.DenseMap

/-!
# Specification: what a scrape may show while other threads work

Functions of the events of a run and of the text only.
-/

namespace Measured.Spec
open Measured.Conc

variable {K C A : Type}

/-- The text reads back as one family, with the samples `shown` for a list of entries: no key twice, every entry as it
`was` at some moment, and no key left out that was `there`. -/
def PassShows (rf : Bytes → Option F64) (n : Bytes) (kind : Kind) (labels : K → Labels)
    (shown : Bytes → Labels → A → List Expected) (was : K → A → Prop) (there : K → Prop) (text : Bytes) : Prop :=
  ∃ (l : List (K × A)) (ss : List Sample), (l.map Prod.fst).Nodup ∧ (∀ q ∈ l, was q.1 q.2) ∧
    (∀ k, there k → k ∈ l.map Prod.fst) ∧ readFamilies rf text = some [⟨n, none, some (kindWord kind), ss⟩] ∧
    List.Forall₂ (SampleReads rf) (l.flatMap fun q => shown n (labels q.1) q.2) ss

/-- What calls add up to. -/
def sumUp (apply : C → A → A) (zero : A) (us : List C) : A := us.foldl (fun a c => apply c a) zero

section sparse
variable [DecidableEq K]

/-- The key had the value at some moment of the pass that thread `t` began after `pre` and that ended after `seg`. -/
def SparseWas (t : Tid) (pre seg : List (SEvent K C)) (zero : A) (apply : C → A → A) (k : K) (a : A) : Prop :=
  ∃ p us, p <+: seg ∧ mapOf (pre ++ .startPass t :: p) k = some us ∧ a = sumUp apply zero us

/-- The key was in the vector at all moments of the pass. -/
def SparseThere (t : Tid) (pre seg : List (SEvent K C)) (k : K) : Prop :=
  ∀ p, p <+: seg → mapOf (pre ++ .startPass t :: p) k ≠ none

end sparse

section dense

/-- The value comes from the first so many calls made for the label until the end of the pass, and from all those that
thread `t` had learned of when the pass began. -/
def DenseWas (t : Tid) (pre seg : List (DEvent C)) (zero : A) (apply : C → A → A) (i : Nat) (a : A) : Prop :=
  ∃ us, us <+: denseUpdates i (pre ++ .startPass t :: seg) ∧
    (∀ x y v o u, pre = x ++ .update v i o u :: y → Informed v t y → denseUpdates i x ++ [u] <+: us) ∧
    a = sumUp apply zero us

/-- When the pass began, thread `t` had learned that somebody had used the label. -/
def DenseThere (t : Tid) (pre : List (DEvent C)) (i : Nat) : Prop :=
  ∃ x y v o, pre = x ++ .acquired v i o :: y ∧ Informed v t y

/-- The entries that thread `t` comes across. -/
def denseEmitted (t : Tid) : List (DEvent C) → List (Nat × List C)
  | [] => []
  | .emit u i us :: tr => if u = t then (i, us) :: denseEmitted t tr else denseEmitted t tr
  | _ :: tr => denseEmitted t tr

end dense

end Measured.Spec
