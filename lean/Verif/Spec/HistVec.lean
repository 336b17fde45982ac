import Verif.Model.HistVec
import Verif.Spec.Api

/-!
# Specification: what a run on a vector of histograms amounts to

Functions and relations on the events of runs only.
-/

namespace Measured.Conc
variable {K U : Type}

/-- A table without what its entries record. -/
def eraseT (l : List (K × List U)) : List (K × List Empty) := l.map fun e => (e.1, [])

/-- An event on a map, without what the entries record. -/
def SEvent.erase : SEvent K U → SEvent K Empty
  | .startGet t k => .startGet t k
  | .startRemove t k => .startRemove t k
  | .startPass t => .startPass t
  | .lockR t i => .lockR t i
  | .lockW t i => .lockW t i
  | .acquired t k => .acquired t k
  | .insert t k => .insert t k
  | .update t _ _ => .silent t
  | .release t k => .release t k
  | .remove t k r => .remove t k (r.map fun _ => [])
  | .emit t k _ => .emit t k []
  | .endPass t acc => .endPass t (eraseT acc)
  | .panic t => .panic t
  | .silent t => .silent t

end Measured.Conc

namespace Measured.Spec
open Measured.Conc

variable {K : Type}

/-- The histogram that a single thread gets by making the observations `xs`. -/
def HistOf (le : List F64) (xs : List F64) (h : HistInner) : Prop :=
  histObserveAll le (HistInner.default le.length) xs = .ok h

/-- The step of a map of single-step metrics that a step on the vector of histograms stands for, if any. An observation
takes effect when it is added to the sum; `w` says by which call each value is observed. -/
inductive HVShowsBy (w : F64 → HistCall) (le : List F64) : HVEvent K → List (SEvent K HistCall) → Prop where
  | vec (e : SEvent K Empty) (e' : SEvent K HistCall) (h : e'.erase = e) (hu : ∀ t k x, e' ≠ .update t k x)
      (he : ∀ t k us, e' ≠ .emit t k us) (hr : ∀ t k us, e' ≠ .remove t k (some us)) : HVShowsBy w le (.vec e) [e']
  | observed (t : Tid) (k : K) (x : F64) : HVShowsBy w le (.observe t k (.summed t x)) [.update t k (w x)]
  | observing (t : Tid) (k : K) (e : HistEvent) (h : ∀ u x, e ≠ .summed u x) : HVShowsBy w le (.observe t k e) []
  | sampling (t : Tid) (k : K) (e : HistEvent) : HVShowsBy w le (.sampling t k e) []
  | emit (t : Tid) (k : K) (us : List HistCall) (h : HistInner) (hu : HistOf le (us.map HistCall.value) h) :
    HVShowsBy w le (.emit t k h.sample) [.emit t k us]
  | removed (t : Tid) (k : K) (us : List HistCall) (h : HistInner) (hu : HistOf le (us.map HistCall.value) h) :
    HVShowsBy w le (.removed t k h) [.remove t k (some us)]

/-- The same, with `observe` for every value. -/
abbrev HVShows (le : List F64) : HVEvent K → List (SEvent K HistCall) → Prop := HVShowsBy HistCall.observe le

variable [DecidableEq K]

/-- What an event does to a map from keys to the observations that are over. -/
def finishedAfter (m : K → Option (List F64)) : HVEvent K → K → Option (List F64)
  | .vec (.insert _ k) => fun k' => if k' = k then some [] else m k'
  | .observe _ k (.done _ x) => fun k' => if k' = k then (m k').map (· ++ [x]) else m k'
  | .removed _ k _ => fun k' => if k' = k then none else m k'
  | _ => m

/-- The keys of the vector after a run, each with the observations on it that are over. -/
def finishedOf (tr : List (HVEvent K)) : K → Option (List F64) := tr.foldl finishedAfter fun _ => none

/-- The samples that thread `t` has taken. -/
def hvEmitted (t : Tid) : List (HVEvent K) → List (K × (List Nat × Nat × F64))
  | [] => []
  | .emit t' k r :: tr => if t' = t then (k, r) :: hvEmitted t tr else hvEmitted t tr
  | _ :: tr => hvEmitted t tr

/-- The observations `a` are, in some order, those on `k` that were over at some moment of the pass that thread `t` began
after `pre` and that ended after `seg`. -/
def HVWas (t : Tid) (pre seg : List (HVEvent K)) (k : K) (a : List F64) : Prop :=
  ∃ p xs, p <+: seg ∧ finishedOf (pre ++ .vec (.startPass t) :: p) k = some xs ∧ a.Perm xs

/-- The key was in the vector at all moments of the pass. -/
def HVThere (t : Tid) (pre seg : List (HVEvent K)) (k : K) : Prop :=
  ∀ p, p <+: seg → finishedOf (pre ++ .vec (.startPass t) :: p) k ≠ none

end Measured.Spec
