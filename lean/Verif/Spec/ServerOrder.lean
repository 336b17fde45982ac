import Verif.Spec.Server

/-!
# Specification: the three families of the example server beside each other

What a request has done on the vectors, at a moment; and the sums that are read from a text, over all series with a path
and a method.
-/

namespace Measured.Spec
open Measured.Conc Measured.Server

/-- The request `x` has been counted for the label group: it was given a key for it and has updated the metric of the
key. -/
def CountedIn (i : Vec) (g : i.groups.Group) (tr : List Event) (x : Tid) : Prop :=
  ∃ k u, .on i (.lab (.encoded x g (some k))) ∈ tr ∧ .on i (.vec (.update x k u)) ∈ tr

/-- There is a metric for the label group. -/
def MadeIn (i : Vec) (g : i.groups.Group) (tr : List Event) : Prop :=
  ∃ x k, .on i (.lab (.encoded x g (some k))) ∈ tr ∧ .on i (.vec (.insert x k)) ∈ tr

/-- At some moment of the pass of `t` over the vector that begins after `A` and ends after `B`, there was a metric for the
label group and `a` is exactly how many requests had been counted for it. -/
def ExactIn (i : Vec) (t : Tid) (A B : List Event) (g : i.groups.Group) (a : Nat) : Prop :=
  ∃ B', B' <+: B ∧ MadeIn i g (A ++ .on i (.vec (.startPass t)) :: B') ∧
    ∃ ts : List Tid, ts.Nodup ∧ ts.length = a ∧ ∀ x, x ∈ ts ↔ CountedIn i g (A ++ .on i (.vec (.startPass t)) :: B') x

/-- What the family of a vector must be: the numbers are exact at some moment of the pass, and no metric is missing that
was there before it. -/
def exactClaim (le : List F64) (t : Tid) (A B : List Event) (i : Vec) : Claim :=
  countClaim le i (ExactIn i t A B) fun g => MadeIn i g A

/-- The name of the samples that count requests. -/
def countName : Vec → Bytes
  | .requests => b!"http_requests"
  | .responses => b!"http_responses"
  | .duration => b!"http_request_duration_count"

/-- A number read from a text. -/
def intOf : Val → Int
  | .int x => x
  | .float _ => 0

/-- The sum of all samples of the given name in a family whose labels `path` and `method` are as given. -/
def shownTotal (f : Family) (name path method : Bytes) : Int :=
  ((f.samples.filter fun s => s.name = name ∧ (b!"path", path) ∈ s.labels ∧ (b!"method", method) ∈ s.labels).map
    fun s => intOf s.value).sum

/-- The text of a method's label. -/
def methodText : Method → Bytes
  | .get => b!"get"
  | .post => b!"post"
  | .other => b!"other"

/-- The request `x` is for the path and the method. -/
def RequestFor (path : Bytes) (method : Method) (tr : List Event) (x : Tid) : Prop :=
  ∃ r : Req, .begin x r ∈ tr ∧ r.path = path ∧ r.method = method

end Measured.Spec
