import Verif.Model.Server
import Verif.Spec.Registry

/-!
# Specification: what the example server's metrics mean

Functions of the events of the middleware only: which requests began, entered the service inside, were answered, were
given up, and are over.
-/

namespace Measured.Spec
open Measured.Conc Measured.Server

/-- `a` is the number of some requests: all those that are `sure`, and none but those that `may` be. -/
def CountBetween (sure may : Tid → Prop) (a : Nat) : Prop :=
  ∃ ts : List Tid, ts.Nodup ∧ ts.length = a ∧ (∀ x, sure x → x ∈ ts) ∧ ∀ x ∈ ts, may x

/-- The request `x` must be counted for the label group: in `http_requests` if it has entered the service, in
`http_responses` if the middleware has returned the answer, in `http_request_duration` if it is over, with an answer or
without. -/
def SureIn : (i : Vec) → i.groups.Group → List Event → Tid → Prop
  | .requests, g, tr, x => ∃ r : Req, r.group = g ∧ .begin x r ∈ tr ∧ .enter x ∈ tr
  | .responses, g, tr, x => ∃ (r : Req) (st : Nat), r.response st = g ∧ .begin x r ∈ tr ∧ .answer x st ∈ tr ∧ .finish x ∈ tr
  | .duration, g, tr, x => ∃ r : Req, r.group = g ∧ .begin x r ∈ tr ∧ .finish x ∈ tr

/-- The request `x` may be counted for the label group: in `http_requests` if it has begun, in `http_responses` if it was
answered with that status, in `http_request_duration` if it was answered or given up. -/
def MayIn : (i : Vec) → i.groups.Group → List Event → Tid → Prop
  | .requests, g, tr, x => ∃ r : Req, r.group = g ∧ .begin x r ∈ tr
  | .responses, g, tr, x => ∃ (r : Req) (st : Nat), r.response st = g ∧ .begin x r ∈ tr ∧ .answer x st ∈ tr
  | .duration, g, tr, x => ∃ r : Req, r.group = g ∧ .begin x r ∈ tr ∧ ((∃ st, .answer x st ∈ tr) ∨ .abandon x ∈ tr)

/-- There are fewer than `2^63` requests. -/
def FewRequests (tr : List Event) : Prop :=
  ∀ ts : List Tid, ts.Nodup → (∀ x ∈ ts, ∃ r, .begin x r ∈ tr) → ts.length < 2 ^ 63

/-- What happens on the vectors. -/
def onVecs : List Event → List (Σ i : Vec, LVEvent Lab i.Call i.groups.n)
  | [] => []
  | .on i e :: tr => ⟨i, e⟩ :: onVecs tr
  | _ :: tr => onVecs tr

/-- The labels of a series. -/
def seriesLabels (i : Vec) (g : i.groups.Group) : Labels := derivedLabels i.groups Lab.shown g

/-- The value for a label group: it is the number of requests as above, and there is at least a request that may be
counted. -/
def CountIn (i : Vec) (A B : List Event) (g : i.groups.Group) (a : Nat) : Prop :=
  CountBetween (SureIn i g A) (MayIn i g (A ++ B)) a ∧ ∃ x, MayIn i g (A ++ B) x

/-- What the family of a vector must be: the number for a label group is as said (for `http_request_duration`, that of
the observations, which are durations), no label group comes twice, and none is missing that must be there. -/
def countClaim (le : List F64) : (i : Vec) → (i.groups.Group → Nat → Prop) → (i.groups.Group → Prop) → Claim
  | .requests, was, there =>
    ⟨_, .counter, Vec.requests.name, Vec.requests.docs, seriesLabels .requests, was, there⟩
  | .responses, was, there =>
    ⟨_, .counter, Vec.responses.name, Vec.responses.docs, seriesLabels .responses, was, there⟩
  | .duration, was, there => ⟨_, .histogram le, Vec.duration.name, Vec.duration.docs, seriesLabels .duration,
      fun g (xs : List F64) => was g xs.length ∧ ∀ x ∈ xs, ∃ d, d / 10 ^ 9 < 2 ^ 64 ∧ x = asSecsF64 d, there⟩

/-- What the family of a vector must be, if a request begins to collect the vector after `A` and is done with it after
`B`: no label group twice, for each the number of requests as it must be, and none missing that some request must be
counted for. -/
def serverClaim (le : List F64) (A B : List Event) (i : Vec) : Claim :=
  countClaim le i (CountIn i A B) fun g => ∃ x, SureIn i g A x

/-- How many requests there are to show for a label group, if `rs` have been answered, each with its status, and `r` is the
one that collects. -/
def served (rs : List (Req × Nat)) (r : Req) : (i : Vec) → i.groups.Group → Nat
  | .requests, g => (rs.filter fun q => q.1.group = g).length + if r.group = g then 1 else 0
  | .responses, g => (rs.filter fun q => q.1.response q.2 = g).length
  | .duration, g => (rs.filter fun q => q.1.group = g).length

/-- What the families must be then. -/
def servedClaim (le : List F64) (rs : List (Req × Nat)) (r : Req) : Vec → Claim
  | .requests => ⟨_, .counter, Vec.requests.name, Vec.requests.docs, seriesLabels .requests,
      fun g n => 0 < n ∧ n = served rs r .requests g, fun g => 0 < served rs r .requests g⟩
  | .responses => ⟨_, .counter, Vec.responses.name, Vec.responses.docs, seriesLabels .responses,
      fun g n => 0 < n ∧ n = served rs r .responses g, fun g => 0 < served rs r .responses g⟩
  | .duration => ⟨_, .histogram le, Vec.duration.name, Vec.duration.docs, seriesLabels .duration,
      fun g (xs : List F64) => 0 < xs.length ∧ xs.length = served rs r .duration g, fun g => 0 < served rs r .duration g⟩

end Measured.Spec
