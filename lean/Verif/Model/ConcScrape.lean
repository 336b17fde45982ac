import Verif.Model.Api
import Verif.Model.Encoder
import Verif.Model.SparseConc
import Verif.Model.DenseConc

/-!
# What a collecting thread writes while others use the vector

The models of vectors used by many threads (`Model/SparseConc.lean`, `Model/DenseConc.lean`) say which entries a
collecting thread comes across, each with the calls that have taken effect on it. Here is what the thread then does with
its encoder, which is its own (`&mut T`).
-/

namespace Measured.Conc
open Measured

variable {K C M E : Type}

/-- The state of a metric after calls through `&M`. Calls on one metric take effect one after the other: C20 to C22. -/
def stateAfter (o : MetricOps C M) (us : List C) : Out M := o.uses o.dflt (us.map .shared)

/-- `v.collect_into(&self.metadata, self.label_set.decode(k), &name, enc)?` for the entries of a pass. `labels` are the
labels of the group that the key decodes to. core/src/metric.rs:450-467 -/
def passSamples (enc : Encoder E) (n : Name) (labels : K → Labels) (view : M → Metric) (o : MetricOps C M) :
    List (K × List C) → RS E Unit
  | [] => pure ()
  | (k, us) :: rest => do
    let x ← RS.lift (stateAfter o us)
    enc.sample (view x) (labels k) n
    passSamples enc n labels view o rest

/-- `MetricVec::collect_family_into` of a thread that comes across the entries `l`. core/src/metric.rs:446-470 -/
def passEncode (enc : Encoder E) (n : Name) (kind : Kind) (labels : K → Labels) (view : M → Metric) (o : MetricOps C M)
    (l : List (K × List C)) : RS E Unit := do
  enc.type kind n
  passSamples enc n labels view o l

end Measured.Conc
