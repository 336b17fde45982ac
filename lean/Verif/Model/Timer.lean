import Verif.Model.MetricVec
import Verif.Model.Histogram

/-!
# Histogram timers

Model of `core/src/metric/histogram.rs:195-298`. An `Instant` is a natural number of nanoseconds, and
`since.elapsed()` reads the clock `now` (it saturates at zero). `rec d` is `observe_duration(d)` on the metric
state reached through the guard. Methods taking `self` run the drop glue at their end.
-/

namespace Measured
variable {S G U M : Type}

/-- `HistogramVecTimer`; the reference to the vector is present or not. core/src/metric/histogram.rs:246-250 -/
structure VecTimer (U : Type) where
  vec : Option Unit
  id : LabelId U
  start : Nat

/-- `HistogramVec::start_timer`. core/src/metric/histogram.rs:220-226 -/
def VecTimer.new (m : Mode) (hasher : U → Nat) (t : GroupSet S G U) (g : G) (now : Nat) :
    RS (MetricVec S U M) (VecTimer U) := do
  let id ← MetricVec.withLabels m hasher t g
  pure ⟨some (), id, now⟩

/-- `v.get_metric(self.id).observe_duration_since(self.start)`. core/src/metric/histogram.rs:168-172, 261, 268 -/
def VecTimer.record [DecidableEq U] (dflt : M) (hasher : U → Nat) (rec : Nat → M → M) (τ : VecTimer U) (now : Nat) :
    RS (MetricVec S U M) Nat := do
  let d := now - τ.start
  let _ ← MetricVec.getMetric dflt hasher τ.id (rec d)
  pure d

/-- `Drop`. core/src/metric/histogram.rs:265-271 -/
def VecTimer.drop [DecidableEq U] (dflt : M) (hasher : U → Nat) (rec : Nat → M → M) (τ : VecTimer U) (now : Nat) :
    RS (MetricVec S U M) Unit :=
  match τ.vec with
  | some _ => do
    let _ ← τ.record dflt hasher rec now
    pure ()
  | none => pure ()

/-- `forget`. core/src/metric/histogram.rs:254-256 -/
def VecTimer.forget [DecidableEq U] (dflt : M) (hasher : U → Nat) (rec : Nat → M → M) (τ : VecTimer U) (now : Nat) :
    RS (MetricVec S U M) Unit := VecTimer.drop dflt hasher rec { τ with vec := none } now

/-- `observe`. core/src/metric/histogram.rs:259-262 -/
def VecTimer.observe [DecidableEq U] (dflt : M) (hasher : U → Nat) (rec : Nat → M → M) (τ : VecTimer U) (now : Nat) :
    RS (MetricVec S U M) Nat := do
  RS.lift (expect τ.vec)
  let τ := { τ with vec := none }
  let d ← τ.record dflt hasher rec now
  τ.drop dflt hasher rec now
  pure d

/-- `HistogramTimer`. core/src/metric/histogram.rs:274-277 -/
structure Timer where
  vec : Option Unit
  start : Nat

/-- `Histogram::start_timer`. core/src/metric/histogram.rs:202-207 -/
def Timer.new (now : Nat) : Timer := ⟨some (), now⟩

/-- `v.get_metric().observe_duration_since(self.start)` on the only state of a `Metric`. -/
def Timer.record (rec : Nat → M → M) (τ : Timer) (now : Nat) : RS M Nat := fun x =>
  (.ok (now - τ.start), rec (now - τ.start) x)

/-- `Drop`. core/src/metric/histogram.rs:292-298 -/
def Timer.drop (rec : Nat → M → M) (τ : Timer) (now : Nat) : RS M Unit :=
  match τ.vec with
  | some _ => do
    let _ ← τ.record rec now
    pure ()
  | none => pure ()

/-- `forget`. core/src/metric/histogram.rs:281-283 -/
def Timer.forget (rec : Nat → M → M) (τ : Timer) (now : Nat) : RS M Unit :=
  Timer.drop rec { τ with vec := none } now

/-- `observe`. core/src/metric/histogram.rs:286-289 -/
def Timer.observe (rec : Nat → M → M) (τ : Timer) (now : Nat) : RS M Nat := do
  RS.lift (expect τ.vec)
  let τ := { τ with vec := none }
  let d ← τ.record rec now
  τ.drop rec now
  pure d

end Measured
