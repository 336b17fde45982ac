import Verif.Model.MetricVec
import Verif.Model.Duration
import Verif.Model.Histogram

/-!
# The calls users make on metrics

Model of `core/src/metric/counter.rs`, `core/src/metric/gauge.rs` and of the methods of histograms, called by one thread
(`Model/Atomic.lean` has the same calls made by many threads). A call through a shared reference ends in an atomic
instruction, which wraps around; one through an exclusive reference in plain arithmetic, which is checked in debug builds.
-/

namespace Measured
variable {S G U M C : Type}

/-- An integer as an `i64`, in two's complement. -/
def asI64Wrap (x : Int) : Int := (x + 9223372036854775808) % 18446744073709551616 - 9223372036854775808

/-- The result `x` of `i64` arithmetic with the overflow behaviour of the build mode. -/
def arithI64 (m : Mode) (x : Int) : Out Int :=
  if -9223372036854775808 ≤ x ∧ x < 9223372036854775808 then .ok x
  else match m with
    | .debug => .panic
    | .release => .ok (asI64Wrap x)

/-! ## Counters -/

/-- The argument of `inc_by` is a `u64`. -/
inductive CounterCall where
  | inc
  | incBy (x : Nat)
  deriving DecidableEq

/-- `CounterState::{inc, inc_by}`: `fetch_add`. core/src/metric/counter.rs:30-40 -/
def CounterCall.shared : CounterCall → Nat → Out Nat
  | .inc, v => .ok ((v + 1) % W64)
  | .incBy x, v => .ok ((v + x) % W64)

/-- `CounterMut::{inc, inc_by}`: `*get_mut() += x`. core/src/metric/counter.rs:43-53 -/
def CounterCall.exclusive (m : Mode) : CounterCall → Nat → Out Nat
  | .inc, v => addU m v 1
  | .incBy x, v => addU m v x

/-! ## Gauges -/

/-- The arguments are `i64`. -/
inductive GaugeCall where
  | inc
  | incBy (x : Int)
  | dec
  | decBy (x : Int)
  | set (x : Int)
  deriving DecidableEq

/-- `GaugeLockGuard`: `fetch_add`, `fetch_sub`, `store`. core/src/metric/gauge.rs:59-88 -/
def GaugeCall.shared : GaugeCall → Int → Out Int
  | .inc, v => .ok (asI64Wrap (v + 1))
  | .incBy x, v => .ok (asI64Wrap (v + x))
  | .dec, v => .ok (asI64Wrap (v - 1))
  | .decBy x, v => .ok (asI64Wrap (v - x))
  | .set x, _ => .ok x

/-- `GaugeMut`. core/src/metric/gauge.rs:90-115 -/
def GaugeCall.exclusive (m : Mode) : GaugeCall → Int → Out Int
  | .inc, v => arithI64 m (v + 1)
  | .incBy x, v => arithI64 m (v + x)
  | .dec, v => arithI64 m (v - 1)
  | .decBy x, v => arithI64 m (v - x)
  | .set x, _ => .ok x

/-! ## Float gauges -/

inductive FloatCall where
  | inc
  | incBy (x : F64)
  | dec
  | decBy (x : F64)
  | set (x : F64)
  deriving DecidableEq

/-- `FloatGaugeLockGuard`, `AtomicF64::{inc_by, dec_by, set}`. core/src/metric/gauge.rs:211-236, 319-359 -/
def FloatCall.shared : FloatCall → F64 → Out F64
  | .inc, v => .ok (F64.add v F64.one)
  | .incBy x, v => .ok (F64.add v x)
  | .dec, v => .ok (F64.add v (F64.neg F64.one))
  | .decBy x, v => .ok (F64.add v (F64.neg x))
  | .set x, _ => .ok x

/-- `FloatGaugeMut`. core/src/metric/gauge.rs:238-267 -/
def FloatCall.exclusive : FloatCall → F64 → Out F64
  | .inc, v => .ok (F64.add v F64.one)
  | .incBy x, v => .ok (F64.add v x)
  | .dec, v => .ok (F64.sub v F64.one)
  | .decBy x, v => .ok (F64.sub v x)
  | .set x, _ => .ok x

/-! ## Histograms -/

/-- A duration is its number of nanoseconds. -/
inductive HistCall where
  | observe (x : F64)
  | observeDuration (d : Nat)
  deriving DecidableEq

/-- `HistogramLockGuard::{observe, observe_duration}` and `HistogramMut::{observe, observe_duration}`; both make the
same calls. core/src/metric/histogram.rs:155-193 -/
def HistCall.run (le : List F64) : HistCall → HistInner → Out HistInner
  | .observe x, h => histObserve le h x
  | .observeDuration d, h => histObserve le h (asSecsF64 d)

/-! ## Metric types -/

/-- A metric type as its users see it. -/
structure MetricOps (C M : Type) where
  /-- `Default::default()` -/
  dflt : M
  /-- a call through `&M` -/
  shared : C → M → Out M
  /-- a call through `&mut M` -/
  exclusive : C → M → Out M

/-- `CounterState` -/
def counterOps (m : Mode) : MetricOps CounterCall Nat := ⟨0, CounterCall.shared, CounterCall.exclusive m⟩

/-- `GaugeState` -/
def gaugeOps (m : Mode) : MetricOps GaugeCall Int := ⟨0, GaugeCall.shared, GaugeCall.exclusive m⟩

/-- `FloatGaugeState` -/
def floatOps : MetricOps FloatCall F64 := ⟨F64.pzero, FloatCall.shared, FloatCall.exclusive⟩

/-- `HistogramState` with thresholds `le` -/
def histOps (le : List F64) : MetricOps HistCall HistInner :=
  ⟨HistInner.default le.length, HistCall.run le, HistCall.run le⟩

/-! ## Single metrics -/

/-- A call on a `Metric<M>`, through one of the two kinds of references. core/src/metric/counter.rs:78-98,
core/src/metric/gauge.rs:32-57, 184-209 -/
inductive Use (C : Type) where
  | shared (c : C)
  | exclusive (c : C)
  deriving DecidableEq

def MetricOps.use (o : MetricOps C M) : Use C → M → Out M
  | .shared c, x => o.shared c x
  | .exclusive c, x => o.exclusive c x

/-- A sequence of calls, up to the first panic. -/
def MetricOps.uses (o : MetricOps C M) : M → List (Use C) → Out M
  | x, [] => .ok x
  | x, u :: us => do
    let x ← o.use u x
    o.uses x us

/-! ## Vectors -/

/-- A call on a `MetricVec<M, L>`: `CounterVec::inc(g)` is `shared g .inc`, `CounterVec::inc_by_mut(g, y)` is
`exclusive g (.incBy y)` and so on; `remove g` is `remove_metric(with_labels(g))`.
core/src/metric/counter.rs:55-75, core/src/metric/gauge.rs:117-142, 269-294, core/src/metric/histogram.rs:210-243 -/
inductive VecCall (G C : Type) where
  | shared (g : G) (c : C)
  | exclusive (g : G) (c : C)
  | remove (g : G)
  deriving DecidableEq

/-- How a call ended. Both failures are panics in the code; they are told apart here by where they come from. -/
inductive CallRes where
  | done
  /-- `with_labels` -/
  | unknownLabel
  /-- anything after it -/
  | panicked
  deriving DecidableEq

/-- The state an update leaves: one that panics (arithmetic overflow) does so before it stores anything. -/
def keep (f : M → Out M) (x : M) : M :=
  match f x with
  | .ok y => y
  | _ => x

def CallRes.ofUpdate (f : M → Out M) : Out M → CallRes
  | .ok x => match f x with
    | .ok _ => .done
    | _ => .panicked
  | _ => .panicked

def CallRes.ofOut : Out (Option M) → CallRes
  | .ok _ => .done
  | _ => .panicked

/-- One call. -/
def vecCall [DecidableEq U] (o : MetricOps C M) (m : Mode) (hasher : U → Nat) (t : GroupSet S G U)
    (v : MetricVec S U M) : VecCall G C → CallRes × MetricVec S U M
  | .shared g c =>
    match MetricVec.withLabels m hasher t g v with
    | (.ok id, v) => match MetricVec.getMetric o.dflt hasher id (keep (o.shared c)) v with
      | (r, v) => (CallRes.ofUpdate (o.shared c) r, v)
    | (_, v) => (.unknownLabel, v)
  | .exclusive g c =>
    match MetricVec.withLabels m hasher t g v with
    | (.ok id, v) => match MetricVec.getMetricMut o.dflt hasher id (keep (o.exclusive c)) v with
      | (r, v) => (CallRes.ofUpdate (o.exclusive c) r, v)
    | (_, v) => (.unknownLabel, v)
  | .remove g =>
    match MetricVec.withLabels m hasher t g v with
    | (.ok id, v) => match MetricVec.removeMetric id v with
      | (r, v) => (CallRes.ofOut r, v)
    | (_, v) => (.unknownLabel, v)

/-- A sequence of calls, by a user that survives panics. -/
def vecCalls [DecidableEq U] (o : MetricOps C M) (m : Mode) (hasher : U → Nat) (t : GroupSet S G U) :
    MetricVec S U M → List (VecCall G C) → List CallRes × MetricVec S U M
  | v, [] => ([], v)
  | v, c :: cs =>
    let r := vecCall o m hasher t v c
    let rs := vecCalls o m hasher t r.2 cs
    (r.1 :: rs.1, rs.2)

end Measured
