import Verif.Model.F64

/-!
# Histograms: thresholds and observations (sequential)

Model of `core/src/metric/histogram.rs`. The const parameter `N` is the length of the lists.
-/

namespace Measured

/-! ## `slice::partition_point` (Rust standard library)

`binary_search_by` as in `core::slice`:
`while size > 1 { half = size / 2; mid = base + half; base = if pred(mid) { mid } else { base }; size -= half }`
and a last comparison at `base`. A read outside of the slice (undefined behaviour) is a panic here. -/

def searchLoop {α : Type} (l : List α) (pred : α → Bool) : Nat → Nat → Nat → Out Nat
  | 0, base, _ => .ok base
  | fuel + 1, base, size =>
    if 1 < size then do
      let half := size / 2
      let mid := base + half
      let x ← expect l[mid]?
      searchLoop l pred fuel (if pred x then mid else base) (size - half)
    else .ok base

/-- `l.partition_point(pred)`. -/
def slicePartitionPoint {α : Type} (l : List α) (pred : α → Bool) : Out Nat :=
  if l.length = 0 then .ok 0
  else do
    let base ← searchLoop l pred l.length 0 l.length
    let x ← expect l[base]?
    .ok (if pred x then base + 1 else base)

/-! ## Thresholds -/

/-- `Thresholds::with_buckets`. For `N = 0` the range `0..N - 1` underflows: a panic with overflow checks,
otherwise the range is `0..usize::MAX` and the first index is out of bounds.
core/src/metric/histogram.rs:139-147 -/
def withBucketsLoop (b : List F64) : Nat → Nat → Out Unit
  | _, 0 => .ok ()
  | i, fuel + 1 => do
    let x ← expect b[i]?
    let y ← expect b[i + 1]?
    if F64.flt x y then withBucketsLoop b (i + 1) fuel else .panic

def withBuckets (m : Mode) (b : List F64) : Out (List F64) :=
  if b.length = 0 then
    match m with
    | .debug => .panic
    | .release => do
      withBucketsLoop b 0 (W64 - 1)
      .ok b
  else do
    withBucketsLoop b 0 (b.length - 1)
    .ok b

/-- `+0.0` -/
def F64.pzero : F64 := F64.zero false

/-- `Thresholds::exponential_buckets`; `i as i32` is `i` for `i < 2^31`, larger `N` are not modelled.
core/src/metric/histogram.rs:103-117 -/
def exponentialBuckets (n : Nat) (start factor : F64) : Out (List F64) :=
  if F64.flt F64.pzero start then
    if F64.flt F64.one factor then
      .ok ((List.range n).map fun i => F64.mul start (F64.powi factor i))
    else .panic
  else .panic

/-- `Thresholds::linear_buckets`. core/src/metric/histogram.rs:124-133 -/
def linearBuckets (n : Nat) (start width : F64) : Out (List F64) :=
  if F64.flt F64.pzero width then
    .ok ((List.range n).map fun i => F64.add start (F64.mul width (F64.ofNat i)))
  else .panic

/-! ## State -/

/-- `HistogramStateInner`. core/src/metric/histogram.rs:18-25 -/
structure HistInner where
  buckets : List Nat
  inf : Nat
  sum : F64
  deriving DecidableEq

/-- `Default`. core/src/metric/histogram.rs:74-86 -/
def HistInner.default (n : Nat) : HistInner := ⟨List.replicate n 0, 0, F64.pzero⟩

/-- `fetch_add(1)` on an `AtomicU64`: wraps. -/
def incU64 (c : Nat) : Nat := (c + 1) % W64

/-- `HistogramStateInner::observe` (no other thread interferes here).
core/src/metric/histogram.rs:29-37 -/
def HistInner.observe (h : HistInner) (bucket : Nat) (x : F64) : Out HistInner :=
  if bucket ≤ h.buckets.length then
    let h := if bucket < h.buckets.length then { h with buckets := h.buckets.modify bucket incU64 }
      else { h with inf := incU64 h.inf }
    .ok { h with sum := F64.add h.sum x }
  else .panic

/-- `HistogramStateInner::observe_mut`: `+= 1` with overflow checks.
core/src/metric/histogram.rs:40-49 -/
def HistInner.observeMut (m : Mode) (h : HistInner) (bucket : Nat) (x : F64) : Out HistInner :=
  if bucket ≤ h.buckets.length then
    if bucket < h.buckets.length then do
      let c ← expect h.buckets[bucket]?
      let c ← addU m c 1
      .ok { h with buckets := h.buckets.set bucket c, sum := F64.add h.sum x }
    else do
      let c ← addU m h.inf 1
      .ok { h with inf := c, sum := F64.add h.sum x }
  else .panic

/-- `sample`. core/src/metric/histogram.rs:51-58 -/
def HistInner.sample (h : HistInner) : List Nat × Nat × F64 := (h.buckets, h.inf, h.sum)

/-- `HistogramLockGuard::observe` and `HistogramMut::observe`: `partition_point(|le| x > *le)`, then `observe`.
core/src/metric/histogram.rs:157-160, 177-180 -/
def histObserve (le : List F64) (h : HistInner) (x : F64) : Out HistInner := do
  let bucket ← slicePartitionPoint le fun t => F64.flt t x
  h.observe bucket x

/-- A sequence of observations. -/
def histObserveAll (le : List F64) : HistInner → List F64 → Out HistInner
  | h, [] => .ok h
  | h, x :: xs => do
    let h ← histObserve le h x
    histObserveAll le h xs

end Measured
