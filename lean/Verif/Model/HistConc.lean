import Verif.Model.Atomic
import Verif.Model.Histogram

/-!
# A histogram used by many threads

`HistogramLockGuard::observe` under the read lock, sampling under the write lock
(core/src/metric/histogram.rs:29-37, 51-67, 157-160; core/src/text.rs:236), instruction by instruction.

Simplification: the memory cells hold one current value each. Read-modify-writes always act on the last value in
modification order, so this is exact for `fetch_add` and successful compare-exchanges. The load in `AtomicF64::inc_by`
may return any value whatever, which covers stale ones. The sampler reads under the write lock, after everything that
happened under earlier locks.
-/

namespace Measured.Conc

/-- Where a thread is. -/
inductive HistPc where
  | idle
  /-- `observe`: bucket found, waiting for `inner.read()` -/
  | wantRead (bucket : Nat) (x : F64)
  /-- read lock held, before `fetch_add` -/
  | bump (bucket : Nat) (x : F64)
  /-- read lock held, in `sum.inc_by(x)` before the load -/
  | adding (x : F64)
  /-- read lock held, `current` loaded -/
  | loaded (x current : F64)
  /-- read lock held, `inc_by` has returned -/
  | added (x : F64)
  /-- waiting for `inner.write()` -/
  | wantWrite
  /-- write lock held, in the loop of `sample`; `output[..out.len()]` has been read -/
  | sampling (out : List Nat)
  | sampledInf (out : List Nat) (inf : Nat)
  | sampled (out : List Nat) (inf : Nat) (sum : F64)
  | panicked
  deriving DecidableEq

def HistPc.holdsRead : HistPc → Bool
  | .bump .. | .adding _ | .loaded .. | .added _ => true
  | _ => false

def HistPc.holdsWrite : HistPc → Bool
  | .sampling _ | .sampledInf .. | .sampled .. => true
  | _ => false

/-- The shared state and the threads. -/
structure HistSys where
  inner : HistInner
  pc : Tid → HistPc

inductive HistEvent where
  | start (t : Tid) (x : F64)
  | bumped (t : Tid) (x : F64)
  | summed (t : Tid) (x : F64)
  /-- `observe` is over (the read lock is released) -/
  | done (t : Tid) (x : F64)
  /-- `sample` is over, with its result -/
  | sample (t : Tid) (result : List Nat × Nat × F64)
  | panic (t : Tid)
  | silent (t : Tid)
  deriving DecidableEq

/-- The thread that does a step. -/
def HistEvent.tid : HistEvent → Tid
  | .start t _ | .bumped t _ | .summed t _ | .done t _ | .sample t _ | .panic t | .silent t => t

def HistSys.goto (s : HistSys) (t : Tid) (p : HistPc) : HistSys := ⟨s.inner, Function.update s.pc t p⟩

/-- `self.buckets[bucket].fetch_add(1)` or `self.inf.fetch_add(1)`. core/src/metric/histogram.rs:31-35 -/
def bumpBucket (h : HistInner) (bucket : Nat) : HistInner :=
  if bucket < h.buckets.length then { h with buckets := h.buckets.modify bucket incU64 }
  else { h with inf := incU64 h.inf }

/-- One instruction of one thread. -/
inductive HistStep (le : List F64) : HistSys → HistEvent → HistSys → Prop where
  /-- `le.partition_point(|le| x > *le)`. core/src/metric/histogram.rs:158 -/
  | start (s : HistSys) (t : Tid) (x : F64) (b : Nat) (h : s.pc t = .idle)
      (hb : slicePartitionPoint le (fun e => F64.flt e x) = .ok b) :
    HistStep le s (.start t x) (s.goto t (.wantRead b x))
  | startPanic (s : HistSys) (t : Tid) (x : F64) (h : s.pc t = .idle)
      (hb : ∀ b, slicePartitionPoint le (fun e => F64.flt e x) ≠ .ok b) :
    HistStep le s (.panic t) (s.goto t .panicked)
  | lockRead (s : HistSys) (t : Tid) (b : Nat) (x : F64) (h : s.pc t = .wantRead b x)
      (hl : ∀ u, (s.pc u).holdsWrite = false) : HistStep le s (.silent t) (s.goto t (.bump b x))
  /-- `assert!(bucket <= N)`, `fetch_add`. core/src/metric/histogram.rs:30-35 -/
  | bump (s : HistSys) (t : Tid) (b : Nat) (x : F64) (h : s.pc t = .bump b x) (hb : b ≤ s.inner.buckets.length) :
    HistStep le s (.bumped t x) ⟨bumpBucket s.inner b, Function.update s.pc t (.adding x)⟩
  | bumpPanic (s : HistSys) (t : Tid) (b : Nat) (x : F64) (h : s.pc t = .bump b x)
      (hb : ¬ b ≤ s.inner.buckets.length) : HistStep le s (.panic t) (s.goto t .panicked)
  /-- core/src/metric/gauge.rs:340-346; any value at all -/
  | load (s : HistSys) (t : Tid) (x cur : F64) (h : s.pc t = .adding x) :
    HistStep le s (.silent t) (s.goto t (.loaded x cur))
  | casOk (s : HistSys) (t : Tid) (x cur : F64) (h : s.pc t = .loaded x cur) (hc : s.inner.sum = cur) :
    HistStep le s (.summed t x) ⟨{ s.inner with sum := F64.add cur x }, Function.update s.pc t (.added x)⟩
  | casFail (s : HistSys) (t : Tid) (x cur : F64) (h : s.pc t = .loaded x cur) :
    HistStep le s (.silent t) (s.goto t (.adding x))
  | unlockRead (s : HistSys) (t : Tid) (x : F64) (h : s.pc t = .added x) :
    HistStep le s (.done t x) (s.goto t .idle)
  | startSample (s : HistSys) (t : Tid) (h : s.pc t = .idle) : HistStep le s (.silent t) (s.goto t .wantWrite)
  | lockWrite (s : HistSys) (t : Tid) (h : s.pc t = .wantWrite)
      (hl : ∀ u, (s.pc u).holdsWrite = false ∧ (s.pc u).holdsRead = false) :
    HistStep le s (.silent t) (s.goto t (.sampling []))
  /-- `output[i] = *self.buckets[i].get_mut()`. core/src/metric/histogram.rs:54-56 -/
  | readBucket (s : HistSys) (t : Tid) (out : List Nat) (c : Nat) (h : s.pc t = .sampling out)
      (hc : s.inner.buckets[out.length]? = some c) :
    HistStep le s (.silent t) (s.goto t (.sampling (out ++ [c])))
  | readInf (s : HistSys) (t : Tid) (out : List Nat) (h : s.pc t = .sampling out)
      (hc : out.length = s.inner.buckets.length) :
    HistStep le s (.silent t) (s.goto t (.sampledInf out s.inner.inf))
  | readSum (s : HistSys) (t : Tid) (out : List Nat) (inf : Nat) (h : s.pc t = .sampledInf out inf) :
    HistStep le s (.silent t) (s.goto t (.sampled out inf s.inner.sum))
  | unlockWrite (s : HistSys) (t : Tid) (out : List Nat) (inf : Nat) (sum : F64) (h : s.pc t = .sampled out inf sum) :
    HistStep le s (.sample t (out, inf, sum)) (s.goto t .idle)

/-- A new histogram. core/src/metric/histogram.rs:74-86 -/
def HistSys.new (n : Nat) : HistSys := ⟨HistInner.default n, fun _ => .idle⟩

end Measured.Conc
