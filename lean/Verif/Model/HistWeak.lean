import Verif.Model.HistConc

/-!
# A histogram used by many threads, with relaxed memory

The same program as in `Model/HistConc`, but every cell is its modification order, as in `Model/Atomic`. A thread has a view,
which says for every cell the last modification that it knows of; a load may return any value that is not older. All
modifications are read-modify-writes, which act on the last value. Only the lock carries knowledge from one thread to
another: who takes the write lock knows all that was known to those who released the lock before; who takes the read lock
knows what was known to those who released the write lock. That is less than `parking_lot` and the orderings in `AtomicF64`
guarantee.
-/

namespace Measured.Conc

/-- The cells of a `HistogramStateInner`: `buckets[i]` for `i < N`, `inf` for `i = N`, and `sum`.
core/src/metric/histogram.rs:18-25 -/
inductive HCell where
  | count (i : Nat)
  | sum
  deriving DecidableEq

/-- For every cell the number of the last modification that is known; the initial value is number 0. -/
abbrev HView := HCell → Nat

def HView.join (a b : HView) : HView := fun c => max (a c) (b c)

/-- The modification orders, the initial values first; what threads know; what was known to those who released the read lock and
the write lock; where threads are. -/
structure HWSys where
  counts : Nat → List Nat
  sum : List F64
  view : Tid → HView
  byReaders : HView
  byWriters : HView
  pc : Tid → HistPc

def HWSys.goto (w : HWSys) (t : Tid) (p : HistPc) : HWSys := { w with pc := Function.update w.pc t p }

/-- Thread `t` gets to know `v`. -/
def HWSys.learn (w : HWSys) (t : Tid) (v : HView) : HWSys := { w with view := Function.update w.view t ((w.view t).join v) }

/-- Thread `t` knows modification `j` of cell `c`. -/
def HWSys.saw (w : HWSys) (t : Tid) (c : HCell) (j : Nat) : HWSys :=
  { w with view := Function.update w.view t (Function.update (w.view t) c j) }

/-- One instruction of one thread. The lines are those of `HistStep`. -/
inductive HWStep (le : List F64) : HWSys → HistEvent → HWSys → Prop where
  /-- core/src/metric/histogram.rs:158 -/
  | start (w : HWSys) (t : Tid) (x : F64) (b : Nat) (h : w.pc t = .idle)
      (hb : slicePartitionPoint le (fun e => F64.flt e x) = .ok b) :
    HWStep le w (.start t x) (w.goto t (.wantRead b x))
  | startPanic (w : HWSys) (t : Tid) (x : F64) (h : w.pc t = .idle)
      (hb : ∀ b, slicePartitionPoint le (fun e => F64.flt e x) ≠ .ok b) :
    HWStep le w (.panic t) (w.goto t .panicked)
  | lockRead (w : HWSys) (t : Tid) (b : Nat) (x : F64) (h : w.pc t = .wantRead b x)
      (hl : ∀ u, (w.pc u).holdsWrite = false) :
    HWStep le w (.silent t) ((w.learn t w.byWriters).goto t (.bump b x))
  /-- `assert!(bucket <= N)`, `fetch_add`. core/src/metric/histogram.rs:30-35 -/
  | bump (w : HWSys) (t : Tid) (b : Nat) (x : F64) (h : w.pc t = .bump b x) (hb : b ≤ le.length) :
    HWStep le w (.bumped t x)
      (({ w with counts := Function.update w.counts b (w.counts b ++ [incU64 ((w.counts b).getLastD 0)]) }.saw t (.count b)
        (w.counts b).length).goto t (.adding x))
  /-- unwinding drops the guard -/
  | bumpPanic (w : HWSys) (t : Tid) (b : Nat) (x : F64) (h : w.pc t = .bump b x) (hb : ¬ b ≤ le.length) :
    HWStep le w (.panic t) ({ w with byReaders := w.byReaders.join (w.view t) }.goto t .panicked)
  /-- core/src/metric/gauge.rs:340-346 -/
  | load (w : HWSys) (t : Tid) (x cur : F64) (j : Nat) (h : w.pc t = .adding x) (hj : w.view t .sum ≤ j)
      (hc : w.sum[j]? = some cur) : HWStep le w (.silent t) ((w.saw t .sum j).goto t (.loaded x cur))
  | casOk (w : HWSys) (t : Tid) (x cur : F64) (h : w.pc t = .loaded x cur) (hc : w.sum.getLastD F64.pzero = cur) :
    HWStep le w (.summed t x)
      (({ w with sum := w.sum ++ [F64.add cur x] }.saw t .sum w.sum.length).goto t (.added x))
  | casFail (w : HWSys) (t : Tid) (x cur : F64) (h : w.pc t = .loaded x cur) :
    HWStep le w (.silent t) (w.goto t (.adding x))
  | unlockRead (w : HWSys) (t : Tid) (x : F64) (h : w.pc t = .added x) :
    HWStep le w (.done t x) ({ w with byReaders := w.byReaders.join (w.view t) }.goto t .idle)
  | startSample (w : HWSys) (t : Tid) (h : w.pc t = .idle) : HWStep le w (.silent t) (w.goto t .wantWrite)
  | lockWrite (w : HWSys) (t : Tid) (h : w.pc t = .wantWrite)
      (hl : ∀ u, (w.pc u).holdsWrite = false ∧ (w.pc u).holdsRead = false) :
    HWStep le w (.silent t) ((w.learn t (w.byWriters.join w.byReaders)).goto t (.sampling []))
  /-- `output[i] = *self.buckets[i].get_mut()`. core/src/metric/histogram.rs:54-56 -/
  | readBucket (w : HWSys) (t : Tid) (out : List Nat) (c j : Nat) (h : w.pc t = .sampling out) (hn : out.length < le.length)
      (hj : w.view t (.count out.length) ≤ j) (hc : (w.counts out.length)[j]? = some c) :
    HWStep le w (.silent t) ((w.saw t (.count out.length) j).goto t (.sampling (out ++ [c])))
  | readInf (w : HWSys) (t : Tid) (out : List Nat) (c j : Nat) (h : w.pc t = .sampling out) (hn : out.length = le.length)
      (hj : w.view t (.count le.length) ≤ j) (hc : (w.counts le.length)[j]? = some c) :
    HWStep le w (.silent t) ((w.saw t (.count le.length) j).goto t (.sampledInf out c))
  | readSum (w : HWSys) (t : Tid) (out : List Nat) (inf : Nat) (x : F64) (j : Nat) (h : w.pc t = .sampledInf out inf)
      (hj : w.view t .sum ≤ j) (hc : w.sum[j]? = some x) :
    HWStep le w (.silent t) ((w.saw t .sum j).goto t (.sampled out inf x))
  | unlockWrite (w : HWSys) (t : Tid) (out : List Nat) (inf : Nat) (sum : F64) (h : w.pc t = .sampled out inf sum) :
    HWStep le w (.sample t (out, inf, sum)) ({ w with byWriters := w.byWriters.join (w.view t) }.goto t .idle)

/-- A new histogram, whose initial values are known to all who got a reference to it. core/src/metric/histogram.rs:74-86 -/
def HWSys.new : HWSys := ⟨fun _ => [0], [F64.pzero], fun _ _ => 0, fun _ => 0, fun _ => 0, fun _ => .idle⟩

end Measured.Conc
