import Verif.Model.DenseConc
import Verif.Model.HistVec

/-!
# A dense vector of histograms used by many threads

As `Model/HistVec.lean` does for sparse vectors, with `Model/DenseConc.lean` for the cells: `observe` and `sample` are the
steps of `HistStep` on the histogram of the cell, under its own lock (core/src/metric/histogram.rs:29-37, 51-58, 155-160);
a dense vector has no other lock. A histogram is addressed by the index of its state: no state is made twice.
-/

namespace Measured.Conc

structure HDSys where
  vec : DSys Empty
  hist : Nat → HistSys

inductive HDEvent where
  /-- a step of the vector -/
  | vec (e : DEvent Empty)
  /-- a step of `observe` through a guard for label `i` -/
  | observe (t : Tid) (i : Nat) (e : HistEvent)
  /-- a step of the collecting thread towards `sample` -/
  | sampling (t : Tid) (i : Nat) (e : HistEvent)
  /-- the collecting thread has its sample and goes on to the next cell -/
  | emit (t : Tid) (i : Nat) (r : List Nat × Nat × F64)

/-- The thread is free to do the step of the vector: it is in no histogram, or only learns something. -/
def HDSys.Free (s : HDSys) : DEvent Empty → Prop
  | .startGet t _ | .init t _ _ | .acquired t _ _ | .update t _ _ _ | .startPass t | .skip t _ | .endPass t | .panic t
  | .silent t => ∀ o, (s.hist o).pc t = .idle
  | .sync .. => True
  | .emit .. => False

/-- One step of one thread. -/
inductive HDStep (n : Nat) (le : List F64) : HDSys → HDEvent → HDSys → Prop where
  | vec (s : HDSys) (e : DEvent Empty) (v : DSys Empty) (hs : DStep n s.vec e v) (hq : s.Free e) :
    HDStep n le s (.vec e) ⟨v, s.hist⟩
  /-- core/src/metric/histogram.rs:155-160 -/
  | observe (s : HDSys) (t : Tid) (i o : Nat) (e : HistEvent) (h : HistSys) (hs : HistStep le (s.hist o) e h)
      (ht : e.tid = t) (hp : s.vec.pc t = .idle) (hg : (i, o) ∈ s.vec.refs t)
      (hq : ∀ o', o' ≠ o → (s.hist o').pc t = .idle) (h0 : ((s.hist o).pc t).ofSampler = false)
      (h1 : (h.pc t).ofSampler = false) : HDStep n le s (.observe t i e) ⟨s.vec, Function.update s.hist o h⟩
  /-- core/src/metric.rs:449-459, core/src/text.rs:236, core/src/metric/histogram.rs:51-58 -/
  | sampling (s : HDSys) (t : Tid) (i o : Nat) (e : HistEvent) (h : HistSys) (hs : HistStep le (s.hist o) e h)
      (ht : e.tid = t) (hp : s.vec.pc t = .pass i) (hi : i < n) (hc : s.vec.cells i = .done o)
      (h1 : (h.pc t).ofSampler = true) : HDStep n le s (.sampling t i e) ⟨s.vec, Function.update s.hist o h⟩
  | emit (s : HDSys) (t : Tid) (i o : Nat) (r : List Nat × Nat × F64) (h : HistSys) (v : DSys Empty)
      (hs : HistStep le (s.hist o) (.sample t r) h) (hc : s.vec.cells i = .done o) (hv : DStep n s.vec (.emit t i []) v) :
    HDStep n le s (.emit t i r) ⟨v, Function.update s.hist o h⟩

def HDSys.new (n : Nat) : HDSys := ⟨DSys.new, fun _ => HistSys.new n⟩

end Measured.Conc
