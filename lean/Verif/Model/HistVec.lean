import Verif.Model.HistConc
import Verif.Model.SparseConc
import Verif.Model.Encoder

/-!
# A sparse vector of histograms used by many threads: two levels of locks

`Model/SparseConc.lean` lets an update of a metric happen in one step. For a histogram it does not: `observe` waits for
the histogram's own lock, adds to a bucket and then to the sum, and all that while the guard keeps the shard locked
(core/src/metric/histogram.rs:155-160, 29-37); the collecting thread, with the shard locked for reading, waits for the
histogram's lock in order to sample it (core/src/metric.rs:461-463, core/src/text.rs:236; the protobuf encoder knows no
histograms). Here are both levels step by step: the steps of the map are those of `SStep`, with nothing recorded in the
entries, and each key has a histogram whose steps are those of `HistStep`.

A histogram is addressed by its key. (The tables move entries only under the write lock of the shard, while nobody has a
reference to one.)
-/

namespace Measured.Conc

/-- The map, whose entries record nothing, and the histogram of each key. The histogram of a key that is not in the map
is whatever its memory was left with. -/
structure HVSys (K : Type) where
  vec : SSys K Empty
  hist : K → HistSys

inductive HVEvent (K : Type) where
  /-- a step of the map -/
  | vec (e : SEvent K Empty)
  /-- a step of `observe` through a guard -/
  | observe (t : Tid) (k : K) (e : HistEvent)
  /-- a step of the collecting thread towards `sample` -/
  | sampling (t : Tid) (k : K) (e : HistEvent)
  /-- the collecting thread has its sample and goes on to the next entry -/
  | emit (t : Tid) (k : K) (r : List Nat × Nat × F64)
  /-- `remove_metric` returns the histogram -/
  | removed (t : Tid) (k : K) (h : HistInner)

/-- The thread is in `sample`, or waits for the write lock to do it. -/
def HistPc.ofSampler : HistPc → Bool
  | .wantWrite | .sampling _ | .sampledInf .. | .sampled .. => true
  | _ => false

/-- The steps of the map that leave the histograms alone. -/
def SEvent.plain {K : Type} : SEvent K Empty → Bool
  | .insert .. | .remove _ _ (some _) | .emit .. => false
  | _ => true

variable {K : Type} [DecidableEq K]

/-- One step of one thread. A thread does one thing at a time: it takes no step on the map while it is in `observe` or
`sample`, in particular it drops no guard. -/
inductive HVStep (c : ShardConf K) (le : List F64) : HVSys K → HVEvent K → HVSys K → Prop where
  | vec (s : HVSys K) (e : SEvent K Empty) (v : SSys K Empty) (hs : SStep c s.vec e v) (he : e.plain = true)
      (hq : ∀ k, (s.hist k).pc e.tid = .idle) : HVStep c le s (.vec e) ⟨v, s.hist⟩
  /-- `Default::default()` in `get_metric`. core/src/metric/sparse.rs:62-71 -/
  | insert (s : HVSys K) (t : Tid) (k : K) (v : SSys K Empty) (hs : SStep c s.vec (.insert t k) v)
      (hq : ∀ k, (s.hist k).pc t = .idle) :
    HVStep c le s (.vec (.insert t k))
      ⟨v, Function.update s.hist k ⟨HistInner.default le.length, (s.hist k).pc⟩⟩
  /-- The entry is moved out of the table. core/src/metric/sparse.rs:84-95 -/
  | remove (s : HVSys K) (t : Tid) (k : K) (v : SSys K Empty) (hs : SStep c s.vec (.remove t k (some [])) v)
      (hq : ∀ k, (s.hist k).pc t = .idle) : HVStep c le s (.removed t k (s.hist k).inner) ⟨v, s.hist⟩
  /-- core/src/metric/histogram.rs:155-160 -/
  | observe (s : HVSys K) (t : Tid) (k : K) (e : HistEvent) (h : HistSys) (hs : HistStep le (s.hist k) e h)
      (ht : e.tid = t) (hp : (s.vec.thr t).pc = .idle) (hg : k ∈ (s.vec.thr t).guards)
      (hq : ∀ k', k' ≠ k → (s.hist k').pc t = .idle) (h0 : ((s.hist k).pc t).ofSampler = false)
      (h1 : (h.pc t).ofSampler = false) : HVStep c le s (.observe t k e) ⟨s.vec, Function.update s.hist k h⟩
  /-- core/src/metric.rs:461-463, core/src/text.rs:236, core/src/metric/histogram.rs:51-58 -/
  | sampling (s : HVSys K) (t : Tid) (k : K) (e : HistEvent) (h : HistSys) (i j : Nat) (acc snap : List (K × List Empty))
      (hs : HistStep le (s.hist k) e h) (ht : e.tid = t) (hp : (s.vec.thr t).pc = .scan i j acc snap)
      (hk : (s.vec.shards i)[j]? = some (k, [])) (h1 : (h.pc t).ofSampler = true) :
    HVStep c le s (.sampling t k e) ⟨s.vec, Function.update s.hist k h⟩
  | emit (s : HVSys K) (t : Tid) (k : K) (r : List Nat × Nat × F64) (h : HistSys) (v : SSys K Empty)
      (hs : HistStep le (s.hist k) (.sample t r) h) (hv : SStep c s.vec (.emit t k []) v) :
    HVStep c le s (.emit t k r) ⟨v, Function.update s.hist k h⟩

def HVSys.new (n : Nat) : HVSys K := ⟨SSys.new, fun _ => HistSys.new n⟩

/-- What the collecting thread writes for the samples it has taken. core/src/metric.rs:446-470,
core/src/text.rs:210-269 -/
def hvSamples {E : Type} (enc : Encoder E) (n : Name) (labels : K → Labels) (le : List F64) :
    List (K × (List Nat × Nat × F64)) → RS E Unit
  | [] => pure ()
  | (k, r) :: rest => do
    enc.sample (.histogram le ⟨r.1, r.2.1, r.2.2⟩) (labels k) n
    hvSamples enc n labels le rest

def hvEncode {E : Type} (enc : Encoder E) (n : Name) (labels : K → Labels) (le : List F64)
    (l : List (K × (List Nat × Nat × F64))) : RS E Unit := do
  enc.type .histogram n
  hvSamples enc n labels le l

end Measured.Conc
