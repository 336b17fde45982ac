import Verif.Model.Atomic

/-!
# A shard of a sparse vector used by many threads, with relaxed memory

`ShardedMap` (core/src/metric/sparse.rs) and the sparse arm of `collect_family_into` (core/src/metric.rs:460-466) for one
shard; the shards of a vector share nothing. As in `Model/SparseConc`, the state of a metric is the list of updates made to
it. Here a metric is a location with a modification order, and knowledge of it is explicit: a thread knows of the first so
many modifications, the write that makes the metric included; what it reads may be any value that is not older. Updates
are relaxed read-modify-writes, which act on the last value (`fetch_add`, or `compare_exchange` as in C21 for floats). What
moves a metric (growth of the table) or takes it out (removal) reads it with plain loads: values may be stale there, too,
if the thread does not know better.

Knowledge goes from thread to thread through the lock only, or through `sync`, which is any happens-before edge outside of the
vector (join, mutex, channel). Who takes the write lock knows what all knew that released the lock. Who takes the read lock
knows what all knew that released the write lock; with `strong`, also of those that released the read lock. `parking_lot` is
strong (all unlocks are releasing, all locks acquiring read-modify-writes of one word), though it does not promise so.
-/

namespace Measured.Conc

/-- Who knows something: a thread, or the lock, from those that released it after reading or after writing. -/
inductive Agent where
  | thr (t : Tid)
  | readers
  | writers
  deriving DecidableEq

/-- Where a thread is. -/
inductive SWPc (K : Type) where
  | idle
  /-- `get_metric`: before `shard.read()`. core/src/metric/sparse.rs:53 -/
  | wantRead (k : K)
  /-- read lock held, before `find`. core/src/metric/sparse.rs:53-55 -/
  | probe (k : K)
  /-- before `shard.write()`. core/src/metric/sparse.rs:62 -/
  | wantWrite (k : K)
  /-- write lock held, before `find_entry`. core/src/metric/sparse.rs:63 -/
  | insert (k : K)
  /-- write lock held, entry present, before `downgrade`. core/src/metric/sparse.rs:72 -/
  | inserted (k : K)
  /-- downgraded to a read lock, before the second `find`. core/src/metric/sparse.rs:76 -/
  | refind (k : K)
  /-- has a guard (a read lock) on the metric at `c`. core/src/metric/sparse.rs:33 -/
  | guard (k : K) (c : Nat)
  /-- `remove_metric`: before `shard.write()`. core/src/metric/sparse.rs:86 -/
  | wantRemove (k : K)
  /-- write lock held, before `find_entry`. core/src/metric/sparse.rs:87 -/
  | removing (k : K)
  /-- write lock held, before returning -/
  | removed
  /-- collection: before `shard.read()`. core/src/metric.rs:461 -/
  | wantScan
  /-- read lock held. core/src/metric.rs:461-463 -/
  | scan
  | panicked

def SWPc.holdsRead {K : Type} : SWPc K → Bool
  | .probe _ | .refind _ | .guard _ _ | .scan => true
  | _ => false

def SWPc.holdsWrite {K : Type} : SWPc K → Bool
  | .insert _ | .inserted _ | .removing _ | .removed => true
  | _ => false

inductive SWEvent (K U : Type) where
  | lockR (t : Tid)
  | unlockR (t : Tid)
  | lockW (t : Tid)
  /-- the write lock is released or downgraded -/
  | unlockW (t : Tid)
  | sync (t s : Tid)
  | insert (t : Tid) (k : K)
  /-- an update through a guard -/
  | add (t : Tid) (k : K) (u : U)
  | remove (t : Tid) (k : K) (r : Option (List U))
  /-- a collection reads a metric -/
  | see (t : Tid) (k : K) (us : List U)
  | panic (t : Tid)
  | silent (t : Tid)

/-- The modification orders of metrics ever made, the number of those, the table, what is known (0: not even that the metric
was initialised), where threads are. core/src/metric/sparse.rs:12-23 -/
structure SWSys (K U : Type) where
  mods : Nat → List (List U)
  next : Nat
  table : K → Option Nat
  view : Agent → Nat → Nat
  pc : Tid → SWPc K

variable {K U : Type} [DecidableEq K]

def SWSys.goto (w : SWSys K U) (t : Tid) (p : SWPc K) : SWSys K U := { w with pc := Function.update w.pc t p }

/-- `a` gets to know what `b` knows. -/
def SWSys.learn (w : SWSys K U) (a b : Agent) : SWSys K U :=
  { w with view := Function.update w.view a fun c => max (w.view a c) (w.view b c) }

/-- `t` knows `n` modifications of `c`. -/
def SWSys.saw (w : SWSys K U) (t : Tid) (c n : Nat) : SWSys K U :=
  { w with view := Function.update w.view (.thr t) (Function.update (w.view (.thr t)) c n) }

def SWSys.setMods (w : SWSys K U) (c : Nat) (l : List (List U)) : SWSys K U :=
  { w with mods := Function.update w.mods c l }

def SWSys.setTable (w : SWSys K U) (k : K) (o : Option Nat) : SWSys K U :=
  { w with table := Function.update w.table k o }

/-- What thread `t` may read at `c`. -/
def SWSys.MayRead (w : SWSys K U) (t : Tid) (c j : Nat) (us : List U) : Prop :=
  w.view (.thr t) c ≤ j + 1 ∧ (w.mods c)[j]? = some us

/-- What is learnt with the read lock. -/
def SWSys.learnRead (strong : Bool) (w : SWSys K U) (t : Tid) : SWSys K U :=
  if strong then (w.learn (.thr t) .writers).learn (.thr t) .readers else w.learn (.thr t) .writers

/-- What is learnt with the write lock. -/
def SWSys.learnWrite (w : SWSys K U) (t : Tid) : SWSys K U := (w.learn (.thr t) .writers).learn (.thr t) .readers

def SWSys.NoWriter (w : SWSys K U) : Prop := ∀ u, (w.pc u).holdsWrite = false

def SWSys.Free (w : SWSys K U) : Prop := ∀ u, (w.pc u).holdsWrite = false ∧ (w.pc u).holdsRead = false

/-- One step of one thread. -/
inductive SWStep (strong : Bool) : SWSys K U → SWEvent K U → SWSys K U → Prop where
  | startGet (w : SWSys K U) (t : Tid) (k : K) (h : w.pc t = .idle) : SWStep strong w (.silent t) (w.goto t (.wantRead k))
  /-- `shard.read()`. core/src/metric/sparse.rs:53 -/
  | lockRead (w : SWSys K U) (t : Tid) (k : K) (h : w.pc t = .wantRead k) (hl : w.NoWriter) :
    SWStep strong w (.lockR t) ((w.learnRead strong t).goto t (.probe k))
  | hit (w : SWSys K U) (t : Tid) (k : K) (c : Nat) (h : w.pc t = .probe k) (hc : w.table k = some c) :
    SWStep strong w (.silent t) (w.goto t (.guard k c))
  /-- not found, the read lock is dropped. core/src/metric/sparse.rs:56-59 -/
  | miss (w : SWSys K U) (t : Tid) (k : K) (h : w.pc t = .probe k) (hc : w.table k = none) :
    SWStep strong w (.unlockR t) ((w.learn .readers (.thr t)).goto t (.wantWrite k))
  /-- `shard.write()`. core/src/metric/sparse.rs:62 -/
  | lockWrite (w : SWSys K U) (t : Tid) (k : K) (h : w.pc t = .wantWrite k) (hl : w.Free) :
    SWStep strong w (.lockW t) ((w.learnWrite t).goto t (.insert k))
  | found (w : SWSys K U) (t : Tid) (k : K) (c : Nat) (h : w.pc t = .insert k) (hc : w.table k = some c) :
    SWStep strong w (.silent t) (w.goto t (.inserted k))
  /-- `insert_unique` moves metrics when the table grows: each is read, and written elsewhere (which here is one more
  modification). core/src/metric/sparse.rs:67-69 -/
  | grow (w : SWSys K U) (t : Tid) (k : K) (h : w.pc t = .insert k) (hc : w.table k = none) (mods' : Nat → List (List U))
      (hm : ∀ c, mods' c = w.mods c ∨ ∃ j us, (∃ k', w.table k' = some c) ∧ w.MayRead t c j us ∧ mods' c = w.mods c ++ [us]) :
    SWStep strong w (.silent t) { w with
      mods := mods',
      view := Function.update w.view (.thr t) fun c =>
        if (mods' c).length = (w.mods c).length then w.view (.thr t) c else (mods' c).length }
  /-- `insert_unique` with `M::default()`. core/src/metric/sparse.rs:67-69 -/
  | insert (w : SWSys K U) (t : Tid) (k : K) (h : w.pc t = .insert k) (hc : w.table k = none) :
    SWStep strong w (.insert t k)
      ({ (((w.setMods w.next [[]]).setTable k (some w.next)).saw t w.next 1) with next := w.next + 1 }.goto t (.inserted k))
  /-- core/src/metric/sparse.rs:72 -/
  | downgrade (w : SWSys K U) (t : Tid) (k : K) (h : w.pc t = .inserted k) :
    SWStep strong w (.unlockW t) ((w.learn .writers (.thr t)).goto t (.refind k))
  /-- core/src/metric/sparse.rs:75-80 -/
  | refind (w : SWSys K U) (t : Tid) (k : K) (c : Nat) (h : w.pc t = .refind k) (hc : w.table k = some c) :
    SWStep strong w (.silent t) (w.goto t (.guard k c))
  | refindPanic (w : SWSys K U) (t : Tid) (k : K) (h : w.pc t = .refind k) (hc : w.table k = none) :
    SWStep strong w (.panic t) ((w.learn .readers (.thr t)).goto t .panicked)
  /-- an update through the guard. core/src/metric/counter.rs:31-40 -/
  | add (w : SWSys K U) (t : Tid) (k : K) (c : Nat) (u : U) (h : w.pc t = .guard k c) :
    SWStep strong w (.add t k u)
      ((w.setMods c (w.mods c ++ [(w.mods c).getLastD [] ++ [u]])).saw t c ((w.mods c).length + 1))
  | drop (w : SWSys K U) (t : Tid) (k : K) (c : Nat) (h : w.pc t = .guard k c) :
    SWStep strong w (.unlockR t) ((w.learn .readers (.thr t)).goto t .idle)
  | startRemove (w : SWSys K U) (t : Tid) (k : K) (h : w.pc t = .idle) :
    SWStep strong w (.silent t) (w.goto t (.wantRemove k))
  /-- core/src/metric/sparse.rs:86 -/
  | lockRemove (w : SWSys K U) (t : Tid) (k : K) (h : w.pc t = .wantRemove k) (hl : w.Free) :
    SWStep strong w (.lockW t) ((w.learnWrite t).goto t (.removing k))
  /-- `x.remove().0 .1`. core/src/metric/sparse.rs:89 -/
  | removeSome (w : SWSys K U) (t : Tid) (k : K) (c j : Nat) (us : List U) (h : w.pc t = .removing k) (hc : w.table k = some c)
      (hr : w.MayRead t c j us) : SWStep strong w (.remove t k (some us)) ((w.setTable k none).goto t .removed)
  | removeNone (w : SWSys K U) (t : Tid) (k : K) (h : w.pc t = .removing k) (hc : w.table k = none) :
    SWStep strong w (.remove t k none) (w.goto t .removed)
  | unlockWrite (w : SWSys K U) (t : Tid) (h : w.pc t = .removed) :
    SWStep strong w (.unlockW t) ((w.learn .writers (.thr t)).goto t .idle)
  | startScan (w : SWSys K U) (t : Tid) (h : w.pc t = .idle) : SWStep strong w (.silent t) (w.goto t .wantScan)
  /-- core/src/metric.rs:461 -/
  | lockScan (w : SWSys K U) (t : Tid) (h : w.pc t = .wantScan) (hl : w.NoWriter) :
    SWStep strong w (.lockR t) ((w.learnRead strong t).goto t .scan)
  /-- Metrics are read in any order (that each is read once is C24). core/src/metric.rs:462-463 -/
  | see (w : SWSys K U) (t : Tid) (k : K) (c j : Nat) (us : List U) (h : w.pc t = .scan) (hc : w.table k = some c)
      (hr : w.MayRead t c j us) : SWStep strong w (.see t k us) (w.saw t c (j + 1))
  | endScan (w : SWSys K U) (t : Tid) (h : w.pc t = .scan) :
    SWStep strong w (.unlockR t) ((w.learn .readers (.thr t)).goto t .idle)
  | sync (w : SWSys K U) (t s : Tid) : SWStep strong w (.sync t s) (w.learn (.thr t) (.thr s))

/-- An empty shard. core/src/metric/sparse.rs:36-45 -/
def SWSys.new : SWSys K U := ⟨fun _ => [], 0, fun _ => none, fun _ _ => 0, fun _ => .idle⟩

end Measured.Conc
