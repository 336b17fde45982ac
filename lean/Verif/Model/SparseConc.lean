import Verif.Model.Atomic

/-!
# A sparse metric vector used by many threads

`ShardedMap` (core/src/metric/sparse.rs) and the sparse arm of `collect_family_into` (core/src/metric.rs:461-467),
step by step, with one read-write lock per shard. Any number of threads look up metrics, keep and use guards, remove
metrics and collect.

A metric is represented by the list of updates made to it. Tables are found by key here; that hashes lead to the same
place is part of the sequential model (`Model/MetricVec.lean`). Insertion and removal may reorder a table.

Updates of metrics are relaxed atomics. Their order is bound by the locks only: an update takes effect somewhere between
the moments at which the thread got and dropped its guard, not necessarily in the order of the program and also while
the thread does something else; a reader sees the state of some moment between taking its lock and writing the value.
The locks themselves are taken and released in one order that all threads agree on.

`parking_lot` grants read locks only under the condition stated here, possibly later than it could (see `Strict`).
-/

namespace Measured.Conc

/-- Which shard a key belongs to, and the number of shards. -/
structure ShardConf (K : Type) where
  shardOf : K → Nat
  n : Nat

/-- Where a thread is. -/
inductive SPc (K U : Type) where
  | idle
  /-- `get_metric`: before `shard.read()` (sparse.rs:53) -/
  | getRead (k : K)
  /-- read lock held, before `find` (sparse.rs:53-55) -/
  | probe (k : K)
  /-- read lock held, not found; the guard is dropped with `mapped` (sparse.rs:59) -/
  | missed (k : K)
  /-- before `shard.write()` (sparse.rs:62) -/
  | getWrite (k : K)
  /-- write lock held, before `find_entry` (sparse.rs:63) -/
  | insert (k : K)
  /-- write lock held, entry present, before `downgrade` (sparse.rs:72) -/
  | inserted (k : K)
  /-- downgraded to a read lock, before the second `find` (sparse.rs:76) -/
  | refind (k : K)
  /-- `remove_metric`: before `shard.write()` (sparse.rs:86) -/
  | rmWrite (k : K)
  /-- write lock held, before `find_entry` (sparse.rs:87) -/
  | removing (k : K)
  /-- write lock held, before returning -/
  | removed (k : K)
  /-- collection: before `shard.read()` of shard `i` (metric.rs:460-461) -/
  | collect (i : Nat) (acc : List (K × List U))
  /-- read lock of shard `i` held, `j` entries done (metric.rs:461-463); `snap` is the table when it was locked -/
  | scan (i j : Nat) (acc snap : List (K × List U))
  | panicked

/-- A thread: where it is, and the guards it keeps. -/
structure SThread (K U : Type) where
  pc : SPc K U
  guards : List K

structure SSys (K U : Type) where
  shards : Nat → List (K × List U)
  thr : Tid → SThread K U

inductive SEvent (K U : Type) where
  | startGet (t : Tid) (k : K)
  | startRemove (t : Tid) (k : K)
  | startPass (t : Tid)
  | lockR (t : Tid) (i : Nat)
  | lockW (t : Tid) (i : Nat)
  /-- `get_metric` returns the guard -/
  | acquired (t : Tid) (k : K)
  | insert (t : Tid) (k : K)
  /-- an update through a guard -/
  | update (t : Tid) (k : K) (u : U)
  /-- a guard is dropped -/
  | release (t : Tid) (k : K)
  | remove (t : Tid) (k : K) (r : Option (List U))
  | emit (t : Tid) (k : K) (us : List U)
  | endPass (t : Tid) (acc : List (K × List U))
  | panic (t : Tid)
  | silent (t : Tid)

variable {K U : Type}

/-- The thread that does a step. -/
def SEvent.tid : SEvent K U → Tid
  | .startGet t _ | .startRemove t _ | .startPass t | .lockR t _ | .lockW t _ | .acquired t _ | .insert t _
  | .update t _ _ | .release t _ | .remove t _ _ | .emit t _ _ | .endPass t _ | .panic t | .silent t => t

variable [DecidableEq K]

/-- `HashTable::find`. -/
def findKey (k : K) : List (K × List U) → Option (List U)
  | [] => none
  | e :: es => if e.1 = k then some e.2 else findKey k es

/-- The lock a thread holds because of where it is. -/
def SPc.readLock (c : ShardConf K) : SPc K U → Option Nat
  | .probe k | .missed k | .refind k => some (c.shardOf k)
  | .scan i _ _ _ => some i
  | _ => none

def SPc.writeLock (c : ShardConf K) : SPc K U → Option Nat
  | .insert k | .inserted k | .removing k | .removed k => some (c.shardOf k)
  | _ => none

/-- A guard is a `MappedRwLockReadGuard`: it keeps the shard locked (sparse.rs:33). -/
def SThread.HoldsR (c : ShardConf K) (th : SThread K U) (i : Nat) : Prop :=
  th.pc.readLock c = some i ∨ ∃ k ∈ th.guards, c.shardOf k = i

def SThread.HoldsW (c : ShardConf K) (th : SThread K U) (i : Nat) : Prop := th.pc.writeLock c = some i

def SSys.CanRead (c : ShardConf K) (s : SSys K U) (i : Nat) : Prop := ∀ u, ¬ (s.thr u).HoldsW c i

def SSys.CanWrite (c : ShardConf K) (s : SSys K U) (i : Nat) : Prop :=
  ∀ u, ¬ (s.thr u).HoldsW c i ∧ ¬ (s.thr u).HoldsR c i

/-- An update in place. -/
def addUpdate (k : K) (u : U) (l : List (K × List U)) : List (K × List U) :=
  l.map fun e => if e.1 = k then (e.1, e.2 ++ [u]) else e

def SSys.goto (s : SSys K U) (t : Tid) (p : SPc K U) : SSys K U :=
  { s with thr := Function.update s.thr t ⟨p, (s.thr t).guards⟩ }

def SSys.setShard (s : SSys K U) (i : Nat) (l : List (K × List U)) : SSys K U :=
  { s with shards := Function.update s.shards i l }

def SSys.setGuards (s : SSys K U) (t : Tid) (p : SPc K U) (gs : List K) : SSys K U :=
  { s with thr := Function.update s.thr t ⟨p, gs⟩ }

/-- One step of one thread. -/
inductive SStep (c : ShardConf K) : SSys K U → SEvent K U → SSys K U → Prop where
  | startGet (s : SSys K U) (t : Tid) (k : K) (h : (s.thr t).pc = .idle) :
    SStep c s (.startGet t k) (s.goto t (.getRead k))
  | lockRead (s : SSys K U) (t : Tid) (k : K) (h : (s.thr t).pc = .getRead k) (hl : s.CanRead c (c.shardOf k)) :
    SStep c s (.lockR t (c.shardOf k)) (s.goto t (.probe k))
  | hit (s : SSys K U) (t : Tid) (k : K) (us : List U) (h : (s.thr t).pc = .probe k)
      (hf : findKey k (s.shards (c.shardOf k)) = some us) :
    SStep c s (.acquired t k) (s.setGuards t .idle (k :: (s.thr t).guards))
  | miss (s : SSys K U) (t : Tid) (k : K) (h : (s.thr t).pc = .probe k)
      (hf : findKey k (s.shards (c.shardOf k)) = none) : SStep c s (.silent t) (s.goto t (.missed k))
  | missRelease (s : SSys K U) (t : Tid) (k : K) (h : (s.thr t).pc = .missed k) :
    SStep c s (.silent t) (s.goto t (.getWrite k))
  | lockWrite (s : SSys K U) (t : Tid) (k : K) (h : (s.thr t).pc = .getWrite k) (hl : s.CanWrite c (c.shardOf k)) :
    SStep c s (.lockW t (c.shardOf k)) (s.goto t (.insert k))
  | insertFound (s : SSys K U) (t : Tid) (k : K) (us : List U) (h : (s.thr t).pc = .insert k)
      (hf : findKey k (s.shards (c.shardOf k)) = some us) : SStep c s (.silent t) (s.goto t (.inserted k))
  | insertNew (s : SSys K U) (t : Tid) (k : K) (l : List (K × List U)) (h : (s.thr t).pc = .insert k)
      (hf : findKey k (s.shards (c.shardOf k)) = none) (hl : l.Perm ((k, []) :: s.shards (c.shardOf k))) :
    SStep c s (.insert t k) ((s.setShard (c.shardOf k) l).goto t (.inserted k))
  | downgrade (s : SSys K U) (t : Tid) (k : K) (h : (s.thr t).pc = .inserted k) :
    SStep c s (.silent t) (s.goto t (.refind k))
  | refind (s : SSys K U) (t : Tid) (k : K) (us : List U) (h : (s.thr t).pc = .refind k)
      (hf : findKey k (s.shards (c.shardOf k)) = some us) :
    SStep c s (.acquired t k) (s.setGuards t .idle (k :: (s.thr t).guards))
  /-- `expect("the entry was just inserted ...")` -/
  | refindPanic (s : SSys K U) (t : Tid) (k : K) (h : (s.thr t).pc = .refind k)
      (hf : findKey k (s.shards (c.shardOf k)) = none) : SStep c s (.panic t) (s.goto t .panicked)
  /-- An update takes effect: at any time while the guard is kept, whatever the thread is doing meanwhile. -/
  | update (s : SSys K U) (t : Tid) (k : K) (u : U) (us : List U) (hg : k ∈ (s.thr t).guards) (hf : findKey k (s.shards (c.shardOf k)) = some us) :
    SStep c s (.update t k u) (s.setShard (c.shardOf k) (addUpdate k u (s.shards (c.shardOf k))))
  /-- The guard's reference would be dangling. -/
  | dangling (s : SSys K U) (t : Tid) (k : K) (h : (s.thr t).pc = .idle) (hg : k ∈ (s.thr t).guards)
      (hf : findKey k (s.shards (c.shardOf k)) = none) : SStep c s (.panic t) (s.goto t .panicked)
  | release (s : SSys K U) (t : Tid) (k : K) (h : (s.thr t).pc = .idle) (hg : k ∈ (s.thr t).guards) :
    SStep c s (.release t k) (s.setGuards t .idle ((s.thr t).guards.erase k))
  | startRemove (s : SSys K U) (t : Tid) (k : K) (h : (s.thr t).pc = .idle) :
    SStep c s (.startRemove t k) (s.goto t (.rmWrite k))
  | rmLock (s : SSys K U) (t : Tid) (k : K) (h : (s.thr t).pc = .rmWrite k) (hl : s.CanWrite c (c.shardOf k)) :
    SStep c s (.lockW t (c.shardOf k)) (s.goto t (.removing k))
  | removeSome (s : SSys K U) (t : Tid) (k : K) (us : List U) (l : List (K × List U))
      (h : (s.thr t).pc = .removing k) (hf : findKey k (s.shards (c.shardOf k)) = some us)
      (hl : ((k, us) :: l).Perm (s.shards (c.shardOf k))) :
    SStep c s (.remove t k (some us)) ((s.setShard (c.shardOf k) l).goto t (.removed k))
  | removeNone (s : SSys K U) (t : Tid) (k : K) (h : (s.thr t).pc = .removing k)
      (hf : findKey k (s.shards (c.shardOf k)) = none) : SStep c s (.remove t k none) (s.goto t (.removed k))
  | rmRelease (s : SSys K U) (t : Tid) (k : K) (h : (s.thr t).pc = .removed k) :
    SStep c s (.silent t) (s.goto t .idle)
  | startPass (s : SSys K U) (t : Tid) (h : (s.thr t).pc = .idle) :
    SStep c s (.startPass t) (s.goto t (.collect 0 []))
  | passLock (s : SSys K U) (t : Tid) (i : Nat) (acc : List (K × List U)) (h : (s.thr t).pc = .collect i acc)
      (hi : i < c.n) (hl : s.CanRead c i) :
    SStep c s (.lockR t i) (s.goto t (.scan i 0 acc (s.shards i)))
  | emit (s : SSys K U) (t : Tid) (i j : Nat) (acc snap : List (K × List U)) (k : K) (old us cur : List U)
      (h : (s.thr t).pc = .scan i j acc snap) (hc : (s.shards i)[j]? = some (k, cur))
      (ho : snap[j]? = some (k, old)) (h1 : old <+: us) (h2 : us <+: cur) :
    SStep c s (.emit t k us) (s.goto t (.scan i (j + 1) (acc ++ [(k, us)]) snap))
  /-- the encoder fails: `?` -/
  | abort (s : SSys K U) (t : Tid) (i j : Nat) (acc snap : List (K × List U))
      (h : (s.thr t).pc = .scan i j acc snap) : SStep c s (.silent t) (s.goto t .idle)
  | passNext (s : SSys K U) (t : Tid) (i j : Nat) (acc snap : List (K × List U))
      (h : (s.thr t).pc = .scan i j acc snap) (hj : (s.shards i).length ≤ j) :
    SStep c s (.silent t) (s.goto t (.collect (i + 1) acc))
  | endPass (s : SSys K U) (t : Tid) (i : Nat) (acc : List (K × List U)) (h : (s.thr t).pc = .collect i acc)
      (hi : c.n ≤ i) : SStep c s (.endPass t acc) (s.goto t .idle)

def SSys.new : SSys K U := ⟨fun _ => [], fun _ => ⟨.idle, []⟩⟩

/-- A thread waiting for the write lock of shard `i`. -/
def SThread.WaitsW (c : ShardConf K) (th : SThread K U) (i : Nat) : Prop :=
  ∃ k, c.shardOf k = i ∧ (th.pc = .getWrite k ∨ th.pc = .rmWrite k)

/-- `parking_lot` prefers writers: a read lock is not granted while a writer waits. -/
def Strict (c : ShardConf K) (s : SSys K U) : SEvent K U → Prop
  | .lockR _ i => ∀ u, ¬ (s.thr u).WaitsW c i
  | _ => True

/-- The start of an operation on the vector. -/
def SEvent.starts : SEvent K U → Option Tid
  | .startGet t _ | .startRemove t _ | .startPass t => some t
  | _ => none

/-- Threads release their guard before they start another operation. -/
def Disciplined (s : SSys K U) (e : SEvent K U) : Prop := ∀ t, e.starts = some t → (s.thr t).guards = []

end Measured.Conc
