import Verif.Model.LabelGroup

/-!
# `MetricVec`: sequential model

Model of `core/src/metric.rs` (MetricVec, VecInner, LabelId, collection) and `core/src/metric/sparse.rs`.
A metric state `M` is updated through the guard by an arbitrary function `M → M`; `get_metric` followed by
such an update is one operation here (the interleaved version is in `Model/Concurrent*.lean`).
-/

namespace Measured

variable {S G U M : Type}

/-! ## Shards -/

/-- `u64::leading_zeros` for a non-zero argument. -/
def leadingZeros64 (x : Nat) : Nat := 63 - Nat.log2 x

/-- `u64::trailing_zeros`, looking at most `fuel` bits. -/
def trailingZerosAux : Nat → Nat → Nat
  | 0, _ => 0
  | fuel + 1, x => if x % 2 = 1 then 0 else trailingZerosAux fuel (x / 2) + 1

def trailingZeros64 (x : Nat) : Nat := trailingZerosAux 64 x

/-- `usize::next_power_of_two` (`one_less_than_next_power_of_two() + 1`). -/
def nextPowerOfTwo (m : Mode) (n : Nat) : Out Nat :=
  if n ≤ 1 then addU m 0 1 else addU m ((W64 - 1) >>> leadingZeros64 (n - 1)) 1

/-- `default_shard_amount` for a reported parallelism (`NonZeroUsize`, or 1 when unknown).
core/src/metric/sparse.rs:26-31 -/
def defaultShardAmount (m : Mode) (parallelism : Nat) : Out Nat := do
  let x ← mulU m parallelism 4
  nextPowerOfTwo m x

/-- `shift: usize::BITS - shards.trailing_zeros()`. core/src/metric/sparse.rs:43 -/
def shardShift (shards : Nat) : Nat := 64 - trailingZeros64 shards

/-- `((id.hash as usize) << 7) >> self.shift`. core/src/metric/sparse.rs:50, 84, 95 -/
def shardIndex (shift hash : Nat) : Nat := ((hash <<< 7) % W64) >>> shift

/-! ## Hash tables (`hashbrown::HashTable`, by contract) -/

/-- One stored element with the hash it was stored under. -/
structure Entry (U M : Type) where
  hash : Nat
  key : U
  val : M

abbrev Table (U M : Type) := List (Entry U M)

/-- `HashTable::find(hash, |(k, _)| *k == id)`: only elements stored under that hash are considered. -/
def Table.find [DecidableEq U] (t : Table U M) (hash : Nat) (key : U) : Option M :=
  match t with
  | [] => none
  | e :: es => if e.hash = hash ∧ e.key = key then some e.val else Table.find es hash key

/-- Update through the reference returned by `find`/`find_entry`. -/
def Table.modify [DecidableEq U] (t : Table U M) (hash : Nat) (key : U) (f : M → M) : Table U M :=
  match t with
  | [] => []
  | e :: es => if e.hash = hash ∧ e.key = key then { e with val := f e.val } :: es
    else e :: Table.modify es hash key f

/-- `HashTable::insert_unique(hash, (key, value), hasher)`; growing re-hashes every element with `hasher`
(modelled as if it grew every time). -/
def Table.insertUnique (t : Table U M) (hash : Nat) (key : U) (v : M) (hasher : U → Nat) : Table U M :=
  ⟨hash, key, v⟩ :: t.map fun e => { e with hash := hasher e.key }

/-- `OccupiedEntry::remove`. -/
def Table.remove [DecidableEq U] (t : Table U M) (hash : Nat) (key : U) : Table U M :=
  match t with
  | [] => []
  | e :: es => if e.hash = hash ∧ e.key = key then es else e :: Table.remove es hash key

/-- `ShardedMap`. core/src/metric/sparse.rs:12-23 -/
structure ShardedMap (U M : Type) where
  shards : List (Table U M)
  shift : Nat

/-- `ShardedMap::new`. core/src/metric/sparse.rs:36-45 -/
def ShardedMap.new (m : Mode) (parallelism : Nat) : Out (ShardedMap U M) := do
  let n ← defaultShardAmount m parallelism
  .ok ⟨List.replicate n [], shardShift n⟩

/-- `LabelIdInner`. core/src/metric.rs:475-479 -/
structure LabelId (U : Type) where
  id : U
  hash : Nat

/-- `PartialEq for LabelId`: only the id counts. core/src/metric.rs:487-497 -/
def LabelId.eq [DecidableEq U] (a b : LabelId U) : Bool := a.id = b.id

/-- `&self.shards[idx]` with the index computed from the hash. -/
def ShardedMap.shard (sm : ShardedMap U M) (hash : Nat) : Out (Table U M) :=
  expect sm.shards[shardIndex sm.shift hash]?

def ShardedMap.setShard (sm : ShardedMap U M) (hash : Nat) (t : Table U M) : ShardedMap U M :=
  { sm with shards := sm.shards.set (shardIndex sm.shift hash) t }

/-- `get_metric`, then an update `f` of the metric through the guard; returns the state before the update.
core/src/metric/sparse.rs:49-81 -/
def ShardedMap.getMetric [DecidableEq U] (dflt : M) (hasher : U → Nat) (sm : ShardedMap U M) (id : LabelId U)
    (f : M → M) : Out (M × ShardedMap U M) := do
  let shard ← sm.shard id.hash
  match shard.find id.hash id.id with
  | some v => .ok (v, sm.setShard id.hash (shard.modify id.hash id.id f))
  | none => do
    let shard := match shard.find id.hash id.id with
      | some _ => shard
      | none => shard.insertUnique id.hash id.id dflt hasher
    let v ← expect (shard.find id.hash id.id)
    .ok (v, sm.setShard id.hash (shard.modify id.hash id.id f))

/-- `remove_metric`. core/src/metric/sparse.rs:83-92 -/
def ShardedMap.removeMetric [DecidableEq U] (sm : ShardedMap U M) (id : LabelId U) :
    Out (Option M × ShardedMap U M) := do
  let shard ← sm.shard id.hash
  match shard.find id.hash id.id with
  | some v => .ok (some v, sm.setShard id.hash (shard.remove id.hash id.id))
  | none => .ok (none, sm)

/-- `get_metric_mut`, then an update through the reference. core/src/metric/sparse.rs:94-109 -/
def ShardedMap.getMetricMut [DecidableEq U] (dflt : M) (hasher : U → Nat) (sm : ShardedMap U M)
    (id : LabelId U) (f : M → M) : Out (M × ShardedMap U M) := do
  let shard ← sm.shard id.hash
  match shard.find id.hash id.id with
  | some v => .ok (v, sm.setShard id.hash (shard.modify id.hash id.id f))
  | none =>
    let shard := shard.insertUnique id.hash id.id dflt hasher
    .ok (dflt, sm.setShard id.hash (shard.modify id.hash id.id f))

/-- `get_cardinality`. core/src/metric/sparse.rs:111-116 -/
def ShardedMap.getCardinality (sm : ShardedMap U M) : Nat := (sm.shards.map List.length).sum

/-! ## `VecInner` and `MetricVec` -/

/-- `VecInner`: dense cells are `OnceLock`s (`none` = not initialised). core/src/metric.rs:124-127 -/
inductive VecInner (U M : Type) where
  | dense (cells : List (Option M))
  | sparse (map : ShardedMap U M)

/-- `MetricVec`: storage and (the mutable part of) the label set. The metadata is immutable and left to
the encoder. core/src/metric.rs:118-122 -/
structure MetricVec (S U M : Type) where
  inner : VecInner U M
  labels : S

/-- `DEFAULT_MAX_DENSE`. core/src/metric.rs:166 -/
def DEFAULT_MAX_DENSE : Nat := 1024

/-- `new_dense`. core/src/metric.rs:159-163 -/
def newDense (c : Nat) : List (Option M) := List.replicate c none

/-- `with_label_set_and_metadata` (behind `new`, `with_metadata`, `with_label_set`, `default`).
core/src/metric.rs:271-282 -/
def MetricVec.new (m : Mode) (parallelism : Nat) (t : GroupSet S G U) (s : S) : Out (MetricVec S U M) :=
  match t.cardinality with
  | some c =>
    if c ≤ DEFAULT_MAX_DENSE then .ok ⟨.dense (newDense c), s⟩
    else do
      let sm ← ShardedMap.new m parallelism
      .ok ⟨.sparse sm, s⟩
  | none => do
    let sm ← ShardedMap.new m parallelism
    .ok ⟨.sparse sm, s⟩

/-- `dense_with_label_set_and_metadata`. core/src/metric.rs:285-295 -/
def MetricVec.newDense (t : GroupSet S G U) (s : S) : Out (MetricVec S U M) := do
  let c ← expect t.cardinality
  .ok ⟨.dense (Measured.newDense c), s⟩

/-- `sparse_with_label_set_and_metadata`. core/src/metric.rs:298-304 -/
def MetricVec.newSparse (m : Mode) (parallelism : Nat) (s : S) : Out (MetricVec S U M) := do
  let sm ← ShardedMap.new m parallelism
  .ok ⟨.sparse sm, s⟩

/-- `OnceLock::get_or_init(M::default)` on a cell. -/
def getOrInit (dflt : M) : Option M → M
  | some v => v
  | none => dflt

/-- `VecInner::get_metric` and an update through the guard. core/src/metric.rs:244-252 -/
def VecInner.getMetric [DecidableEq U] (dflt : M) (hasher : U → Nat) (v : VecInner U M) (id : LabelId U)
    (f : M → M) : Out (M × VecInner U M) :=
  match v with
  | .dense cells => do
    let cell ← expect cells[id.hash]?
    let x := getOrInit dflt cell
    .ok (x, .dense (cells.set id.hash (some (f x))))
  | .sparse sm => do
    let (x, sm) ← sm.getMetric dflt hasher id f
    .ok (x, .sparse sm)

/-- `VecInner::get_metric_mut` and an update through the reference. core/src/metric.rs:254-266 -/
def VecInner.getMetricMut [DecidableEq U] (dflt : M) (hasher : U → Nat) (v : VecInner U M) (id : LabelId U)
    (f : M → M) : Out (M × VecInner U M) :=
  match v with
  | .dense cells => do
    let cell ← expect cells[id.hash]?
    let cell := if cell.isNone then some dflt else cell
    let x ← expect cell
    .ok (x, .dense (cells.set id.hash (some (f x))))
  | .sparse sm => do
    let (x, sm) ← sm.getMetricMut dflt hasher id f
    .ok (x, .sparse sm)

/-- `init_all_dense`. core/src/metric.rs:313-321 -/
def VecInner.initAllDense (dflt : M) (v : VecInner U M) : VecInner U M :=
  match v with
  | .dense cells => .dense (cells.map fun c => if c.isNone then some dflt else c)
  | .sparse sm => .sparse sm

/-- `try_with_labels`. core/src/metric.rs:341-354 -/
def MetricVec.tryWithLabels (m : Mode) (hasher : U → Nat) (t : GroupSet S G U) (g : G) :
    RS (MetricVec S U M) (Option (LabelId U)) := fun v =>
  match t.encode g v.labels with
  | (.ok none, s) => (.ok none, { v with labels := s })
  | (.ok (some id), s) =>
    let hash : Out Nat := match v.inner with
      | .dense cells => do
        let o ← t.encodeDense id
        let index ← expect o
        debugAssert m (index < cells.length)
        .ok index
      | .sparse _ => .ok (hasher id)
    (hash >>= fun h => .ok (some ⟨id, h⟩), { v with labels := s })
  | (.err, s) => (.err, { v with labels := s })
  | (.panic, s) => (.panic, { v with labels := s })

/-- `with_labels`. core/src/metric.rs:332-335 -/
def MetricVec.withLabels (m : Mode) (hasher : U → Nat) (t : GroupSet S G U) (g : G) :
    RS (MetricVec S U M) (LabelId U) := fun v =>
  match MetricVec.tryWithLabels m hasher t g v with
  | (.ok o, v') => (expect o, v')
  | (.err, v') => (.err, v')
  | (.panic, v') => (.panic, v')

/-- `get_metric` + update. core/src/metric.rs:360-362 -/
def MetricVec.getMetric [DecidableEq U] (dflt : M) (hasher : U → Nat) (id : LabelId U) (f : M → M) :
    RS (MetricVec S U M) M := fun v =>
  match v.inner.getMetric dflt hasher id f with
  | .ok (x, i) => (.ok x, { v with inner := i })
  | .err => (.err, v)
  | .panic => (.panic, v)

/-- `get_metric_mut` + update. core/src/metric.rs:384-386 -/
def MetricVec.getMetricMut [DecidableEq U] (dflt : M) (hasher : U → Nat) (id : LabelId U) (f : M → M) :
    RS (MetricVec S U M) M := fun v =>
  match v.inner.getMetricMut dflt hasher id f with
  | .ok (x, i) => (.ok x, { v with inner := i })
  | .err => (.err, v)
  | .panic => (.panic, v)

/-- `remove_metric`. core/src/metric.rs:373-378 -/
def MetricVec.removeMetric [DecidableEq U] (id : LabelId U) : RS (MetricVec S U M) (Option M) := fun v =>
  match v.inner with
  | .dense _ => (.ok none, v)
  | .sparse sm =>
    match sm.removeMetric id with
    | .ok (x, sm') => (.ok x, { v with inner := .sparse sm' })
    | .err => (.err, v)
    | .panic => (.panic, v)

/-- `init_all_dense`. core/src/metric.rs:313-321 -/
def MetricVec.initAllDense (dflt : M) : RS (MetricVec S U M) Unit := fun v =>
  (.ok (), { v with inner := v.inner.initAllDense dflt })

/-- `get_cardinality`. core/src/metric.rs:389-397 -/
def MetricVec.getCardinality (t : GroupSet S G U) (v : MetricVec S U M) : Nat × Option Nat :=
  match v.inner with
  | .dense x => ((x.filter Option.isSome).length, some x.length)
  | .sparse x => (x.getCardinality, t.cardinality)

/-! ## Collection -/

/-- `for (index, value) in m.iter().enumerate() { if let Some(value) = value.get() { … } }`.
core/src/metric.rs:450-459 -/
def collectDense {E : Type} (t : GroupSet S G U) (s : S) (sample : G → M → RS E Unit) :
    Nat → List (Option M) → RS E Unit
  | _, [] => pure ()
  | index, none :: rest => collectDense t s sample (index + 1) rest
  | index, some v :: rest => do
    let g ← RS.lift (t.decodeDense s index)
    sample g v
    collectDense t s sample (index + 1) rest

/-- `for (k, v) in shard.read().iter() { v.collect_into(…, self.label_set.decode(k), …)?; }`.
core/src/metric.rs:463-465 -/
def collectTable {E : Type} (t : GroupSet S G U) (s : S) (sample : G → M → RS E Unit) :
    Table U M → RS E Unit
  | [] => pure ()
  | e :: rest => do
    let g ← RS.lift (t.decode s e.key)
    sample g e.val
    collectTable t s sample rest

/-- `for shard in m.shards.iter()`. core/src/metric.rs:462-466 -/
def collectShards {E : Type} (t : GroupSet S G U) (s : S) (sample : G → M → RS E Unit) :
    List (Table U M) → RS E Unit
  | [] => pure ()
  | tb :: rest => do
    collectTable t s sample tb
    collectShards t s sample rest

/-- `MetricVec::collect_family_into`, for any encoder: `writeType` is `M::write_type(&name, enc)`, `sample g v`
is `v.collect_into(&metadata, g, &name, enc)`. core/src/metric.rs:446-470 -/
def MetricVec.collectFamilyInto {E : Type} (t : GroupSet S G U) (writeType : RS E Unit)
    (sample : G → M → RS E Unit) (v : MetricVec S U M) : RS E Unit := do
  writeType
  match v.inner with
  | .dense cells => collectDense t v.labels sample 0 cells
  | .sparse sm => collectShards t v.labels sample sm.shards

/-! ## Sequences of operations -/

/-- One call by a user of the vector. `k` refers to the `k`-th id obtained so far. -/
inductive VecOp (G M : Type) where
  /-- `try_with_labels(g)`, keeping the id if there is one -/
  | lookup (g : G)
  /-- `get_metric(id_k)` and an update -/
  | access (k : Nat) (f : M → M)
  /-- `get_metric_mut(id_k)` and an update -/
  | accessMut (k : Nat) (f : M → M)
  /-- `get_metric(with_labels(g))` and an update (`CounterVec::inc(g)` and friends) -/
  | update (g : G) (f : M → M)
  /-- `get_metric_mut(with_labels(g))` and an update (`inc_mut` and friends) -/
  | updateMut (g : G) (f : M → M)
  /-- `remove_metric(id_k)` -/
  | remove (k : Nat)
  | initAllDense

/-- What the caller sees. -/
inductive VecRes (M : Type) where
  /-- whether an id was returned -/
  | found (b : Bool)
  /-- state of the metric before the update -/
  | state (x : M)
  | removed (o : Option M)
  | unit
  /-- the program has no `k`-th id -/
  | noSuchId
  | panic
  deriving DecidableEq

/-- A vector together with the ids its user has obtained. -/
structure VecRun (S U M : Type) where
  vec : MetricVec S U M
  ids : List (LabelId U)

def VecRes.ofState : Out M → VecRes M
  | .ok x => .state x
  | _ => .panic

/-- One operation of a user program. -/
def vecStep [DecidableEq U] (m : Mode) (hasher : U → Nat) (dflt : M) (t : GroupSet S G U) (r : VecRun S U M) :
    VecOp G M → VecRes M × VecRun S U M
  | .lookup g =>
    match MetricVec.tryWithLabels m hasher t g r.vec with
    | (.ok (some id), v) => (.found true, ⟨v, r.ids ++ [id]⟩)
    | (.ok none, v) => (.found false, ⟨v, r.ids⟩)
    | (_, v) => (.panic, ⟨v, r.ids⟩)
  | .access k f =>
    match r.ids[k]? with
    | none => (.noSuchId, r)
    | some id => match MetricVec.getMetric dflt hasher id f r.vec with
      | (o, v) => (VecRes.ofState o, ⟨v, r.ids⟩)
  | .accessMut k f =>
    match r.ids[k]? with
    | none => (.noSuchId, r)
    | some id => match MetricVec.getMetricMut dflt hasher id f r.vec with
      | (o, v) => (VecRes.ofState o, ⟨v, r.ids⟩)
  | .update g f =>
    match (do let id ← MetricVec.withLabels m hasher t g; MetricVec.getMetric dflt hasher id f) r.vec with
    | (o, v) => (VecRes.ofState o, ⟨v, r.ids⟩)
  | .updateMut g f =>
    match (do let id ← MetricVec.withLabels m hasher t g; MetricVec.getMetricMut dflt hasher id f) r.vec with
    | (o, v) => (VecRes.ofState o, ⟨v, r.ids⟩)
  | .remove k =>
    match r.ids[k]? with
    | none => (.noSuchId, r)
    | some id => match MetricVec.removeMetric id r.vec with
      | (.ok o, v) => (.removed o, ⟨v, r.ids⟩)
      | (_, v) => (.panic, ⟨v, r.ids⟩)
  | .initAllDense =>
    match MetricVec.initAllDense dflt r.vec with
    | (_, v) => (.unit, ⟨v, r.ids⟩)

/-- A user program: results and final state. -/
def vecRun [DecidableEq U] (m : Mode) (hasher : U → Nat) (dflt : M) (t : GroupSet S G U) :
    VecRun S U M → List (VecOp G M) → List (VecRes M) × VecRun S U M
  | r, [] => ([], r)
  | r, op :: ops =>
    let (x, r') := vecStep m hasher dflt t r op
    let (xs, r'') := vecRun m hasher dflt t r' ops
    (x :: xs, r'')

end Measured
