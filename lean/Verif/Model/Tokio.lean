import Verif.Model.Text
import Verif.Model.Duration

/-!
# The tokio runtime collectors (tokio/src/lib.rs)

What `tokio::runtime::RuntimeMetrics` answers is the input of the model. Every changing value is read at most once per
pass; the numbers of workers and buckets and the bucket ranges are fixed when a runtime is built. So a record of
functions covers runtimes that change during a pass.
-/

namespace Measured

/-- The answers of a `RuntimeMetrics` during one pass. -/
structure RtMetrics where
  numWorkers : Nat
  numBlockingThreads : Nat
  numIdleBlockingThreads : Nat
  activeTasks : Nat
  blockingQueueDepth : Nat
  injectionQueueDepth : Nat
  workerLocalQueueDepth : Nat → Nat
  workerLocalSchedule : Nat → Nat
  workerOverflow : Nat → Nat
  remoteSchedule : Nat
  budgetForcedYield : Nat
  /-- nanoseconds -/
  workerMeanPollTime : Nat → Nat
  workerNoop : Nat → Nat
  workerPark : Nat → Nat
  workerSteal : Nat → Nat
  workerStealOperations : Nat → Nat
  histogramEnabled : Bool
  histogramBuckets : Nat
  /-- `poll_count_histogram_bucket_range(bucket).end`, nanoseconds -/
  histogramEnd : Nat → Nat
  histogramCount : Nat → Nat → Nat
  workerPollCount : Nat → Nat
  /-- nanoseconds -/
  workerBusy : Nat → Nat
  fdRegistered : Nat
  fdDeregistered : Nat
  ioReady : Nat

/-- `RuntimeCollector`. tokio/src/lib.rs:99-102 -/
structure RtCollector where
  runtime : RtMetrics
  name : Option Bytes

/-- `RuntimeCollector::new`. tokio/src/lib.rs:106-111 -/
def RtCollector.new (rt : RtMetrics) : RtCollector := ⟨rt, none⟩

/-- `RuntimeCollector::with_name`. tokio/src/lib.rs:125-132 -/
def RtCollector.withName (c : RtCollector) (name : Bytes) : RtCollector := ⟨c.runtime, some name⟩

/-- `NamedRuntimesCollector::add` on the list behind the lock. tokio/src/lib.rs:58-63 -/
def addRuntime (rts : List RtCollector) (rt : RtMetrics) (name : Bytes) : List RtCollector :=
  rts ++ [(RtCollector.new rt).withName name]

/-- `RuntimeName::visit_values`. tokio/src/lib.rs:413-424 -/
def runtimeLabels : Option Bytes → Labels
  | some n => [(b!"runtime", .str n)]
  | none => []

/-- `Worker::visit_values`. tokio/src/lib.rs:372-380 -/
def workerLabels (w : Nat) : Labels := [(b!"worker", .int (asI64 w))]

/-- `Remote::visit_values`. tokio/src/lib.rs:382-390 -/
def remoteLabels : Labels := [(b!"worker", .str b!"remote")]

/-- `HistogramLabelLe::visit_values`. tokio/src/lib.rs:392-401 -/
def leLabels (le : F64) : Labels := [(b!"le", .float le)]

/-- `Overflow::visit_values`. tokio/src/lib.rs:426-433 -/
def overflowLabels (x : Bool) : Labels := [(b!"overflow", .str (if x then b!"true" else b!"false"))]

/-- `ThreadKind`, a derived `FixedCardinalityLabel` with `singleton = "kind"`. tokio/src/lib.rs:435-441 -/
inductive ThreadKind where
  | worker
  | idle
  | blocking

def ThreadKind.labels : ThreadKind → Labels
  | .worker => [(b!"kind", .str b!"worker")]
  | .idle => [(b!"kind", .str b!"idle")]
  | .blocking => [(b!"kind", .str b!"blocking")]

/-- tokio/src/lib.rs:443-447 -/
inductive QueueKind where
  | worker (i : Nat)
  | blocking
  | injection

/-- `QueueKind::visit` and `visit_values`. tokio/src/lib.rs:449-465 -/
def QueueKind.labels : QueueKind → Labels
  | .worker i => [(b!"kind", .str (decDigits i))]
  | .blocking => [(b!"kind", .str b!"blocking")]
  | .injection => [(b!"kind", .str b!"injection")]

/-- `histogram_le`. tokio/src/lib.rs:135-143 -/
def histogramLe (rt : RtMetrics) (bucket : Nat) : F64 :=
  if rt.histogramEnd bucket = W64 - 1 then F64.infinity else asSecsF64 (rt.histogramEnd bucket)

/-- `for x in l { f(x)?; }` -/
def forEach {E α : Type} (f : α → RS E Unit) : List α → RS E Unit
  | [] => pure ()
  | a :: as => do
    f a
    forEach f as

/-- `write_gauge!(labels, value)`; the labels are `ComposedGroup(rt_name, labels)`. tokio/src/lib.rs:171-183 -/
def rtGauge {E : Type} (enc : Encoder E) (name : Name) (c : RtCollector) (ls : Labels) (v : Int) : RS E Unit :=
  enc.sample (.gauge v) (runtimeLabels c.name ++ ls) name

/-- `write_counter!`. tokio/src/lib.rs:158-170, core/src/metric/counter.rs:104-117 -/
def rtCounter {E : Type} (enc : Encoder E) (name : Name) (c : RtCollector) (ls : Labels) (v : Nat) : RS E Unit :=
  enc.sample (.counter v) (runtimeLabels c.name ++ ls) name

/-- `write_float_gauge!`. tokio/src/lib.rs:184-196 -/
def rtFloat {E : Type} (enc : Encoder E) (name : Name) (c : RtCollector) (ls : Labels) (v : F64) : RS E Unit :=
  enc.sample (.floatGauge v) (runtimeLabels c.name ++ ls) name

/-- The macro `metric!`: HELP, then every runtime. tokio/src/lib.rs:151-202 -/
def rtMetric {E : Type} (enc : Encoder E) (rts : List RtCollector) (name help : Bytes)
    (body : Name → RtCollector → RS E Unit) : RS E Unit := do
  enc.help (.str name) help
  forEach (body (.str name)) rts

/-- `for worker in 0..rt.num_workers() { … }` -/
def forWorkers {E : Type} (c : RtCollector) (f : Nat → RS E Unit) : RS E Unit :=
  forEach f (List.range c.runtime.numWorkers)

/-- tokio/src/lib.rs:204-212 -/
def collectThreads {E : Type} (enc : Encoder E) (n : Name) (c : RtCollector) : RS E Unit := do
  rtGauge enc n c ThreadKind.worker.labels (asI64 c.runtime.numWorkers)
  rtGauge enc n c ThreadKind.blocking.labels
    (asI64 (c.runtime.numBlockingThreads - c.runtime.numIdleBlockingThreads))
  rtGauge enc n c ThreadKind.idle.labels (asI64 c.runtime.numIdleBlockingThreads)

/-- tokio/src/lib.rs:220-231 -/
def collectQueued {E : Type} (enc : Encoder E) (n : Name) (c : RtCollector) : RS E Unit := do
  rtGauge enc n c QueueKind.blocking.labels (asI64 c.runtime.blockingQueueDepth)
  rtGauge enc n c QueueKind.injection.labels (asI64 c.runtime.injectionQueueDepth)
  forWorkers c fun w => rtGauge enc n c (QueueKind.worker w).labels (asI64 (c.runtime.workerLocalQueueDepth w))

/-- tokio/src/lib.rs:237-246 -/
def collectScheduledWorker {E : Type} (enc : Encoder E) (n : Name) (c : RtCollector) (w : Nat) : RS E Unit := do
  rtCounter enc n c (workerLabels w ++ overflowLabels false) (c.runtime.workerLocalSchedule w)
  rtCounter enc n c (workerLabels w ++ overflowLabels true) (c.runtime.workerOverflow w)

/-- tokio/src/lib.rs:233-252 -/
def collectScheduled {E : Type} (enc : Encoder E) (n : Name) (c : RtCollector) : RS E Unit := do
  forWorkers c (collectScheduledWorker enc n c)
  rtCounter enc n c (remoteLabels ++ overflowLabels true) c.runtime.remoteSchedule

/-- The bucket loop. tokio/src/lib.rs:309-314 -/
def pollBuckets {E : Type} (m : Mode) (enc : Encoder E) (n : Name) (c : RtCollector) (w : Nat) :
    Nat → List Nat → RS E Unit
  | _, [] => pure ()
  | total, b :: bs => do
    let total ← RS.lift (addU m total (c.runtime.histogramCount w b))
    rtCounter enc (.suffix n .bucket) c (workerLabels w ++ leLabels (histogramLe c.runtime b)) total
    pollBuckets m enc n c w total bs

/-- tokio/src/lib.rs:306-315 -/
def pollHistogram {E : Type} (m : Mode) (enc : Encoder E) (n : Name) (c : RtCollector) (w : Nat) : RS E Unit :=
  if c.runtime.histogramEnabled then pollBuckets m enc n c w 0 (List.range c.runtime.histogramBuckets) else pure ()

/-- tokio/src/lib.rs:304-320 -/
def collectPollWorker {E : Type} (m : Mode) (enc : Encoder E) (n : Name) (c : RtCollector) (w : Nat) : RS E Unit := do
  pollHistogram m enc n c w
  rtCounter enc (.suffix n .count) c (workerLabels w) (c.runtime.workerPollCount w)
  rtFloat enc (.suffix n .sum) c (workerLabels w) (asSecsF64 (c.runtime.workerBusy w))

/-- The families of feature `net`. tokio/src/lib.rs:323-341 -/
def collectNet {E : Type} (enc : Encoder E) (rts : List RtCollector) : RS E Unit := do
  rtMetric enc rts b!"registered_fds_total"
    b!"total number of file descriptors that have been registered in the runtime"
    fun n c => rtCounter enc n c [] c.runtime.fdRegistered
  rtMetric enc rts b!"deregistered_fds_total"
    b!"total number of file descriptors that have been deregistered from the runtime"
    fun n c => rtCounter enc n c [] c.runtime.fdDeregistered
  rtMetric enc rts b!"io_ready_events_total"
    b!"total number of ready events the runtime's IO driver has processed"
    fun n c => rtCounter enc n c [] c.runtime.ioReady

/-- `#[cfg(feature = "net")]` -/
def collectNetIf {E : Type} (net : Bool) (enc : Encoder E) (rts : List RtCollector) : RS E Unit :=
  if net then collectNet enc rts else pure ()

/-- `collect`. tokio/src/lib.rs:145-345. `RuntimeCollector` passes a single runtime (lines 347-356),
`NamedRuntimesCollector` its list (lines 86-96). -/
def collectRuntimes {E : Type} (m : Mode) (net : Bool) (rts : List RtCollector) (enc : Encoder E) : RS E Unit := do
  rtMetric enc rts b!"threads" b!"number of threads used by the runtime" (collectThreads enc)
  rtMetric enc rts b!"active_tasks" b!"number of active tasks spawned in the runtime"
    fun n c => rtGauge enc n c [] (asI64 c.runtime.activeTasks)
  rtMetric enc rts b!"queued_tasks" b!"number of tasks currently in a queue" (collectQueued enc)
  rtMetric enc rts b!"scheduled_tasks_total" b!"total number of tasks scheduled into the runtime"
    (collectScheduled enc)
  rtMetric enc rts b!"budget_forced_yield_count" b!"number of tasks forced to yield after exhausting their budget"
    fun n c => rtCounter enc n c [] c.runtime.budgetForcedYield
  rtMetric enc rts b!"worker_mean_poll_time_seconds"
    b!"estimated weighted moving average of the poll time for this worker"
    fun n c => forWorkers c fun w => rtFloat enc n c (workerLabels w) (asSecsF64 (c.runtime.workerMeanPollTime w))
  rtMetric enc rts b!"worker_noop_count" b!"number of times the given worker thread woke up with no work"
    fun n c => forWorkers c fun w => rtCounter enc n c (workerLabels w) (c.runtime.workerNoop w)
  rtMetric enc rts b!"worker_park_count" b!"number of times the given worker thread has parked"
    fun n c => forWorkers c fun w => rtCounter enc n c (workerLabels w) (c.runtime.workerPark w)
  rtMetric enc rts b!"worker_steal_count" b!"number of tasks the given worker thread has stolen"
    fun n c => forWorkers c fun w => rtCounter enc n c (workerLabels w) (c.runtime.workerSteal w)
  rtMetric enc rts b!"worker_steal_operations_count"
    b!"number of times the given worker thread has attempted to steal tasks"
    fun n c => forWorkers c fun w => rtCounter enc n c (workerLabels w) (c.runtime.workerStealOperations w)
  rtMetric enc rts b!"worker_poll_time_seconds" b!"time this runtime thread has spent polling tasks"
    fun n c => forWorkers c (collectPollWorker m enc n c)
  collectNetIf net enc rts

end Measured
