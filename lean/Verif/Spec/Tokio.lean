import Verif.Model.Tokio

/-!
# Specification: what a scrape of tokio runtimes should show

A table of families; every family shows every runtime. Values are plain numbers (no machine integers); bucket counts
are sums over all buckets up to and including the one shown. `secs` turns nanoseconds into seconds.
-/

namespace Measured.Spec

/-- One sample of a runtime, with its labels besides the one that names the runtime. -/
structure RtSample where
  name : Name
  labels : Labels
  value : Metric

structure RtFamily where
  name : Bytes
  help : Bytes
  samples : RtMetrics → List RtSample

def kindLabel (k : Bytes) : Labels := [(b!"kind", .str k)]
def workerLabel (w : Nat) : Labels := [(b!"worker", .int w)]

def perWorker (f : Nat → List RtSample) (rt : RtMetrics) : List RtSample :=
  (List.range rt.numWorkers).flatMap f

/-- The polls of worker `w` that took at most as long as bucket `b` allows. -/
def pollsUpTo (rt : RtMetrics) (w b : Nat) : Nat := ((List.range (b + 1)).map (rt.histogramCount w)).sum

/-- The upper bound of a bucket. The last bucket of tokio ends at `u64::MAX` nanoseconds, meaning "no bound". -/
def upperBound (secs : Nat → F64) (rt : RtMetrics) (b : Nat) : F64 :=
  if rt.histogramEnd b = 2 ^ 64 - 1 then F64.inf false else secs (rt.histogramEnd b)

/-- The bucket samples of a worker. -/
def pollBucketSamples (secs : Nat → F64) (rt : RtMetrics) (w : Nat) : List RtSample :=
  if rt.histogramEnabled then
    (List.range rt.histogramBuckets).map fun b =>
      ⟨.suffix (.str b!"worker_poll_time_seconds") .bucket,
        workerLabel w ++ [(b!"le", .float (upperBound secs rt b))], .counter (pollsUpTo rt w b)⟩
  else []

/-- Families about queues, threads and tasks. -/
def taskFamilies : List RtFamily := [
  ⟨b!"threads", b!"number of threads used by the runtime", fun rt => [
    ⟨.str b!"threads", kindLabel b!"worker", .gauge rt.numWorkers⟩,
    ⟨.str b!"threads", kindLabel b!"blocking", .gauge ((rt.numBlockingThreads - rt.numIdleBlockingThreads : Nat) : Int)⟩,
    ⟨.str b!"threads", kindLabel b!"idle", .gauge rt.numIdleBlockingThreads⟩]⟩,
  ⟨b!"active_tasks", b!"number of active tasks spawned in the runtime", fun rt => [
    ⟨.str b!"active_tasks", [], .gauge rt.activeTasks⟩]⟩,
  ⟨b!"queued_tasks", b!"number of tasks currently in a queue", fun rt => [
    ⟨.str b!"queued_tasks", kindLabel b!"blocking", .gauge rt.blockingQueueDepth⟩,
    ⟨.str b!"queued_tasks", kindLabel b!"injection", .gauge rt.injectionQueueDepth⟩] ++
    perWorker (fun w => [⟨.str b!"queued_tasks", kindLabel (decDigits w), .gauge (rt.workerLocalQueueDepth w)⟩]) rt⟩,
  ⟨b!"scheduled_tasks_total", b!"total number of tasks scheduled into the runtime", fun rt =>
    perWorker (fun w => [
      ⟨.str b!"scheduled_tasks_total", workerLabel w ++ [(b!"overflow", .str b!"false")],
        .counter (rt.workerLocalSchedule w)⟩,
      ⟨.str b!"scheduled_tasks_total", workerLabel w ++ [(b!"overflow", .str b!"true")],
        .counter (rt.workerOverflow w)⟩]) rt ++
    [⟨.str b!"scheduled_tasks_total", [(b!"worker", .str b!"remote"), (b!"overflow", .str b!"true")],
        .counter rt.remoteSchedule⟩]⟩,
  ⟨b!"budget_forced_yield_count", b!"number of tasks forced to yield after exhausting their budget", fun rt => [
    ⟨.str b!"budget_forced_yield_count", [], .counter rt.budgetForcedYield⟩]⟩]

/-- Families about workers. -/
def workerFamilies (secs : Nat → F64) : List RtFamily := [
  ⟨b!"worker_mean_poll_time_seconds", b!"estimated weighted moving average of the poll time for this worker", fun rt =>
    perWorker (fun w => [⟨.str b!"worker_mean_poll_time_seconds", workerLabel w,
      .floatGauge (secs (rt.workerMeanPollTime w))⟩]) rt⟩,
  ⟨b!"worker_noop_count", b!"number of times the given worker thread woke up with no work", fun rt =>
    perWorker (fun w => [⟨.str b!"worker_noop_count", workerLabel w, .counter (rt.workerNoop w)⟩]) rt⟩,
  ⟨b!"worker_park_count", b!"number of times the given worker thread has parked", fun rt =>
    perWorker (fun w => [⟨.str b!"worker_park_count", workerLabel w, .counter (rt.workerPark w)⟩]) rt⟩,
  ⟨b!"worker_steal_count", b!"number of tasks the given worker thread has stolen", fun rt =>
    perWorker (fun w => [⟨.str b!"worker_steal_count", workerLabel w, .counter (rt.workerSteal w)⟩]) rt⟩,
  ⟨b!"worker_steal_operations_count", b!"number of times the given worker thread has attempted to steal tasks", fun rt =>
    perWorker (fun w => [⟨.str b!"worker_steal_operations_count", workerLabel w,
      .counter (rt.workerStealOperations w)⟩]) rt⟩,
  ⟨b!"worker_poll_time_seconds", b!"time this runtime thread has spent polling tasks", fun rt =>
    perWorker (fun w => pollBucketSamples secs rt w ++ [
      ⟨.suffix (.str b!"worker_poll_time_seconds") .count, workerLabel w, .counter (rt.workerPollCount w)⟩,
      ⟨.suffix (.str b!"worker_poll_time_seconds") .sum, workerLabel w, .floatGauge (secs (rt.workerBusy w))⟩]) rt⟩]

/-- Families of the I/O driver. -/
def netFamilies : List RtFamily := [
  ⟨b!"registered_fds_total", b!"total number of file descriptors that have been registered in the runtime", fun rt => [
    ⟨.str b!"registered_fds_total", [], .counter rt.fdRegistered⟩]⟩,
  ⟨b!"deregistered_fds_total", b!"total number of file descriptors that have been deregistered from the runtime", fun rt => [
    ⟨.str b!"deregistered_fds_total", [], .counter rt.fdDeregistered⟩]⟩,
  ⟨b!"io_ready_events_total", b!"total number of ready events the runtime's IO driver has processed", fun rt => [
    ⟨.str b!"io_ready_events_total", [], .counter rt.ioReady⟩]⟩]

def rtFamilies (secs : Nat → F64) (net : Bool) : List RtFamily :=
  taskFamilies ++ workerFamilies secs ++ if net then netFamilies else []

/-- The label that names a runtime. -/
def runtimeLabel : Option Bytes → Labels
  | some n => [(b!"runtime", .str n)]
  | none => []

/-- The encoder calls of a family: HELP, then the samples of every runtime under its own name. -/
def RtFamily.calls (rts : List RtCollector) (f : RtFamily) : List EncCall :=
  .help (.str f.name) f.help ::
    rts.flatMap fun c => (f.samples c.runtime).map fun s => .sample s.value (runtimeLabel c.name ++ s.labels) s.name

def rtCalls (secs : Nat → F64) (net : Bool) (rts : List RtCollector) : List EncCall :=
  (rtFamilies secs net).flatMap (RtFamily.calls rts)

/-- No number of a runtime exceeds an `i64`. -/
structure RtOk (rt : RtMetrics) : Prop where
  workers : rt.numWorkers < 2 ^ 63
  blocking : rt.numBlockingThreads < 2 ^ 63
  idle : rt.numIdleBlockingThreads < 2 ^ 63
  active : rt.activeTasks < 2 ^ 63
  blockingQueue : rt.blockingQueueDepth < 2 ^ 63
  injectionQueue : rt.injectionQueueDepth < 2 ^ 63
  localQueue : ∀ w, w < rt.numWorkers → rt.workerLocalQueueDepth w < 2 ^ 63
  localSchedule : ∀ w, w < rt.numWorkers → rt.workerLocalSchedule w < 2 ^ 63
  overflow : ∀ w, w < rt.numWorkers → rt.workerOverflow w < 2 ^ 63
  remote : rt.remoteSchedule < 2 ^ 63
  yields : rt.budgetForcedYield < 2 ^ 63
  noop : ∀ w, w < rt.numWorkers → rt.workerNoop w < 2 ^ 63
  park : ∀ w, w < rt.numWorkers → rt.workerPark w < 2 ^ 63
  steal : ∀ w, w < rt.numWorkers → rt.workerSteal w < 2 ^ 63
  stealOps : ∀ w, w < rt.numWorkers → rt.workerStealOperations w < 2 ^ 63
  polls : ∀ w b, w < rt.numWorkers → b < rt.histogramBuckets → pollsUpTo rt w b < 2 ^ 63
  pollCount : ∀ w, w < rt.numWorkers → rt.workerPollCount w < 2 ^ 63
  registered : rt.fdRegistered < 2 ^ 63
  deregistered : rt.fdDeregistered < 2 ^ 63
  ready : rt.ioReady < 2 ^ 63

end Measured.Spec
