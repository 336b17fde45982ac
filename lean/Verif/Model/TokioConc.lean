import Verif.Model.Atomic
import Verif.Model.Tokio

/-!
# A `NamedRuntimesCollector` used by many threads

`add`, `add_current` and `collect_group_into` behind the lock `RwLock<Vec<RuntimeCollector>>`
(tokio/src/lib.rs:44-96). This is the lock of the standard library, which is poisoned when a panic drops a write guard;
`unwrap` then panics on every later `read()` and `write()`.

In `self.runtimes.write().unwrap().push(RuntimeCollector::current().with_name(name))` the receiver is evaluated before
the argument, so `current()` runs, and panics outside a runtime, while the write guard is held.

Simplifications: a runtime handle is an element of `R`; what it answers during a scrape is a function that the scrape
gets at its start (see `RtMetrics`). `name.into()` does not panic and does not use the collector. The lock is not fair
in any particular way: it is given to some thread that wants it when nobody is in the way. When `unwrap` panics on a
poisoned lock the guard inside the error is dropped at once.
-/

namespace Measured.Conc

/-- The families of `collect`, in order, each as a function of the list it goes through.
tokio/src/lib.rs:145-345; the same code as `collectRuntimes`, cut between the families. -/
def familySteps {E : Type} (m : Mode) (net : Bool) (enc : Encoder E) : List (List RtCollector → RS E Unit) :=
  [fun rts => rtMetric enc rts b!"threads" b!"number of threads used by the runtime" (collectThreads enc),
   fun rts => rtMetric enc rts b!"active_tasks" b!"number of active tasks spawned in the runtime"
    fun n c => rtGauge enc n c [] (asI64 c.runtime.activeTasks),
   fun rts => rtMetric enc rts b!"queued_tasks" b!"number of tasks currently in a queue" (collectQueued enc),
   fun rts => rtMetric enc rts b!"scheduled_tasks_total" b!"total number of tasks scheduled into the runtime"
    (collectScheduled enc),
   fun rts => rtMetric enc rts b!"budget_forced_yield_count"
    b!"number of tasks forced to yield after exhausting their budget"
    fun n c => rtCounter enc n c [] c.runtime.budgetForcedYield,
   fun rts => rtMetric enc rts b!"worker_mean_poll_time_seconds"
    b!"estimated weighted moving average of the poll time for this worker"
    fun n c => forWorkers c fun w => rtFloat enc n c (workerLabels w) (asSecsF64 (c.runtime.workerMeanPollTime w)),
   fun rts => rtMetric enc rts b!"worker_noop_count" b!"number of times the given worker thread woke up with no work"
    fun n c => forWorkers c fun w => rtCounter enc n c (workerLabels w) (c.runtime.workerNoop w),
   fun rts => rtMetric enc rts b!"worker_park_count" b!"number of times the given worker thread has parked"
    fun n c => forWorkers c fun w => rtCounter enc n c (workerLabels w) (c.runtime.workerPark w),
   fun rts => rtMetric enc rts b!"worker_steal_count" b!"number of tasks the given worker thread has stolen"
    fun n c => forWorkers c fun w => rtCounter enc n c (workerLabels w) (c.runtime.workerSteal w),
   fun rts => rtMetric enc rts b!"worker_steal_operations_count"
    b!"number of times the given worker thread has attempted to steal tasks"
    fun n c => forWorkers c fun w => rtCounter enc n c (workerLabels w) (c.runtime.workerStealOperations w),
   fun rts => rtMetric enc rts b!"worker_poll_time_seconds" b!"time this runtime thread has spent polling tasks"
    fun n c => forWorkers c (collectPollWorker m enc n c),
   fun rts => collectNetIf net enc rts]

/-- Where a thread is. `R`: runtime handles, `E`: encoder states. -/
inductive RtPc (R E : Type) where
  | idle
  /-- in `add` or `add_current`, at `self.runtimes.write().unwrap()`; `none` if `current()` is going to panic -/
  | wantWrite (rt : Option R) (name : Bytes)
  /-- write guard held, the argument of `push` is evaluated -/
  | adding (rt : Option R) (name : Bytes)
  /-- write guard held, pushed -/
  | added
  /-- in `collect_group_into`, at `self.runtimes.read().unwrap()` -/
  | wantRead (answers : R → RtMetrics) (enc : E)
  /-- read guard held, before family `i` -/
  | collecting (answers : R → RtMetrics) (i : Nat) (enc : E)
  /-- read guard held, `collect` is over -/
  | collected (result : Out Unit) (enc : E)

def RtPc.holdsWrite {R E : Type} : RtPc R E → Bool
  | .adding .. | .added => true
  | _ => false

def RtPc.holdsRead {R E : Type} : RtPc R E → Bool
  | .collecting .. | .collected .. => true
  | _ => false

/-- The list behind the lock, the poison flag of the lock, the threads. -/
structure RtSys (R E : Type) where
  runtimes : List (R × Bytes)
  poisoned : Bool
  pc : Tid → RtPc R E

def RtSys.goto {R E : Type} (s : RtSys R E) (t : Tid) (p : RtPc R E) : RtSys R E :=
  { s with pc := Function.update s.pc t p }

inductive RtEvent (R E : Type) where
  | startAdd (t : Tid) (rt : Option R) (name : Bytes)
  /-- the runtime is in the list -/
  | pushed (t : Tid) (rt : R) (name : Bytes)
  | addDone (t : Tid)
  /-- `current()` has panicked -/
  | noRuntime (t : Tid)
  | startScrape (t : Tid) (answers : R → RtMetrics) (enc : E)
  | scraped (t : Tid) (result : Out Unit) (enc : E)
  /-- `unwrap` has panicked -/
  | lockPanic (t : Tid)
  | silent (t : Tid)

/-- The collectors that `collect` goes through. -/
def collectors {R : Type} (answers : R → RtMetrics) (rts : List (R × Bytes)) : List RtCollector :=
  rts.map fun r => (RtCollector.new (answers r.1)).withName r.2

/-- One step of one thread. -/
inductive RtStep {R E : Type} (m : Mode) (net : Bool) (encoder : Encoder E) :
    RtSys R E → RtEvent R E → RtSys R E → Prop where
  | startAdd (s : RtSys R E) (t : Tid) (rt : Option R) (name : Bytes) (h : s.pc t = .idle) :
    RtStep m net encoder s (.startAdd t rt name) (s.goto t (.wantWrite rt name))
  /-- tokio/src/lib.rs:59-61, 74-76 -/
  | lockWrite (s : RtSys R E) (t : Tid) (rt : Option R) (name : Bytes) (h : s.pc t = .wantWrite rt name)
      (hl : ∀ u, (s.pc u).holdsWrite = false ∧ (s.pc u).holdsRead = false) (hp : s.poisoned = false) :
    RtStep m net encoder s (.silent t) (s.goto t (.adding rt name))
  | lockWritePanic (s : RtSys R E) (t : Tid) (rt : Option R) (name : Bytes) (h : s.pc t = .wantWrite rt name)
      (hl : ∀ u, (s.pc u).holdsWrite = false ∧ (s.pc u).holdsRead = false) (hp : s.poisoned = true) :
    RtStep m net encoder s (.lockPanic t) (s.goto t .idle)
  /-- `Handle::current()` panics; unwinding drops the write guard. tokio/src/lib.rs:77, 121-123 -/
  | noRuntime (s : RtSys R E) (t : Tid) (name : Bytes) (h : s.pc t = .adding none name) :
    RtStep m net encoder s (.noRuntime t) { s.goto t .idle with poisoned := true }
  /-- tokio/src/lib.rs:62, 77 -/
  | push (s : RtSys R E) (t : Tid) (rt : R) (name : Bytes) (h : s.pc t = .adding (some rt) name) :
    RtStep m net encoder s (.pushed t rt name) { s.goto t .added with runtimes := s.runtimes ++ [(rt, name)] }
  | unlockWrite (s : RtSys R E) (t : Tid) (h : s.pc t = .added) :
    RtStep m net encoder s (.addDone t) (s.goto t .idle)
  | startScrape (s : RtSys R E) (t : Tid) (answers : R → RtMetrics) (e : E) (h : s.pc t = .idle) :
    RtStep m net encoder s (.startScrape t answers e) (s.goto t (.wantRead answers e))
  /-- tokio/src/lib.rs:94 -/
  | lockRead (s : RtSys R E) (t : Tid) (answers : R → RtMetrics) (e : E) (h : s.pc t = .wantRead answers e)
      (hl : ∀ u, (s.pc u).holdsWrite = false) (hp : s.poisoned = false) :
    RtStep m net encoder s (.silent t) (s.goto t (.collecting answers 0 e))
  | lockReadPanic (s : RtSys R E) (t : Tid) (answers : R → RtMetrics) (e : E) (h : s.pc t = .wantRead answers e)
      (hl : ∀ u, (s.pc u).holdsWrite = false) (hp : s.poisoned = true) :
    RtStep m net encoder s (.lockPanic t) (s.goto t .idle)
  /-- one family goes well -/
  | family (s : RtSys R E) (t : Tid) (answers : R → RtMetrics) (i : Nat) (e : E)
      (f : List RtCollector → RS E Unit) (h : s.pc t = .collecting answers i e)
      (hf : (familySteps m net encoder)[i]? = some f) (e' : E)
      (hr : f (collectors answers s.runtimes) e = (.ok (), e')) :
    RtStep m net encoder s (.silent t) (s.goto t (.collecting answers (i + 1) e'))
  /-- one family fails (`?`) or panics; a read guard does not poison the lock -/
  | familyFails (s : RtSys R E) (t : Tid) (answers : R → RtMetrics) (i : Nat) (e : E)
      (f : List RtCollector → RS E Unit) (h : s.pc t = .collecting answers i e)
      (hf : (familySteps m net encoder)[i]? = some f) (r : Out Unit) (e' : E)
      (hr : f (collectors answers s.runtimes) e = (r, e')) (hne : r ≠ .ok ()) :
    RtStep m net encoder s (.silent t) (s.goto t (.collected r e'))
  | lastFamily (s : RtSys R E) (t : Tid) (answers : R → RtMetrics) (i : Nat) (e : E)
      (h : s.pc t = .collecting answers i e) (hf : (familySteps m net encoder)[i]? = none) :
    RtStep m net encoder s (.silent t) (s.goto t (.collected (.ok ()) e))
  | unlockRead (s : RtSys R E) (t : Tid) (r : Out Unit) (e : E) (h : s.pc t = .collected r e) :
    RtStep m net encoder s (.scraped t r e) (s.goto t .idle)

/-- `NamedRuntimesCollector::new`. tokio/src/lib.rs:51-55 -/
def RtSys.new {R E : Type} : RtSys R E := ⟨[], false, fun _ => .idle⟩

end Measured.Conc
