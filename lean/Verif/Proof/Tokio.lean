import Verif.Proof.RunAll
import Verif.Proof.TextFamily
import Verif.Spec.Tokio

/-! The runtime collector makes the calls of the table. -/

namespace Measured
open Spec

/-- Calls for samples of one runtime. -/
def sampleCalls (c : RtCollector) (ss : List RtSample) : List EncCall :=
  ss.map fun s => .sample s.value (runtimeLabel c.name ++ s.labels) s.name

theorem sampleCalls_append (c : RtCollector) (a b : List RtSample) :
    sampleCalls c (a ++ b) = sampleCalls c a ++ sampleCalls c b := List.map_append

theorem runtimeLabels_eq : ∀ n, runtimeLabels n = runtimeLabel n
  | some _ => rfl
  | none => rfl

theorem forEach_runAll {E α : Type} (enc : Encoder E) (f : α → RS E Unit) (g : α → List EncCall) (l : List α)
    (h : ∀ a ∈ l, f a = enc.runAll (g a)) : forEach f l = enc.runAll (l.flatMap g) := by
  induction l with
  | nil => rfl
  | cons a as ih =>
    simp only [forEach, List.flatMap_cons]
    rw [Encoder.runAll_add, h a (by simp), ih fun x hx => h x (by simp [hx])]

theorem rtGauge_run {E : Type} (enc : Encoder E) (n : Name) (c : RtCollector) (ls : Labels) (v : Int) :
    rtGauge enc n c ls v = enc.runAll (sampleCalls c [⟨n, ls, .gauge v⟩]) := by
  rw [sampleCalls, List.map_singleton, Encoder.runAll_one, ← runtimeLabels_eq]; rfl

theorem rtCounter_run {E : Type} (enc : Encoder E) (n : Name) (c : RtCollector) (ls : Labels) (v : Nat) :
    rtCounter enc n c ls v = enc.runAll (sampleCalls c [⟨n, ls, .counter v⟩]) := by
  rw [sampleCalls, List.map_singleton, Encoder.runAll_one, ← runtimeLabels_eq]; rfl

theorem rtFloat_run {E : Type} (enc : Encoder E) (n : Name) (c : RtCollector) (ls : Labels) (v : F64) :
    rtFloat enc n c ls v = enc.runAll (sampleCalls c [⟨n, ls, .floatGauge v⟩]) := by
  rw [sampleCalls, List.map_singleton, Encoder.runAll_one, ← runtimeLabels_eq]; rfl

theorem rtMetric_run {E : Type} (enc : Encoder E) (rts : List RtCollector) (f : RtFamily)
    (body : Name → RtCollector → RS E Unit)
    (h : ∀ c ∈ rts, body (.str f.name) c = enc.runAll (sampleCalls c (f.samples c.runtime))) :
    rtMetric enc rts f.name f.help body = enc.runAll (f.calls rts) := by
  unfold rtMetric RtFamily.calls
  rw [forEach_runAll enc _ _ rts h]
  rfl

theorem forWorkers_run {E : Type} (enc : Encoder E) (c : RtCollector) (f : Nat → RS E Unit) (g : Nat → List RtSample)
    (h : ∀ w, w < c.runtime.numWorkers → f w = enc.runAll (sampleCalls c (g w))) :
    forWorkers c f = enc.runAll (sampleCalls c (perWorker g c.runtime)) := by
  unfold forWorkers
  rw [forEach_runAll enc f (fun w => sampleCalls c (g w)) _ fun w hw => h w (List.mem_range.1 hw)]
  unfold perWorker sampleCalls
  rw [List.map_flatMap]

theorem workerLabels_eq {w n : Nat} (h : w < n) (hn : n < 2 ^ 63) : workerLabels w = workerLabel w := by
  unfold workerLabels workerLabel
  rw [asI64_small (by omega)]

theorem threads_run {E : Type} (enc : Encoder E) (n : Name) (c : RtCollector) (h : RtOk c.runtime) :
    collectThreads enc n c = enc.runAll (sampleCalls c [
      ⟨n, kindLabel b!"worker", .gauge c.runtime.numWorkers⟩,
      ⟨n, kindLabel b!"blocking",
        .gauge ((c.runtime.numBlockingThreads - c.runtime.numIdleBlockingThreads : Nat) : Int)⟩,
      ⟨n, kindLabel b!"idle", .gauge c.runtime.numIdleBlockingThreads⟩]) := by
  unfold collectThreads
  have h1 := h.blocking
  rw [asI64_small h.workers, asI64_small h.idle,
    asI64_small (show c.runtime.numBlockingThreads - c.runtime.numIdleBlockingThreads < 2 ^ 63 by omega)]
  simp only [rtGauge_run, ← Encoder.runAll_add, ← sampleCalls_append]
  rfl

theorem queued_run {E : Type} (enc : Encoder E) (n : Name) (c : RtCollector) (h : RtOk c.runtime) :
    collectQueued enc n c = enc.runAll (sampleCalls c ([
      ⟨n, kindLabel b!"blocking", .gauge c.runtime.blockingQueueDepth⟩,
      ⟨n, kindLabel b!"injection", .gauge c.runtime.injectionQueueDepth⟩] ++
      perWorker (fun w => [⟨n, kindLabel (decDigits w), .gauge (c.runtime.workerLocalQueueDepth w)⟩]) c.runtime)) := by
  unfold collectQueued
  rw [asI64_small h.blockingQueue, asI64_small h.injectionQueue,
    forWorkers_run enc c _ (fun w => [⟨n, kindLabel (decDigits w), .gauge (c.runtime.workerLocalQueueDepth w)⟩])]
  · simp only [rtGauge_run, ← Encoder.runAll_add, ← sampleCalls_append]
    rfl
  · intro w hw
    rw [asI64_small (h.localQueue w hw), rtGauge_run]
    rfl

theorem scheduled_run {E : Type} (enc : Encoder E) (n : Name) (c : RtCollector) (h : RtOk c.runtime) :
    collectScheduled enc n c = enc.runAll (sampleCalls c (
      perWorker (fun w => [
        ⟨n, workerLabel w ++ [(b!"overflow", .str b!"false")], .counter (c.runtime.workerLocalSchedule w)⟩,
        ⟨n, workerLabel w ++ [(b!"overflow", .str b!"true")], .counter (c.runtime.workerOverflow w)⟩]) c.runtime ++
      [⟨n, [(b!"worker", .str b!"remote"), (b!"overflow", .str b!"true")], .counter c.runtime.remoteSchedule⟩])) := by
  unfold collectScheduled
  rw [forWorkers_run enc c _ (fun w => [
        ⟨n, workerLabel w ++ [(b!"overflow", .str b!"false")], .counter (c.runtime.workerLocalSchedule w)⟩,
        ⟨n, workerLabel w ++ [(b!"overflow", .str b!"true")], .counter (c.runtime.workerOverflow w)⟩])]
  · simp only [rtCounter_run, ← Encoder.runAll_add, ← sampleCalls_append]
    rfl
  · intro w hw
    unfold collectScheduledWorker
    rw [workerLabels_eq hw h.workers]
    simp only [rtCounter_run, ← Encoder.runAll_add, ← sampleCalls_append]
    rfl

theorem worker_counter_run {E : Type} (enc : Encoder E) (n : Name) (c : RtCollector) (h : RtOk c.runtime)
    (v : Nat → Nat) :
    (forWorkers c fun w => rtCounter enc n c (workerLabels w) (v w)) =
      enc.runAll (sampleCalls c (perWorker (fun w => [⟨n, workerLabel w, .counter (v w)⟩]) c.runtime)) := by
  apply forWorkers_run
  intro w hw
  rw [workerLabels_eq hw h.workers, rtCounter_run]

theorem worker_float_run {E : Type} (enc : Encoder E) (n : Name) (c : RtCollector) (h : RtOk c.runtime)
    (v : Nat → F64) :
    (forWorkers c fun w => rtFloat enc n c (workerLabels w) (v w)) =
      enc.runAll (sampleCalls c (perWorker (fun w => [⟨n, workerLabel w, .floatGauge (v w)⟩]) c.runtime)) := by
  apply forWorkers_run
  intro w hw
  rw [workerLabels_eq hw h.workers, rtFloat_run]

/-! ## The poll time histogram -/

theorem histogramLe_eq (rt : RtMetrics) (b : Nat) : histogramLe rt b = upperBound asSecsF64 rt b := by
  unfold histogramLe upperBound F64.infinity
  rw [W64_eq]

theorem pollsUpTo_succ (rt : RtMetrics) (w b : Nat) :
    pollsUpTo rt w (b + 1) = pollsUpTo rt w b + rt.histogramCount w (b + 1) := by
  unfold pollsUpTo
  rw [List.range_succ (n := b + 1), List.map_append, List.sum_append]
  simp

theorem pollsUpTo_mono (rt : RtMetrics) (w : Nat) {a b : Nat} (h : a ≤ b) : pollsUpTo rt w a ≤ pollsUpTo rt w b := by
  induction b with
  | zero => have : a = 0 := by omega
            subst this; exact Nat.le_refl _
  | succ b ih =>
    by_cases hab : a = b + 1
    · subst hab; exact Nat.le_refl _
    · rw [pollsUpTo_succ]
      have := ih (by omega)
      omega

/-- What the loop has added up before bucket `b`. -/
def pollsBefore (rt : RtMetrics) (w : Nat) : Nat → Nat
  | 0 => 0
  | b + 1 => pollsUpTo rt w b

theorem pollsBefore_add (rt : RtMetrics) (w b : Nat) :
    pollsBefore rt w b + rt.histogramCount w b = pollsUpTo rt w b := by
  cases b with
  | zero => simp [pollsBefore, pollsUpTo]
  | succ b => rw [pollsUpTo_succ]; rfl

theorem pollBuckets_run {E : Type} (m : Mode) (enc : Encoder E) (n : Name) (c : RtCollector) (w : Nat) (k : Nat)
    (hs : ∀ b, b < c.runtime.histogramBuckets → pollsUpTo c.runtime w b < W64) (start : Nat)
    (hk : start + k = c.runtime.histogramBuckets) :
    pollBuckets m enc n c w (pollsBefore c.runtime w start) (List.range' start k) =
      enc.runAll (sampleCalls c ((List.range' start k).map fun b =>
        ⟨.suffix n .bucket, workerLabels w ++ [(b!"le", .float (upperBound asSecsF64 c.runtime b))],
          .counter (pollsUpTo c.runtime w b)⟩)) := by
  induction k generalizing start with
  | zero => rfl
  | succ k ih =>
    have hc : ∀ (s : RtSample) (l : List RtSample),
        enc.runAll (sampleCalls c (s :: l)) = (enc.runAll (sampleCalls c [s]) >>= fun _ => enc.runAll (sampleCalls c l)) := by
      intro s l
      rw [← List.singleton_append, sampleCalls_append, Encoder.runAll_add]
    rw [List.range'_succ, List.map_cons, hc]
    simp only [pollBuckets]
    rw [show addU m (pollsBefore c.runtime w start) (c.runtime.histogramCount w start) =
      .ok (pollsUpTo c.runtime w start) by
        unfold addU; rw [pollsBefore_add, if_pos (hs start (by omega))]]
    have := ih (start + 1) (by omega)
    simp only [pollsBefore] at this
    have hl : ∀ f : Nat → RS E Unit, (RS.lift (.ok (pollsUpTo c.runtime w start)) >>= f) = f (pollsUpTo c.runtime w start) :=
      fun _ => rfl
    rw [hl, this, rtCounter_run, histogramLe_eq]
    rfl

theorem pollHistogram_run {E : Type} (m : Mode) (enc : Encoder E) (c : RtCollector) (w : Nat) (h : RtOk c.runtime)
    (hw : w < c.runtime.numWorkers) :
    pollHistogram m enc (.str b!"worker_poll_time_seconds") c w =
      enc.runAll (sampleCalls c (pollBucketSamples asSecsF64 c.runtime w)) := by
  unfold pollHistogram pollBucketSamples
  split
  · have := pollBuckets_run m enc (.str b!"worker_poll_time_seconds") c w c.runtime.histogramBuckets
      (fun b hb => Nat.lt_trans (h.polls w b hw hb) (by decide)) 0 (by omega)
    rw [workerLabels_eq hw h.workers] at this
    rw [List.range_eq_range']
    exact this
  · rfl

theorem poll_run {E : Type} (m : Mode) (enc : Encoder E) (c : RtCollector) (h : RtOk c.runtime) :
    forWorkers c (collectPollWorker m enc (.str b!"worker_poll_time_seconds") c) =
      enc.runAll (sampleCalls c (perWorker (fun w => pollBucketSamples asSecsF64 c.runtime w ++ [
        ⟨.suffix (.str b!"worker_poll_time_seconds") .count, workerLabel w, .counter (c.runtime.workerPollCount w)⟩,
        ⟨.suffix (.str b!"worker_poll_time_seconds") .sum, workerLabel w,
          .floatGauge (asSecsF64 (c.runtime.workerBusy w))⟩]) c.runtime)) := by
  apply forWorkers_run
  intro w hw
  unfold collectPollWorker
  rw [pollHistogram_run m enc c w h hw, workerLabels_eq hw h.workers]
  simp only [rtCounter_run, rtFloat_run, ← Encoder.runAll_add, ← sampleCalls_append]
  rfl

/-! ## All families -/

theorem collectNet_run {E : Type} (net : Bool) (enc : Encoder E) (rts : List RtCollector) :
    collectNetIf net enc rts = enc.runAll ((if net then netFamilies else []).flatMap (RtFamily.calls rts)) := by
  unfold collectNetIf
  cases net with
  | false => rfl
  | true =>
    simp only [if_true]
    unfold collectNet netFamilies
    simp only [List.flatMap_cons, List.flatMap_nil, List.append_nil]
    rw [Encoder.runAll_add, Encoder.runAll_add,
      ← rtMetric_run enc rts _ (fun n c => rtCounter enc n c [] c.runtime.fdRegistered) (fun c _ => rtCounter_run ..),
      ← rtMetric_run enc rts _ (fun n c => rtCounter enc n c [] c.runtime.fdDeregistered) (fun c _ => rtCounter_run ..),
      ← rtMetric_run enc rts _ (fun n c => rtCounter enc n c [] c.runtime.ioReady) (fun c _ => rtCounter_run ..)]

theorem collectRuntimes_run {E : Type} (m : Mode) (net : Bool) (rts : List RtCollector) (enc : Encoder E)
    (h : ∀ c ∈ rts, RtOk c.runtime) :
    collectRuntimes m net rts enc = enc.runAll (rtCalls asSecsF64 net rts) := by
  unfold collectRuntimes rtCalls rtFamilies
  rw [List.flatMap_append, Encoder.runAll_add, ← collectNet_run]
  unfold taskFamilies workerFamilies
  simp only [List.cons_append, List.nil_append, List.flatMap_cons, List.flatMap_nil, List.append_nil]
  simp only [Encoder.runAll_add, RS.bind_assoc']
  rw [← rtMetric_run enc rts _ (collectThreads enc) (fun c hc => threads_run _ _ _ (h c hc)),
    ← rtMetric_run enc rts _ (fun n c => rtGauge enc n c [] (asI64 c.runtime.activeTasks))
      (fun c hc => by rw [asI64_small (h c hc).active, rtGauge_run]),
    ← rtMetric_run enc rts _ (collectQueued enc) (fun c hc => queued_run _ _ _ (h c hc)),
    ← rtMetric_run enc rts _ (collectScheduled enc) (fun c hc => scheduled_run _ _ _ (h c hc)),
    ← rtMetric_run enc rts _ (fun n c => rtCounter enc n c [] c.runtime.budgetForcedYield) (fun c _ => rtCounter_run ..),
    ← rtMetric_run enc rts _ (fun n c => forWorkers c fun w => rtFloat enc n c (workerLabels w)
        (asSecsF64 (c.runtime.workerMeanPollTime w))) (fun c hc => worker_float_run _ _ _ (h c hc) _),
    ← rtMetric_run enc rts _ (fun n c => forWorkers c fun w => rtCounter enc n c (workerLabels w)
        (c.runtime.workerNoop w)) (fun c hc => worker_counter_run _ _ _ (h c hc) _),
    ← rtMetric_run enc rts _ (fun n c => forWorkers c fun w => rtCounter enc n c (workerLabels w)
        (c.runtime.workerPark w)) (fun c hc => worker_counter_run _ _ _ (h c hc) _),
    ← rtMetric_run enc rts _ (fun n c => forWorkers c fun w => rtCounter enc n c (workerLabels w)
        (c.runtime.workerSteal w)) (fun c hc => worker_counter_run _ _ _ (h c hc) _),
    ← rtMetric_run enc rts _ (fun n c => forWorkers c fun w => rtCounter enc n c (workerLabels w)
        (c.runtime.workerStealOperations w)) (fun c hc => worker_counter_run _ _ _ (h c hc) _),
    ← rtMetric_run enc rts _ (fun n c => forWorkers c (collectPollWorker m enc n c))
      (fun c hc => poll_run m enc c (h c hc))]

end Measured
