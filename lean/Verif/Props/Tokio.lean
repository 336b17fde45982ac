import Verif.Proof.Tokio
import Verif.Proof.Duration
import Verif.Props.Calls

/-! # Properties of the tokio runtime collectors (C48) and of durations as seconds (C51) -/

set_option exponentiation.threshold 3000

namespace Measured
open Measured.Spec F64

/-! ## C51: durations as seconds -/

/-- `x` is `nanos` nanoseconds in seconds, up to a relative error of `2^-51`. -/
def Spec.SecondsOf (nanos : Nat) (x : F64) : Prop :=
  x.isFinite = true ∧ 2 ^ 51 * |x.val * 10 ^ 9 - (nanos : Int) * 2 ^ 1074| ≤ (nanos : Int) * 2 ^ 1074

theorem abs_bound {a b : Nat} (h1 : 2 ^ 51 * a ≤ 2 ^ 51 * b + b) (h2 : 2 ^ 51 * b ≤ 2 ^ 51 * a + b) :
    2 ^ 51 * |(a : Int) - (b : Int)| ≤ (b : Int) := by
  rcases abs_cases ((a : Int) - b) with ⟨ha, _⟩ | ⟨ha, _⟩ <;> rw [ha] <;> omega

/-- Every `Duration` becomes a number of seconds with relative error at most `2^-51`. -/
theorem C51_accurate (d : Nat) (h : d / 10 ^ 9 < 2 ^ 64) : SecondsOf d (asSecsF64 d) := by
  obtain ⟨v, hf, hv, h1, h2⟩ := asSecsF64_err (d := d) (by simpa using h)
  refine ⟨hf, ?_⟩
  rw [hv]
  have e : (v : Int) * 10 ^ 9 - d * 2 ^ 1074 = ((v * 1000000000 : Nat) : Int) - ((d * 2 ^ 1074 : Nat) : Int) := by
    rw [Int.natCast_mul, Int.natCast_mul, Int.natCast_pow]; rfl
  have e' : (d : Int) * 2 ^ 1074 = ((d * 2 ^ 1074 : Nat) : Int) := by
    rw [Int.natCast_mul, Int.natCast_pow]; rfl
  rw [e, e']
  exact abs_bound h1 h2

/-- Longer durations never become fewer seconds. -/
theorem C51_monotone {d d' : Nat} (h : d ≤ d') (hd : d' / 10 ^ 9 < 2 ^ 64) : fle (asSecsF64 d) (asSecsF64 d') = true :=
  asSecsF64_mono h (by simpa using hd)

/-- Below 13 days, different durations become different numbers of seconds. -/
theorem C51_strict {d d' : Nat} (h : d < d') (hd : d' ≤ 2 ^ 50) : flt (asSecsF64 d) (asSecsF64 d') = true :=
  asSecsF64_strict h hd

/-- So do durations of any length that differ by at least one part in `2^49`. -/
theorem C51_gap {d d' : Nat} (h : d < d') (hg : d' ≤ 2 ^ 49 * (d' - d)) (hd : d' / 10 ^ 9 < 2 ^ 64) :
    flt (asSecsF64 d) (asSecsF64 d') = true :=
  asSecsF64_gap h hg (by simpa using hd)

example : asSecsF64 1500000000 = ⟨0x3ff8000000000000, by decide⟩ := by decide +kernel
/-- Beyond, they may become equal. -/
example : asSecsF64 (2 ^ 63) = asSecsF64 (2 ^ 63 + 1) := by decide +kernel

/-! ## C48 -/

/-- Whatever the encoder, a pass makes exactly the calls of the table, family by family and runtime by runtime; the
bucket counts are cumulative. -/
theorem C48_calls {E : Type} (m : Mode) (net : Bool) (rts : List RtCollector) (enc : Encoder E)
    (h : ∀ c ∈ rts, RtOk c.runtime) (s : E) :
    collectRuntimes m net rts enc s = enc.runAll (rtCalls asSecsF64 net rts) s := by
  rw [collectRuntimes_run m net rts enc h]

/-- What every sample of the table satisfies. -/
def SampleOk (s : RtSample) : Prop :=
  MetricNameRe s.name.render ∧ LabelsOk s.labels ∧ Fits s.value ∧ ∀ l ∈ s.labels, l.1 ≠ b!"runtime"

theorem sampleOk_of {n : Name} {ls : Labels} {x : Metric} (hn : isSnake n.render = true)
    (hl : ∀ l ∈ ls, isSnake l.1 = true ∧ l.1 ≠ b!"runtime") (hx : Fits x) : SampleOk ⟨n, ls, x⟩ :=
  ⟨snake_metric hn, fun l h => snake_label (hl l h).1, hx, fun l h => (hl l h).2⟩

theorem labels_nil : ∀ l ∈ ([] : Labels), isSnake l.1 = true ∧ l.1 ≠ b!"runtime" := by simp
theorem labels_kind (k : Bytes) : ∀ l ∈ kindLabel k, isSnake l.1 = true ∧ l.1 ≠ b!"runtime" := by
  intro l hl; simp only [kindLabel, List.mem_singleton] at hl; subst hl; exact ⟨rfl, fun e => by cases e⟩
theorem labels_worker (w : Nat) : ∀ l ∈ workerLabel w, isSnake l.1 = true ∧ l.1 ≠ b!"runtime" := by
  intro l hl; simp only [workerLabel, List.mem_singleton] at hl; subst hl; exact ⟨rfl, fun e => by cases e⟩
theorem labels_cons {n : Bytes} {v : LVal} {ls : Labels} (h : isSnake n = true ∧ n ≠ b!"runtime")
    (hl : ∀ l ∈ ls, isSnake l.1 = true ∧ l.1 ≠ b!"runtime") :
    ∀ l ∈ (n, v) :: ls, isSnake l.1 = true ∧ l.1 ≠ b!"runtime" := by
  intro l hm; rcases List.mem_cons.1 hm with rfl | hm
  · exact h
  · exact hl l hm
theorem labels_append {a b : Labels} (ha : ∀ l ∈ a, isSnake l.1 = true ∧ l.1 ≠ b!"runtime")
    (hb : ∀ l ∈ b, isSnake l.1 = true ∧ l.1 ≠ b!"runtime") : ∀ l ∈ a ++ b, isSnake l.1 = true ∧ l.1 ≠ b!"runtime" := by
  intro l hm; rcases List.mem_append.1 hm with hm | hm
  · exact ha l hm
  · exact hb l hm

theorem perWorker_ok {f : Nat → List RtSample} {rt : RtMetrics} (h : ∀ w, w < rt.numWorkers → ∀ s ∈ f w, SampleOk s) :
    ∀ s ∈ perWorker f rt, SampleOk s := by
  intro s hs
  obtain ⟨w, hw, hs⟩ := List.mem_flatMap.1 hs
  exact h w (List.mem_range.1 hw) s hs

theorem single_ok {x : RtSample} (h : SampleOk x) : ∀ s ∈ [x], SampleOk s := by
  intro s hs; rw [List.mem_singleton.1 hs]; exact h

theorem rtFamilies_ok (net : Bool) (secs : Nat → F64) : ∀ f ∈ rtFamilies secs net,
    isSnake f.name = true ∧ isPlainHelp f.help = true ∧ ∀ rt, RtOk rt → ∀ s ∈ f.samples rt, SampleOk s := by
  intro f hf
  simp only [rtFamilies, List.mem_append] at hf
  rcases hf with (hf | hf) | hf
  · simp only [taskFamilies, List.mem_cons, List.not_mem_nil, or_false] at hf
    rcases hf with rfl | rfl | rfl | rfl | rfl
    · refine ⟨rfl, rfl, fun rt h s hs => ?_⟩
      simp only [List.mem_cons, List.not_mem_nil, or_false] at hs
      rcases hs with rfl | rfl | rfl <;> exact sampleOk_of rfl (labels_kind _) trivial
    · exact ⟨rfl, rfl, fun rt h => single_ok (sampleOk_of rfl labels_nil trivial)⟩
    · refine ⟨rfl, rfl, fun rt h s hs => ?_⟩
      rcases List.mem_append.1 hs with hs | hs
      · simp only [List.mem_cons, List.not_mem_nil, or_false] at hs
        rcases hs with rfl | rfl <;> exact sampleOk_of rfl (labels_kind _) trivial
      · refine perWorker_ok (fun w hw => single_ok ?_) s hs
        exact sampleOk_of rfl (labels_kind _) trivial
    · refine ⟨rfl, rfl, fun rt h s hs => ?_⟩
      rcases List.mem_append.1 hs with hs | hs
      · refine perWorker_ok (fun w hw s hs => ?_) s hs
        simp only [List.mem_cons, List.not_mem_nil, or_false] at hs
        rcases hs with rfl | rfl
        · exact sampleOk_of rfl (labels_append (labels_worker w) (labels_cons ⟨rfl, by decide⟩ labels_nil)) (h.localSchedule w hw)
        · exact sampleOk_of rfl (labels_append (labels_worker w) (labels_cons ⟨rfl, by decide⟩ labels_nil)) (h.overflow w hw)
      · rw [List.mem_singleton.1 hs]
        exact sampleOk_of rfl (labels_cons ⟨rfl, by decide⟩ (labels_cons ⟨rfl, by decide⟩ labels_nil)) h.remote
    · exact ⟨rfl, rfl, fun rt h => single_ok (sampleOk_of rfl labels_nil h.yields)⟩
  · simp only [workerFamilies, List.mem_cons, List.not_mem_nil, or_false] at hf
    rcases hf with rfl | rfl | rfl | rfl | rfl | rfl
    · exact ⟨rfl, rfl, fun rt h => perWorker_ok fun w hw => single_ok (sampleOk_of rfl (labels_worker w) trivial)⟩
    · exact ⟨rfl, rfl, fun rt h => perWorker_ok fun w hw => single_ok (sampleOk_of rfl (labels_worker w) (h.noop w hw))⟩
    · exact ⟨rfl, rfl, fun rt h => perWorker_ok fun w hw => single_ok (sampleOk_of rfl (labels_worker w) (h.park w hw))⟩
    · exact ⟨rfl, rfl, fun rt h => perWorker_ok fun w hw => single_ok (sampleOk_of rfl (labels_worker w) (h.steal w hw))⟩
    · exact ⟨rfl, rfl, fun rt h => perWorker_ok fun w hw => single_ok (sampleOk_of rfl (labels_worker w) (h.stealOps w hw))⟩
    · refine ⟨rfl, rfl, fun rt h => perWorker_ok fun w hw s hs => ?_⟩
      rcases List.mem_append.1 hs with hs | hs
      · unfold pollBucketSamples at hs
        split at hs
        · obtain ⟨b, hb, rfl⟩ := List.mem_map.1 hs
          exact sampleOk_of rfl (labels_append (labels_worker w) (labels_cons ⟨rfl, by decide⟩ labels_nil))
            (h.polls w b hw (List.mem_range.1 hb))
        · cases hs
      · simp only [List.mem_cons, List.not_mem_nil, or_false] at hs
        rcases hs with rfl | rfl
        · exact sampleOk_of rfl (labels_worker w) (h.pollCount w hw)
        · exact sampleOk_of rfl (labels_worker w) trivial
  · split at hf
    · simp only [netFamilies, List.mem_cons, List.not_mem_nil, or_false] at hf
      rcases hf with rfl | rfl | rfl
      · exact ⟨rfl, rfl, fun rt h => single_ok (sampleOk_of rfl labels_nil h.registered)⟩
      · exact ⟨rfl, rfl, fun rt h => single_ok (sampleOk_of rfl labels_nil h.deregistered)⟩
      · exact ⟨rfl, rfl, fun rt h => single_ok (sampleOk_of rfl labels_nil h.ready)⟩
    · cases hf

theorem rtCalls_mem {net : Bool} {secs : Nat → F64} {rts : List RtCollector} {call : EncCall}
    (h : call ∈ rtCalls secs net rts) :
    ∃ f ∈ rtFamilies secs net, call = .help (.str f.name) f.help ∨
      ∃ c ∈ rts, ∃ s ∈ f.samples c.runtime, call = .sample s.value (runtimeLabel c.name ++ s.labels) s.name := by
  obtain ⟨f, hf, hc⟩ := List.mem_flatMap.1 h
  refine ⟨f, hf, ?_⟩
  rcases List.mem_cons.1 hc with rfl | hc
  · exact .inl rfl
  · obtain ⟨c, hc', hs⟩ := List.mem_flatMap.1 hc
    obtain ⟨s, hs', rfl⟩ := List.mem_map.1 hs
    exact .inr ⟨c, hc', s, hs', rfl⟩

/-- Each sample carries the label of one of the runtimes, and no other `runtime` label. -/
theorem C48_labels (net : Bool) (rts : List RtCollector) (h : ∀ c ∈ rts, RtOk c.runtime) (x : Metric) (ls : Labels)
    (n : Name) (hc : .sample x ls n ∈ rtCalls asSecsF64 net rts) :
    ∃ c ∈ rts, ls.filter (fun l => l.1 = b!"runtime") = (c.name.map fun s => (b!"runtime", LVal.str s)).toList := by
  obtain ⟨f, hf, hcall | ⟨c, hc', s, hs, hcall⟩⟩ := rtCalls_mem hc
  · cases hcall
  · cases hcall
    refine ⟨c, hc', ?_⟩
    have hok := ((rtFamilies_ok net asSecsF64 f hf).2.2 c.runtime (h c hc') s hs).2.2.2
    have hnil : s.labels.filter (fun l => l.1 = b!"runtime") = [] :=
      List.filter_eq_nil_iff.2 (fun l hl => by simpa using hok l hl)
    rw [List.filter_append, hnil, List.append_nil]
    cases c.name <;> rfl

/-- The calls read back line by line in the text format. -/
theorem C48_text {ryu : F64 → Bytes} {rf : Bytes → Option F64} (F : FloatText ryu rf) (m : Mode) (net : Bool)
    (rts : List RtCollector) (h : ∀ c ∈ rts, RtOk c.runtime) :
    ∃ e ls, collectRuntimes m net rts (textEncoder m ryu) (TextEnc.new []) = (.ok (), e) ∧
      readLines rf e.writer = some ls ∧ CallsLines rf Name.text false (rtCalls asSecsF64 net rts) ls := by
  rw [C48_calls m net rts _ h]
  apply C50_lines F m
  intro call hc
  obtain ⟨f, hf, rfl | ⟨c, hc', s, hs, rfl⟩⟩ := rtCalls_mem hc
  · obtain ⟨h1, h2, _⟩ := rtFamilies_ok net asSecsF64 f hf
    exact ⟨snake_metric h1, plain_help h2⟩
  · obtain ⟨h1, h2, h3, _⟩ := (rtFamilies_ok net asSecsF64 f hf).2.2 c.runtime (h c hc') s hs
    refine ⟨h1, ?_, h3⟩
    intro l hl
    rcases List.mem_append.1 hl with hl | hl
    · cases hn : c.name with
      | none => rw [hn] at hl; cases hl
      | some x =>
        rw [hn] at hl
        rw [List.mem_singleton.1 hl]
        exact snake_label rfl
    · exact h2 l hl

def EncCall.isBucket : EncCall → Bool
  | .sample _ _ n => n.text = b!"worker_poll_time_seconds_bucket"
  | _ => false

theorem filter_named {f : RtFamily} {rts : List RtCollector} (hn : f.name ≠ b!"worker_poll_time_seconds_bucket")
    (h : ∀ rt, ∀ s ∈ f.samples rt, s.name = .str f.name) : (f.calls rts).filter EncCall.isBucket = [] := by
  rw [List.filter_eq_nil_iff]
  intro call hc
  rcases List.mem_cons.1 hc with rfl | hc
  · simp [EncCall.isBucket]
  · obtain ⟨c, _, hs⟩ := List.mem_flatMap.1 hc
    obtain ⟨s, hs', rfl⟩ := List.mem_map.1 hs
    simp only [EncCall.isBucket, h _ s hs', decide_eq_true_eq]
    rw [Name.text_eq]
    exact hn

theorem named_one {n : Name} {ls : RtMetrics → Labels} {x : RtMetrics → Metric} :
    ∀ rt, ∀ s ∈ ([⟨n, ls rt, x rt⟩] : List RtSample), s.name = n := by
  intro rt s hs; rw [List.mem_singleton.1 hs]

theorem named_worker {n : Name} {ls : Nat → Labels} {x : RtMetrics → Nat → Metric} :
    ∀ rt, ∀ s ∈ perWorker (fun w => ([⟨n, ls w, x rt w⟩] : List RtSample)) rt, s.name = n := by
  intro rt s hs
  obtain ⟨w, _, hs⟩ := List.mem_flatMap.1 hs
  rw [List.mem_singleton.1 hs]

theorem task_filter (rts : List RtCollector) :
    (taskFamilies.flatMap (RtFamily.calls rts)).filter EncCall.isBucket = [] := by
  rw [List.filter_flatMap, List.flatMap_eq_nil_iff]
  intro f hf
  simp only [taskFamilies, List.mem_cons, List.not_mem_nil, or_false] at hf
  rcases hf with rfl | rfl | rfl | rfl | rfl <;> refine filter_named (by decide) (fun rt s hs => ?_)
  · simp only [List.mem_cons, List.not_mem_nil, or_false] at hs
    rcases hs with rfl | rfl | rfl <;> rfl
  · rw [List.mem_singleton.1 hs]
  · rcases List.mem_append.1 hs with hs | hs
    · simp only [List.mem_cons, List.not_mem_nil, or_false] at hs
      rcases hs with rfl | rfl <;> rfl
    · obtain ⟨w, _, hs⟩ := List.mem_flatMap.1 hs
      rw [List.mem_singleton.1 hs]
  · rcases List.mem_append.1 hs with hs | hs
    · obtain ⟨w, _, hs⟩ := List.mem_flatMap.1 hs
      simp only [List.mem_cons, List.not_mem_nil, or_false] at hs
      rcases hs with rfl | rfl <;> rfl
    · rw [List.mem_singleton.1 hs]
  · rw [List.mem_singleton.1 hs]

theorem net_filter (net : Bool) (rts : List RtCollector) :
    ((if net then netFamilies else []).flatMap (RtFamily.calls rts)).filter EncCall.isBucket = [] := by
  rw [List.filter_flatMap, List.flatMap_eq_nil_iff]
  intro f hf
  split at hf
  · simp only [netFamilies, List.mem_cons, List.not_mem_nil, or_false] at hf
    rcases hf with rfl | rfl | rfl <;> exact filter_named (by decide) (fun rt s hs => by rw [List.mem_singleton.1 hs])
  · cases hf

/-- The bucket samples of one worker, as calls. -/
def Spec.bucketCalls (c : RtCollector) (w : Nat) : List EncCall :=
  if c.runtime.histogramEnabled then
    (List.range c.runtime.histogramBuckets).map fun b =>
      .sample (.counter (pollsUpTo c.runtime w b))
        (runtimeLabel c.name ++ [(b!"worker", .int w), (b!"le", .float (upperBound asSecsF64 c.runtime b))])
        (.suffix (.str b!"worker_poll_time_seconds") .bucket)
  else []

/-- The bucket samples of a pass are, runtime by runtime and worker by worker, the cumulative counts of this worker's
buckets in order, under the labels of this runtime and worker. -/
theorem C48_buckets (net : Bool) (rts : List RtCollector) :
    (rtCalls asSecsF64 net rts).filter EncCall.isBucket =
      rts.flatMap fun c => (List.range c.runtime.numWorkers).flatMap (bucketCalls c) := by
  unfold rtCalls rtFamilies
  rw [List.flatMap_append, List.flatMap_append, List.filter_append, List.filter_append, task_filter, net_filter,
    List.nil_append, List.append_nil]
  unfold workerFamilies
  simp only [List.flatMap_cons, List.flatMap_nil, List.append_nil, List.filter_append]
  rw [filter_named (by decide) named_worker, filter_named (by decide) named_worker, filter_named (by decide) named_worker,
    filter_named (by decide) named_worker, filter_named (by decide) named_worker]
  simp only [List.nil_append, RtFamily.calls]
  rw [List.filter_cons_of_neg (by simp [EncCall.isBucket]), List.filter_flatMap]
  congr 1
  funext c
  simp only [perWorker, List.map_flatMap, List.filter_flatMap]
  congr 1
  funext w
  rw [List.map_append, List.filter_append]
  have h2 : ∀ (ls ls' : Labels) (x y : Metric),
      List.filter EncCall.isBucket [EncCall.sample x ls (.suffix (.str b!"worker_poll_time_seconds") .count),
        EncCall.sample y ls' (.suffix (.str b!"worker_poll_time_seconds") .sum)] = [] := by
    intro ls ls' x y
    rw [List.filter_eq_nil_iff]
    intro a ha
    simp only [List.mem_cons, List.not_mem_nil, or_false] at ha
    rcases ha with rfl | rfl <;> simp only [EncCall.isBucket, Name.text_eq] <;> decide
  simp only [List.map_cons, List.map_nil]
  rw [h2, List.append_nil]
  unfold pollBucketSamples bucketCalls
  split
  · rw [List.map_map, List.filter_eq_self.2]
    · rfl
    · intro a ha
      obtain ⟨b, _, rfl⟩ := List.mem_map.1 ha
      simp only [Function.comp, EncCall.isBucket, Name.text_eq]
      decide
  · rfl

/-- Bucket counts do not decrease, and each adds exactly the polls of its own bucket. -/
theorem C48_cumulative (rt : RtMetrics) (w b : Nat) :
    pollsUpTo rt w 0 = rt.histogramCount w 0 ∧
    pollsUpTo rt w (b + 1) = pollsUpTo rt w b + rt.histogramCount w (b + 1) ∧
    ∀ b', b ≤ b' → pollsUpTo rt w b ≤ pollsUpTo rt w b' :=
  ⟨by simp [pollsUpTo], pollsUpTo_succ rt w b, fun _ h => pollsUpTo_mono rt w h⟩

theorem infinity_ge {x : F64} (h : x.isNaN = false) : fle x (F64.inf false) = true := by
  rw [fle_iff]
  have hi : (F64.inf false).val = unit INF := by unfold F64.inf; rw [make_val]; rfl
  refine ⟨h, by decide, ?_⟩
  rw [hi]
  simp only [isNaN, decide_eq_false_iff_not, Nat.not_lt] at h
  have hle := unit_le_iff.2 h
  unfold F64.val
  split <;> omega

/-- The upper bounds do not decrease when the ends of tokio's buckets do not, and differ when the ends differ by at
least one part in `2^49` (which all bucket layouts of tokio do; its linear, log and h2 scales) or the second is
"no bound". -/
theorem C48_bounds (rt : RtMetrics) (hends : ∀ b, rt.histogramEnd b < 2 ^ 64)
    (hmono : ∀ b b', b ≤ b' → rt.histogramEnd b ≤ rt.histogramEnd b') (b b' : Nat) (h : b ≤ b') :
    fle (upperBound asSecsF64 rt b) (upperBound asSecsF64 rt b') = true ∧
    (rt.histogramEnd b < rt.histogramEnd b' →
      rt.histogramEnd b' ≤ 2 ^ 49 * (rt.histogramEnd b' - rt.histogramEnd b) ∨ rt.histogramEnd b' = 2 ^ 64 - 1 →
      flt (upperBound asSecsF64 rt b) (upperBound asSecsF64 rt b') = true) ∧
    (rt.histogramEnd b = 2 ^ 64 - 1 → upperBound asSecsF64 rt b = F64.inf false) := by
  have h1 := hmono b b' h
  have h2 := hends b'
  refine ⟨?_, ?_, ?_⟩
  · unfold upperBound
    by_cases e' : rt.histogramEnd b' = 2 ^ 64 - 1
    · rw [if_pos e']
      split
      · exact infinity_ge (by decide)
      · have := C51_monotone (Nat.le_refl (rt.histogramEnd b)) (by have := hends b; omega)
        exact infinity_ge (fle_iff.1 this).1
    · rw [if_neg e', if_neg (by omega)]
      exact C51_monotone h1 (by omega)
  · intro hlt hb'
    unfold upperBound
    rw [if_neg (by omega)]
    by_cases e' : rt.histogramEnd b' = 2 ^ 64 - 1
    · rw [if_pos e']
      have hf := (C51_accurate (rt.histogramEnd b) (by omega)).1
      have hnn := (fle_iff.1 (C51_monotone (Nat.le_refl (rt.histogramEnd b)) (by omega))).1
      simp only [isFinite, decide_eq_true_eq] at hf
      rw [flt_iff]
      refine ⟨hnn, by decide, ?_⟩
      have hi : (F64.inf false).val = unit INF := by unfold F64.inf; rw [make_val]; rfl
      rw [hi]
      have := unit_lt_iff.2 hf
      unfold F64.val
      split <;> omega
    · rw [if_neg e']
      exact C51_gap hlt (hb'.resolve_right e') (by omega)
  · intro e
    unfold upperBound
    rw [if_pos e]

/-! ### Two runtimes -/

/-- Two workers and three buckets. -/
def exRt : RtMetrics where
  numWorkers := 2
  numBlockingThreads := 3
  numIdleBlockingThreads := 1
  activeTasks := 5
  blockingQueueDepth := 0
  injectionQueueDepth := 1
  workerLocalQueueDepth w := w
  workerLocalSchedule w := 10 * w
  workerOverflow _ := 0
  remoteSchedule := 4
  budgetForcedYield := 2
  workerMeanPollTime _ := 1500000000
  workerNoop _ := 1
  workerPark _ := 2
  workerSteal _ := 3
  workerStealOperations _ := 4
  histogramEnabled := true
  histogramBuckets := 3
  histogramEnd b := if b = 0 then 500000000 else if b = 1 then 1500000000 else 2 ^ 64 - 1
  histogramCount w b := 10 * w + b + 1
  workerPollCount w := 30 * w + 6
  workerBusy _ := 2000000000
  fdRegistered := 7
  fdDeregistered := 6
  ioReady := 100

theorem exRt_polls (w b : Nat) (h : b < 3) : pollsUpTo exRt w b ≤ 30 * w + 6 := by
  have := pollsUpTo_mono exRt w (show b ≤ 2 by omega)
  have e : pollsUpTo exRt w 2 = 30 * w + 6 := by
    simp only [pollsUpTo, exRt, List.range_succ, List.range_zero, List.map_append, List.map_cons, List.map_nil,
      List.sum_append, List.sum_cons, List.sum_nil]
    omega
  omega

theorem exRt_ok : RtOk exRt := by
  constructor <;> first
    | decide
    | (intro w b hw hb; have := exRt_polls w b hb; have : w < 2 := hw; omega)
    | (intro w hw; have : w < 2 := hw; simp only [exRt]; omega)

example : bucketCalls ((RtCollector.new exRt).withName b!"main") 1 = [
    .sample (.counter 11) [(b!"runtime", .str b!"main"), (b!"worker", .int 1), (b!"le", .float (asSecsF64 500000000))]
      (.suffix (.str b!"worker_poll_time_seconds") .bucket),
    .sample (.counter 23) [(b!"runtime", .str b!"main"), (b!"worker", .int 1), (b!"le", .float (asSecsF64 1500000000))]
      (.suffix (.str b!"worker_poll_time_seconds") .bucket),
    .sample (.counter 36) [(b!"runtime", .str b!"main"), (b!"worker", .int 1), (b!"le", .float (F64.inf false))]
      (.suffix (.str b!"worker_poll_time_seconds") .bucket)] := by decide +kernel

end Measured
