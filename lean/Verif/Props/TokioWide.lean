import Verif.Props.Tokio

/-! # Runtime metrics of any size (C48)

No bound on the numbers that a runtime answers. -/

namespace Measured
open Measured.Spec

/-- An encoder that takes every help text, counter and gauge, whatever it has written. -/
structure Steady {E : Type} (enc : Encoder E) : Prop where
  help : ∀ n t s, (enc.help n t s).1 = .ok ()
  counter : ∀ c ls n s, (enc.sample (.counter c) ls n s).1 = .ok ()
  gauge : ∀ v ls n s, (enc.sample (.gauge v) ls n s).1 = .ok ()
  float : ∀ x ls n s, (enc.sample (.floatGauge x) ls n s).1 = .ok ()

theorem text_steady (m : Mode) (ryu : F64 → Bytes) : Steady (textEncoder m ryu : Encoder (TextEnc Bytes)) where
  help n t s := by rw [show (textEncoder m ryu : Encoder (TextEnc Bytes)).help n t s = _ from textHelp_bytes n t s]
  counter c ls n s := by
    rw [show (textEncoder m ryu : Encoder (TextEnc Bytes)).sample (.counter c) ls n s = _ from textValue_bytes ryu n ls _ s]
  gauge v ls n s := by
    rw [show (textEncoder m ryu : Encoder (TextEnc Bytes)).sample (.gauge v) ls n s = _ from textValue_bytes ryu n ls _ s]
  float x ls n s := by
    rw [show (textEncoder m ryu : Encoder (TextEnc Bytes)).sample (.floatGauge x) ls n s = _ from textValue_bytes ryu n ls _ s]

/-- `x` panics if `P` and returns otherwise, wherever it starts. -/
def PanicsIff {E : Type} (x : RS E Unit) (P : Prop) : Prop := ∀ s, (P → (x s).1 = .panic) ∧ (¬ P → (x s).1 = .ok ())

theorem PanicsIff.calm {E : Type} {x : RS E Unit} (h : ∀ s, (x s).1 = .ok ()) : PanicsIff x False :=
  fun s => ⟨False.elim, fun _ => h s⟩

theorem PanicsIff.congr {E : Type} {x : RS E Unit} {P Q : Prop} (h : PanicsIff x P) (hpq : P ↔ Q) : PanicsIff x Q :=
  fun s => ⟨fun q => (h s).1 (hpq.2 q), fun q => (h s).2 (fun p => q (hpq.1 p))⟩

theorem PanicsIff.bind {E : Type} {x y : RS E Unit} {P Q : Prop} (hx : PanicsIff x P) (hy : PanicsIff y Q) :
    PanicsIff (x >>= fun _ => y) (P ∨ Q) := by
  intro s
  rw [RS.bind_run]
  obtain ⟨h1, h2⟩ := hx s
  rcases hr : x s with ⟨o, s'⟩
  rw [hr] at h1 h2
  obtain ⟨h3, h4⟩ := hy s'
  by_cases p : P
  · have := h1 p
    simp only at this
    subst this
    exact ⟨fun _ => rfl, fun h => absurd (.inl p) h⟩
  · have := h2 p
    simp only at this
    subst this
    exact ⟨fun h => h3 (h.resolve_left p), fun h => h4 (fun q => h (.inr q))⟩

theorem PanicsIff.forEach {E α : Type} {f : α → RS E Unit} {P : α → Prop} (l : List α) (h : ∀ a ∈ l, PanicsIff (f a) (P a)) :
    PanicsIff (forEach f l) (∃ a ∈ l, P a) := by
  induction l with
  | nil => exact (PanicsIff.calm (fun _ => rfl)).congr (by simp)
  | cons a as ih =>
    exact ((h a (by simp)).bind (ih fun b hb => h b (by simp [hb]))).congr (by simp)

theorem PanicsIff.metric {E : Type} {enc : Encoder E} (S : Steady enc) (rts : List RtCollector) (name help : Bytes)
    {body : Name → RtCollector → RS E Unit} {P : RtCollector → Prop} (h : ∀ c ∈ rts, PanicsIff (body (.str name) c) (P c)) :
    PanicsIff (rtMetric enc rts name help body) (∃ c ∈ rts, P c) :=
  ((PanicsIff.calm fun s => S.help _ _ s).bind (PanicsIff.forEach rts h)).congr (by simp)

theorem PanicsIff.metric_calm {E : Type} {enc : Encoder E} (S : Steady enc) (rts : List RtCollector) (name help : Bytes)
    {body : Name → RtCollector → RS E Unit} (h : ∀ c ∈ rts, PanicsIff (body (.str name) c) False) :
    PanicsIff (rtMetric enc rts name help body) False :=
  (PanicsIff.metric S rts name help (P := fun _ => False) h).congr (by simp)

theorem PanicsIff.workers {E : Type} (c : RtCollector) {f : Nat → RS E Unit} {P : Nat → Prop} (h : ∀ w, PanicsIff (f w) (P w)) :
    PanicsIff (forWorkers c f) (∃ w, w < c.runtime.numWorkers ∧ P w) :=
  (PanicsIff.forEach _ fun w _ => h w).congr (by simp)

theorem PanicsIff.workers_calm {E : Type} (c : RtCollector) {f : Nat → RS E Unit} (h : ∀ w, PanicsIff (f w) False) :
    PanicsIff (forWorkers c f) False :=
  (PanicsIff.workers c h).congr (by simp)

section
variable {E : Type} {enc : Encoder E} (S : Steady enc)
include S

theorem calm_counter (n : Name) (c : RtCollector) (ls : Labels) (v : Nat) : PanicsIff (rtCounter enc n c ls v) False :=
  PanicsIff.calm fun s => S.counter _ _ _ s
theorem calm_gauge (n : Name) (c : RtCollector) (ls : Labels) (v : Int) : PanicsIff (rtGauge enc n c ls v) False :=
  PanicsIff.calm fun s => S.gauge _ _ _ s
theorem calm_float (n : Name) (c : RtCollector) (ls : Labels) (v : F64) : PanicsIff (rtFloat enc n c ls v) False :=
  PanicsIff.calm fun s => S.float _ _ _ s

theorem buckets_debug (n : Name) (c : RtCollector) (w k start : Nat) (hlt : pollsBefore c.runtime w start < 2 ^ 64) :
    PanicsIff (pollBuckets .debug enc n c w (pollsBefore c.runtime w start) (List.range' start k))
      (∃ b, b < start + k ∧ 2 ^ 64 ≤ pollsUpTo c.runtime w b) := by
  induction k generalizing start with
  | zero =>
    refine (PanicsIff.calm (fun _ => rfl)).congr ?_
    simp only [Nat.add_zero, false_iff, not_exists, not_and]
    intro b hb
    cases start with
    | zero => omega
    | succ i =>
      have := pollsUpTo_mono c.runtime w (show b ≤ i by omega)
      simp only [pollsBefore] at hlt
      omega
  | succ k ih =>
    rw [List.range'_succ]
    simp only [pollBuckets]
    by_cases h : pollsUpTo c.runtime w start < 2 ^ 64
    · rw [show addU .debug (pollsBefore c.runtime w start) (c.runtime.histogramCount w start) =
        .ok (pollsUpTo c.runtime w start) by
          unfold addU; rw [pollsBefore_add, if_pos (by rw [W64_eq]; exact h)]]
      have := (calm_counter S (.suffix n .bucket) c (workerLabels w ++ leLabels (histogramLe c.runtime start))
        (pollsUpTo c.runtime w start)).bind (ih (start + 1) h)
      refine PanicsIff.congr (x := _) this ?_
      rw [show start + 1 + k = start + (k + 1) by omega]
      simp
    · rw [show addU .debug (pollsBefore c.runtime w start) (c.runtime.histogramCount w start) = .panic by
          unfold addU; rw [pollsBefore_add, if_neg (by rw [W64_eq]; exact h)]]
      intro s
      exact ⟨fun _ => rfl, fun hno => absurd ⟨start, by omega, by omega⟩ hno⟩

theorem buckets_release (n : Name) (c : RtCollector) (w total : Nat) (bs : List Nat) :
    PanicsIff (pollBuckets .release enc n c w total bs) False := by
  induction bs generalizing total with
  | nil => exact PanicsIff.calm (fun _ => rfl)
  | cons b bs ih =>
    simp only [pollBuckets]
    have : ∃ v, addU .release total (c.runtime.histogramCount w b) = .ok v := by
      unfold addU
      split
      · exact ⟨_, rfl⟩
      · exact ⟨_, rfl⟩
    obtain ⟨v, hv⟩ := this
    rw [hv]
    exact ((calm_counter S _ c _ v).bind (ih v)).congr (by simp)

end

/-- The polls of a worker do not fit a `u64`. -/
def PollsOverflow (rt : RtMetrics) : Prop :=
  ∃ w, w < rt.numWorkers ∧ rt.histogramEnabled = true ∧ ∃ b, b < rt.histogramBuckets ∧ 2 ^ 64 ≤ pollsUpTo rt w b

theorem poll_panics {E : Type} {enc : Encoder E} (S : Steady enc) (m : Mode) (n : Name) (c : RtCollector) :
    PanicsIff (forWorkers c (collectPollWorker m enc n c)) (m = .debug ∧ PollsOverflow c.runtime) := by
  have h : ∀ w, PanicsIff (collectPollWorker m enc n c w)
      (m = .debug ∧ c.runtime.histogramEnabled = true ∧ ∃ b, b < c.runtime.histogramBuckets ∧ 2 ^ 64 ≤ pollsUpTo c.runtime w b) := by
    intro w
    have h1 : PanicsIff (pollHistogram m enc n c w)
        (m = .debug ∧ c.runtime.histogramEnabled = true ∧ ∃ b, b < c.runtime.histogramBuckets ∧ 2 ^ 64 ≤ pollsUpTo c.runtime w b) := by
      unfold pollHistogram
      cases he : c.runtime.histogramEnabled with
      | false => exact (PanicsIff.calm (fun _ => rfl)).congr (by simp)
      | true =>
        rw [if_pos rfl]
        cases m with
        | release => exact (buckets_release S n c w _ _).congr (by simp)
        | debug =>
          have := buckets_debug S n c w c.runtime.histogramBuckets 0 (by simp [pollsBefore])
          rw [← List.range_eq_range'] at this
          exact this.congr (by simp)
    exact (h1.bind ((calm_counter S _ c _ _).bind (calm_float S _ c _ _))).congr (by simp)
  refine (PanicsIff.workers c h).congr ?_
  unfold PollsOverflow
  constructor
  · rintro ⟨w, h1, h2, h3, h4⟩; exact ⟨h2, w, h1, h3, h4⟩
  · rintro ⟨h2, w, h1, h3, h4⟩; exact ⟨w, h1, h2, h3, h4⟩

/-- C48 for numbers of any size: a scrape of runtimes returns, except that a debug build panics exactly if the polls of
one worker do not fit a `u64`. -/
theorem C48_panics {E : Type} {enc : Encoder E} (S : Steady enc) (m : Mode) (net : Bool) (rts : List RtCollector) (s : E) :
    ((m = .debug ∧ ∃ c ∈ rts, PollsOverflow c.runtime) → (collectRuntimes m net rts enc s).1 = .panic) ∧
    (¬ (m = .debug ∧ ∃ c ∈ rts, PollsOverflow c.runtime) → (collectRuntimes m net rts enc s).1 = .ok ()) := by
  have threads : ∀ c ∈ rts, PanicsIff (collectThreads enc (.str b!"threads") c) False := fun c _ =>
    ((calm_gauge S _ c _ _).bind ((calm_gauge S _ c _ _).bind (calm_gauge S _ c _ _))).congr (by simp)
  have queued : ∀ c ∈ rts, PanicsIff (collectQueued enc (.str b!"queued_tasks") c) False := fun c _ =>
    ((calm_gauge S _ c _ _).bind ((calm_gauge S _ c _ _).bind (PanicsIff.workers_calm c fun w => calm_gauge S _ c _ _))).congr (by simp)
  have scheduled : ∀ c ∈ rts, PanicsIff (collectScheduled enc (.str b!"scheduled_tasks_total") c) False := fun c _ =>
    ((PanicsIff.workers_calm c fun w => ((calm_counter S _ c _ _).bind (calm_counter S _ c _ _)).congr (by simp)).bind
      (calm_counter S _ c _ _)).congr (by simp)
  have polls : PanicsIff (rtMetric enc rts b!"worker_poll_time_seconds" b!"time this runtime thread has spent polling tasks"
      fun n c => forWorkers c (collectPollWorker m enc n c)) (∃ c ∈ rts, m = .debug ∧ PollsOverflow c.runtime) :=
    PanicsIff.metric S rts _ _ fun c _ => poll_panics S m _ c
  have hnet : PanicsIff (collectNetIf net enc rts) False := by
    unfold collectNetIf
    cases net with
    | false => exact PanicsIff.calm (fun _ => rfl)
    | true =>
      exact ((PanicsIff.metric_calm S rts _ _ fun c _ => calm_counter S _ c _ _).bind
        ((PanicsIff.metric_calm S rts _ _ fun c _ => calm_counter S _ c _ _).bind
          (PanicsIff.metric_calm S rts _ _ fun c _ => calm_counter S _ c _ _))).congr (by simp)
  have h : PanicsIff (collectRuntimes m net rts enc) (∃ c ∈ rts, m = .debug ∧ PollsOverflow c.runtime) := by
    unfold collectRuntimes
    exact ((PanicsIff.metric_calm S rts _ _ threads).bind
      ((PanicsIff.metric_calm S rts _ _ fun c _ => calm_gauge S _ c _ _).bind
      ((PanicsIff.metric_calm S rts _ _ queued).bind
      ((PanicsIff.metric_calm S rts _ _ scheduled).bind
      ((PanicsIff.metric_calm S rts _ _ fun c _ => calm_counter S _ c _ _).bind
      ((PanicsIff.metric_calm S rts _ _ fun c _ => PanicsIff.workers_calm c fun w => calm_float S _ c _ _).bind
      ((PanicsIff.metric_calm S rts _ _ fun c _ => PanicsIff.workers_calm c fun w => calm_counter S _ c _ _).bind
      ((PanicsIff.metric_calm S rts _ _ fun c _ => PanicsIff.workers_calm c fun w => calm_counter S _ c _ _).bind
      ((PanicsIff.metric_calm S rts _ _ fun c _ => PanicsIff.workers_calm c fun w => calm_counter S _ c _ _).bind
      ((PanicsIff.metric_calm S rts _ _ fun c _ => PanicsIff.workers_calm c fun w => calm_counter S _ c _ _).bind
      (polls.bind hnet))))))))))).congr (by simp)
  have hiff : (∃ c ∈ rts, m = .debug ∧ PollsOverflow c.runtime) ↔ (m = .debug ∧ ∃ c ∈ rts, PollsOverflow c.runtime) := by
    constructor
    · rintro ⟨c, h1, h2, h3⟩; exact ⟨h2, c, h1, h3⟩
    · rintro ⟨h2, c, h1, h3⟩; exact ⟨c, h1, h2, h3⟩
  exact (h.congr hiff) s

/-- C48 for numbers of any size: what a release build counts in the buckets of a worker, whatever the encoder: the polls up
to the bucket, modulo `2^64`. -/
theorem C48_buckets_wrap {E : Type} (enc : Encoder E) (n : Name) (c : RtCollector) (w : Nat)
    (he : c.runtime.histogramEnabled = true) :
    pollHistogram .release enc n c w =
      enc.runAll ((List.range c.runtime.histogramBuckets).map fun b =>
        .sample (.counter (pollsUpTo c.runtime w b % 2 ^ 64))
          (runtimeLabel c.name ++ (workerLabels w ++ [(b!"le", .float (upperBound asSecsF64 c.runtime b))]))
          (.suffix n .bucket)) := by
  have h : ∀ k start, pollBuckets .release enc n c w (pollsBefore c.runtime w start % 2 ^ 64) (List.range' start k) =
      enc.runAll ((List.range' start k).map fun b =>
        .sample (.counter (pollsUpTo c.runtime w b % 2 ^ 64))
          (runtimeLabel c.name ++ (workerLabels w ++ [(b!"le", .float (upperBound asSecsF64 c.runtime b))]))
          (.suffix n .bucket)) := by
    intro k
    induction k with
    | zero => intro start; rfl
    | succ k ih =>
      intro start
      rw [List.range'_succ, List.map_cons]
      simp only [pollBuckets, Encoder.runAll]
      rw [show addU .release (pollsBefore c.runtime w start % 2 ^ 64) (c.runtime.histogramCount w start) =
        .ok (pollsUpTo c.runtime w start % 2 ^ 64) by
          unfold addU
          rw [← pollsBefore_add c.runtime w start, W64_eq]
          split
          · exact congrArg Out.ok (by omega)
          · exact congrArg Out.ok (by omega)]
      have hl : ∀ f : Nat → RS E Unit, (RS.lift (.ok (pollsUpTo c.runtime w start % 2 ^ 64)) >>= f) =
          f (pollsUpTo c.runtime w start % 2 ^ 64) := fun _ => rfl
      have := ih (start + 1)
      simp only [pollsBefore] at this
      rw [hl, this, ← histogramLe_eq, ← runtimeLabels_eq]
      rfl
  unfold pollHistogram
  rw [if_pos he, List.range_eq_range']
  exact h _ 0

/-! ## A worker with too many polls -/

def exPolls : RtMetrics := { exRt with histogramCount := fun _ _ => 2 ^ 63 }

theorem exPolls_overflow : PollsOverflow exPolls := ⟨1, by decide, rfl, 1, by decide, by decide⟩

example : (collectRuntimes .debug true [RtCollector.new exPolls] (textEncoder .debug exRyu) (TextEnc.new ([] : Bytes))).1 = .panic :=
  (C48_panics (text_steady _ _) _ _ _ _).1 ⟨rfl, _, List.mem_singleton.2 rfl, exPolls_overflow⟩
example : (collectRuntimes .release true [RtCollector.new exPolls] (textEncoder .release exRyu) (TextEnc.new ([] : Bytes))).1 = .ok () :=
  (C48_panics (text_steady _ _) _ _ _ _).2 (by simp)
example : (List.range exPolls.histogramBuckets).map (fun b => pollsUpTo exPolls 1 b % 2 ^ 64) = [2 ^ 63, 0, 2 ^ 63] := by decide

end Measured
