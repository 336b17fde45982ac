import Verif.Props.Collectors
import Verif.Props.Series

/-! # The series shown by the runtime collectors (C74) -/

namespace Measured
open Measured.Spec F64

/-- The samples among lines. -/
def Spec.samplesIn : List Line → List Sample
  | [] => []
  | .sample s :: ls => s :: samplesIn ls
  | _ :: ls => samplesIn ls

/-- Runtimes can be told apart: there is one, or all have names, which differ. -/
structure Spec.RtNamed (rts : List RtCollector) : Prop where
  nodup : (rts.map RtCollector.name).Nodup
  named : ∀ c ∈ rts, c.name = none → rts = [c]

/-- The buckets of the poll time histogram can be told apart, also in seconds (C51): their ends grow, by at least one
part in `2^49` except for the last one. -/
def Spec.EndsGrow (rt : RtMetrics) : Prop :=
  rt.histogramEnabled = true → ∀ b b', b < b' → b' < rt.histogramBuckets →
    rt.histogramEnd b < rt.histogramEnd b' ∧ rt.histogramEnd b' < 2 ^ 64 ∧
    (rt.histogramEnd b' ≤ 2 ^ 49 * (rt.histogramEnd b' - rt.histogramEnd b) ∨ rt.histogramEnd b' = 2 ^ 64 - 1)

theorem samplesIn_append (a b : List Line) : samplesIn (a ++ b) = samplesIn a ++ samplesIn b := by
  induction a with
  | nil => rfl
  | cons l a ih => cases l <;> simp [samplesIn, ih]

theorem samplesIn_map (ss : List Sample) : samplesIn (ss.map .sample) = ss := by
  induction ss with
  | nil => rfl
  | cons s ss ih => simp [samplesIn, ih]

/-- The samples expected of a call. -/
def expectedOf : EncCall → List Expected
  | .sample x ls n => expected n.text ls x
  | _ => []

theorem callsLines_samples {rf : Bytes → Option F64} {prev : Bool} {cs : List EncCall} {ls : List Line}
    (h : CallsLines rf Name.text prev cs ls) : List.Forall₂ (SampleReads rf) (cs.flatMap expectedOf) (samplesIn ls) := by
  induction h with
  | nil => exact .nil
  | @cons prev c cs l ls h _ ih =>
    rw [List.flatMap_cons, samplesIn_append, samplesIn_append]
    have e : samplesIn (if (prev && !c.isSample) = true then [Line.blank] else []) = [] := by split <;> rfl
    rw [e, List.nil_append]
    refine List.rel_append ?_ ih
    cases h with
    | help => exact .nil
    | type => exact .nil
    | sample h => rw [samplesIn_map]; exact h

/-! ## The samples of a family are apart -/

/-- Samples of one runtime that differ in name or labels. -/
def Unlike (a b : RtSample) : Prop := a.name.text ≠ b.name.text ∨ LabelsDiffer a.labels b.labels

theorem pairwise_perWorker {f : Nat → List RtSample} {rt : RtMetrics} (h1 : ∀ w, (f w).Pairwise Unlike)
    (h2 : ∀ w w', w ≠ w' → ∀ a ∈ f w, ∀ b ∈ f w', Unlike a b) : (perWorker f rt).Pairwise Unlike := by
  unfold perWorker
  rw [List.pairwise_flatMap]
  refine ⟨fun w _ => h1 w, ?_⟩
  exact (List.nodup_range (n := rt.numWorkers)).imp fun {w w'} h a ha b hb => h2 w w' h a ha b hb

theorem labelsDiffer_first {a b : Labels} {x y : Bytes × LVal} (h : LVal.Differ x.2 y.2) :
    LabelsDiffer (x :: a) (y :: b) := ⟨0, x, y, rfl, rfl, h⟩

theorem labelsDiffer_second {a b : Labels} {x y z w : Bytes × LVal} (h : LVal.Differ x.2 y.2) :
    LabelsDiffer (z :: x :: a) (w :: y :: b) := ⟨1, x, y, rfl, rfl, h⟩

theorem differ_int {a b : Nat} (h : a ≠ b) : LVal.Differ (.int a) (.int b) := by
  show (a : Int) ≠ b; omega

/-- Samples of different workers, under the label of the worker. -/
theorem unlike_workers {f : Nat → List RtSample} (h : ∀ w, ∀ s ∈ f w, ∃ r, s.labels = (b!"worker", .int w) :: r)
    (w w' : Nat) (hw : w ≠ w') : ∀ a ∈ f w, ∀ b ∈ f w', Unlike a b := by
  intro a ha b hb
  obtain ⟨r, e⟩ := h w a ha
  obtain ⟨r', e'⟩ := h w' b hb
  exact .inr (by rw [e, e']; exact labelsDiffer_first (differ_int hw))

/-- A family with one sample for each worker. -/
theorem one_perWorker {f : Nat → RtSample} {rt : RtMetrics} (h : ∀ w, ∃ r, (f w).labels = (b!"worker", .int w) :: r) :
    (perWorker (fun w => [f w]) rt).Pairwise Unlike :=
  pairwise_perWorker (fun _ => List.pairwise_singleton _ _)
    (unlike_workers fun w s hs => by rw [List.mem_singleton.1 hs]; exact h w)

theorem decDigits_inj {a b : Nat} (h : decDigits a = decDigits b) : a = b := by
  have h1 := decDigits_read a
  rw [h, decDigits_read] at h1
  simpa using h1.symm

theorem decDigits_letters {n : Nat} {b : UInt8} {s : Bytes} (h : inRange 0x30 0x39 b = false) : decDigits n ≠ b :: s := by
  intro e
  have := decDigits_mem n b (by rw [e]; simp)
  rw [h] at this
  cases this

theorem bounds_differ {rt : RtMetrics} (h : EndsGrow rt) (he : rt.histogramEnabled = true) {b b' : Nat} (hb : b < b')
    (hb' : b' < rt.histogramBuckets) :
    LVal.Differ (.float (upperBound asSecsF64 rt b)) (.float (upperBound asSecsF64 rt b')) := by
  obtain ⟨h1, h2, h3⟩ := h he b b' hb hb'
  have hlt : flt (upperBound asSecsF64 rt b) (upperBound asSecsF64 rt b') = true := by
    let rt' : RtMetrics := { rt with histogramEnd := fun i => if i ≤ b then rt.histogramEnd b else rt.histogramEnd b' }
    have hk := (C48_bounds rt' (fun i => by simp only [rt']; split <;> omega)
      (fun i j hij => by simp only [rt']; split <;> split <;> omega) b b' (by omega)).2.1
    have e1 : rt'.histogramEnd b = rt.histogramEnd b := by simp [rt']
    have e2 : rt'.histogramEnd b' = rt.histogramEnd b' := by simp only [rt']; rw [if_neg (by omega)]
    have e3 : upperBound asSecsF64 rt' b = upperBound asSecsF64 rt b := by unfold upperBound; rw [e1]
    have e4 : upperBound asSecsF64 rt' b' = upperBound asSecsF64 rt b' := by unfold upperBound; rw [e2]
    rw [e1, e2, e3, e4] at hk
    exact hk h1 h3
  have := flt_iff.1 hlt
  refine ⟨?_, .inl this.1⟩
  intro e
  rw [e] at this
  omega

/-- What is needed of a family: the names of the labels go by the name of the sample, `runtime` is none of them, and
the samples of one runtime are unlike. -/
structure FamApart (f : RtFamily) : Prop where
  labels : ∃ L : Bytes → List Bytes, (∀ n, (b!"runtime" :: L n).Nodup) ∧
    ∀ rt, ∀ s ∈ f.samples rt, s.labels.map Prod.fst = L s.name.text
  apart : ∀ rt, EndsGrow rt → (f.samples rt).Pairwise Unlike
  names : ∀ rt, ∀ s ∈ f.samples rt, s.name.text ∈ [f.name, f.name ++ b!"_bucket", f.name ++ b!"_count", f.name ++ b!"_sum"]

theorem str_mem (n : Bytes) : (Name.str n).text ∈ [n, n ++ b!"_bucket", n ++ b!"_count", n ++ b!"_sum"] := by
  rw [Name.text_eq]; simp [Name.render]

theorem fam_task : ∀ f ∈ taskFamilies, FamApart f := by
  intro f hf
  simp only [taskFamilies, List.mem_cons, List.not_mem_nil, or_false] at hf
  rcases hf with rfl | rfl | rfl | rfl | rfl
  · refine ⟨⟨fun _ => [b!"kind"], fun _ => by beta_reduce; decide, fun rt => cons_all rfl (cons_all rfl (single_all rfl))⟩, fun rt _ => ?_,
      fun rt => cons_all (str_mem _) (cons_all (str_mem _) (single_all (str_mem _)))⟩
    refine List.pairwise_cons.2 ⟨cons_all ?_ (single_all ?_), List.pairwise_cons.2 ⟨single_all ?_, List.pairwise_singleton _ _⟩⟩ <;>
      exact .inr (labelsDiffer_first (by show _ ≠ _; decide))
  · exact ⟨⟨fun _ => [], fun _ => by beta_reduce; decide, fun rt => single_all rfl⟩, fun rt _ => List.pairwise_singleton _ _,
      fun rt => single_all (str_mem _)⟩
  · refine ⟨⟨fun _ => [b!"kind"], fun _ => by beta_reduce; decide, fun rt =>
      append_all (cons_all rfl (single_all rfl)) (perWorker_all fun w => single_all rfl)⟩, fun rt _ => ?_,
      fun rt => append_all (cons_all (str_mem _) (single_all (str_mem _))) (perWorker_all fun w => single_all (str_mem _))⟩
    refine List.pairwise_append.2 ⟨List.pairwise_cons.2 ⟨single_all ?_, List.pairwise_singleton _ _⟩, ?_, ?_⟩
    · exact .inr (labelsDiffer_first (by show _ ≠ _; decide))
    · refine pairwise_perWorker (fun _ => List.pairwise_singleton _ _) (fun w w' hw => single_all (single_all ?_))
      exact .inr (labelsDiffer_first fun e => hw (decDigits_inj e))
    · refine cons_all (perWorker_all fun w => single_all ?_) (single_all (perWorker_all fun w => single_all ?_)) <;>
        exact .inr (labelsDiffer_first fun e => decDigits_letters (by decide) e.symm)
  · refine ⟨⟨fun _ => [b!"worker", b!"overflow"], fun _ => by beta_reduce; decide, fun rt =>
      append_all (perWorker_all fun w => cons_all rfl (single_all rfl)) (single_all rfl)⟩, fun rt _ => ?_,
      fun rt => append_all (perWorker_all fun w => cons_all (str_mem _) (single_all (str_mem _))) (single_all (str_mem _))⟩
    refine List.pairwise_append.2 ⟨?_, List.pairwise_singleton _ _, ?_⟩
    · refine pairwise_perWorker (fun w => List.pairwise_cons.2 ⟨single_all ?_, List.pairwise_singleton _ _⟩)
        (unlike_workers fun w => cons_all ⟨_, rfl⟩ (single_all ⟨_, rfl⟩))
      exact .inr (labelsDiffer_second (by show _ ≠ _; decide))
    · refine perWorker_all fun w => cons_all (single_all ?_) (single_all (single_all ?_)) <;>
        exact .inr (labelsDiffer_first (by show readInt _ ≠ some _; rw [show readInt b!"remote" = none from rfl]; exact nofun))
  · exact ⟨⟨fun _ => [], fun _ => by beta_reduce; decide, fun rt => single_all rfl⟩, fun rt _ => List.pairwise_singleton _ _,
      fun rt => single_all (str_mem _)⟩

theorem fam_one {n help : Bytes} {v : RtMetrics → Nat → Metric} :
    FamApart ⟨n, help, fun rt => perWorker (fun w => [⟨.str n, workerLabel w, v rt w⟩]) rt⟩ :=
  ⟨⟨fun _ => [b!"worker"], fun _ => by beta_reduce; decide, fun rt => perWorker_all fun w => single_all rfl⟩,
    fun rt _ => one_perWorker fun w => ⟨[], rfl⟩, fun rt => perWorker_all fun w => single_all (str_mem _)⟩

/-- The labels of the samples of the poll times. -/
def pollLabels (n : Bytes) : List Bytes :=
  if n = b!"worker_poll_time_seconds_bucket" then [b!"worker", b!"le"] else [b!"worker"]

theorem bucket_all {P : RtSample → Prop} {secs : Nat → F64} {rt : RtMetrics} {w : Nat}
    (h : ∀ b, P ⟨.suffix (.str b!"worker_poll_time_seconds") .bucket,
        workerLabel w ++ [(b!"le", .float (upperBound secs rt b))], .counter (pollsUpTo rt w b)⟩) :
    ∀ s ∈ pollBucketSamples secs rt w, P s := by
  intro s hs
  unfold pollBucketSamples at hs
  split at hs
  · obtain ⟨b, _, rfl⟩ := List.mem_map.1 hs; exact h b
  · cases hs

theorem fam_worker : ∀ f ∈ workerFamilies asSecsF64, FamApart f := by
  intro f hf
  simp only [workerFamilies, List.mem_cons, List.not_mem_nil, or_false] at hf
  rcases hf with rfl | rfl | rfl | rfl | rfl | rfl
  · exact fam_one
  · exact fam_one
  · exact fam_one
  · exact fam_one
  · exact fam_one
  · refine ⟨⟨pollLabels, fun n => by unfold pollLabels; split <;> decide, fun rt => perWorker_all fun w =>
      append_all (bucket_all fun b => ?_) (cons_all ?_ (single_all ?_))⟩, fun rt hr => ?_,
      fun rt => perWorker_all fun w => append_all (bucket_all fun b => ?_) (cons_all ?_ (single_all ?_))⟩
    · simp only [Name.text_eq]; rfl
    · simp only [Name.text_eq]; rfl
    · simp only [Name.text_eq]; rfl
    · refine pairwise_perWorker (fun w => ?_) (unlike_workers fun w =>
        append_all (bucket_all fun b => ⟨_, rfl⟩) (cons_all ⟨_, rfl⟩ (single_all ⟨_, rfl⟩)))
      refine List.pairwise_append.2 ⟨?_, List.pairwise_cons.2 ⟨single_all (.inl ?_), List.pairwise_singleton _ _⟩,
        bucket_all fun b => cons_all (.inl ?_) (single_all (.inl ?_))⟩
      · unfold pollBucketSamples
        split
        · rename_i he
          rw [List.pairwise_map]
          refine (List.pairwise_lt_range (n := rt.histogramBuckets)).imp_of_mem fun {b b'} _ hb' hlt => ?_
          exact .inr (labelsDiffer_second (bounds_differ hr he hlt (List.mem_range.1 hb')))
        · exact .nil
      · simp only [Name.text_eq]; decide
      · simp only [Name.text_eq]; decide
      · simp only [Name.text_eq]; decide
    · simp only [Name.text_eq]; decide
    · simp only [Name.text_eq]; decide
    · simp only [Name.text_eq]; decide

theorem fam_net : ∀ f ∈ netFamilies, FamApart f := by
  intro f hf
  simp only [netFamilies, List.mem_cons, List.not_mem_nil, or_false] at hf
  rcases hf with rfl | rfl | rfl <;>
    exact ⟨⟨fun _ => [], fun _ => by beta_reduce; decide, fun rt => single_all rfl⟩, fun rt _ => List.pairwise_singleton _ _,
      fun rt => single_all (str_mem _)⟩

theorem fam_apart (net : Bool) : ∀ f ∈ rtFamilies asSecsF64 net, FamApart f := by
  intro f hf
  simp only [rtFamilies, List.mem_append] at hf
  rcases hf with (hf | hf) | hf
  · exact fam_task f hf
  · exact fam_worker f hf
  · split at hf
    · exact fam_net f hf
    · cases hf

/-- No two families have samples of the same name. -/
theorem fam_names (net : Bool) : ((rtFamilies asSecsF64 net).map RtFamily.name).Pairwise fun a b =>
    ∀ x ∈ [a, a ++ b!"_bucket", a ++ b!"_count", a ++ b!"_sum"], x ∉ [b, b ++ b!"_bucket", b ++ b!"_count", b ++ b!"_sum"] := by
  have e : (rtFamilies asSecsF64 net).map RtFamily.name = (taskFamilies.map RtFamily.name) ++
      [b!"worker_mean_poll_time_seconds", b!"worker_noop_count", b!"worker_park_count", b!"worker_steal_count",
        b!"worker_steal_operations_count", b!"worker_poll_time_seconds"] ++ if net then netFamilies.map RtFamily.name else [] := by
    cases net <;> rfl
  rw [e]
  cases net <;> decide +kernel

/-! ## The series of a scrape -/

/-- What a sample of the table should show. -/
def shownAs (c : RtCollector) (s : RtSample) : List Expected := expected s.name.text (runtimeLabel c.name ++ s.labels) s.value

theorem expected_one {x : Metric} (h : x.kind ≠ .histogram) (n : Bytes) (ls : Labels) : ∃ v, expected n ls x = [⟨n, ls, v⟩] := by
  cases x with
  | counter c => exact ⟨_, rfl⟩
  | gauge c => exact ⟨_, rfl⟩
  | floatGauge c => exact ⟨_, rfl⟩
  | histogram le h' => exact absurd rfl h

theorem rtCalls_expected (net : Bool) (rts : List RtCollector) :
    (rtCalls asSecsF64 net rts).flatMap expectedOf =
      (rtFamilies asSecsF64 net).flatMap fun f => rts.flatMap fun c => (f.samples c.runtime).flatMap (shownAs c) := by
  unfold rtCalls
  rw [List.flatMap_assoc]
  congr 1
  funext f
  unfold RtFamily.calls
  rw [List.flatMap_cons, List.flatMap_assoc]
  simp only [expectedOf, List.nil_append, List.flatMap_map]
  rfl

theorem runtimeLabel_names (c c' : RtCollector) (h : c.name.isSome = c'.name.isSome) :
    (runtimeLabel c.name).map Prod.fst = (runtimeLabel c'.name).map Prod.fst := by
  cases hc : c.name <;> cases hc' : c'.name <;> rw [hc, hc'] at h <;> first | rfl | cases h

theorem labels_nodup {c : RtCollector} {L : List Bytes} {ls : Labels} (h : (b!"runtime" :: L).Nodup)
    (hl : ls.map Prod.fst = L) : ((runtimeLabel c.name ++ ls).map Prod.fst).Nodup := by
  rw [List.map_append, hl]
  cases c.name with
  | none => exact (List.nodup_cons.1 h).2
  | some n => exact h

theorem samples_apart {f : RtFamily} (hf : FamApart f) (hk : ∀ rt, ∀ s ∈ f.samples rt, s.value.kind ≠ .histogram)
    {c c' : RtCollector} {s s' : RtSample} (hs : s ∈ f.samples c.runtime) (hs' : s' ∈ f.samples c'.runtime)
    (hc : c.name.isSome = c'.name.isSome)
    (hd : s.name.text ≠ s'.name.text ∨ LabelsDiffer (runtimeLabel c.name ++ s.labels) (runtimeLabel c'.name ++ s'.labels)) :
    ∀ a ∈ shownAs c s, ∀ b ∈ shownAs c' s', Apart a b := by
  obtain ⟨L, h1, h2⟩ := hf.labels
  obtain ⟨v, e⟩ := expected_one (hk _ s hs) s.name.text (runtimeLabel c.name ++ s.labels)
  obtain ⟨v', e'⟩ := expected_one (hk _ s' hs') s'.name.text (runtimeLabel c'.name ++ s'.labels)
  intro a ha b hb
  unfold shownAs at ha hb
  rw [e, List.mem_singleton] at ha
  rw [e', List.mem_singleton] at hb
  subst ha hb
  by_cases hn : s.name.text = s'.name.text
  · refine .inr ⟨?_, labels_nodup (h1 _) (h2 _ s hs), hd.resolve_left (by simp [hn])⟩
    show (runtimeLabel c.name ++ s.labels).map Prod.fst = (runtimeLabel c'.name ++ s'.labels).map Prod.fst
    rw [List.map_append, List.map_append, h2 _ s hs, h2 _ s' hs', hn, runtimeLabel_names c c' hc]
  · exact .inl hn

theorem differ_prefix (p : Labels) {a b : Labels} (h : LabelsDiffer a b) : LabelsDiffer (p ++ a) (p ++ b) := by
  obtain ⟨i, x, y, h1, h2, h3⟩ := h
  exact ⟨p.length + i, x, y, by rw [List.getElem?_append_right (by omega), Nat.add_sub_cancel_left, h1],
    by rw [List.getElem?_append_right (by omega), Nat.add_sub_cancel_left, h2], h3⟩

theorem rt_apart (net : Bool) (rts : List RtCollector) (hn : RtNamed rts) (he : ∀ c ∈ rts, EndsGrow c.runtime) :
    ((rtCalls asSecsF64 net rts).flatMap expectedOf).Pairwise Apart := by
  rw [rtCalls_expected, List.pairwise_flatMap]
  constructor
  · intro f hf
    have ha := fam_apart net f hf
    have hk := rtFamilies_kind net asSecsF64 f hf
    rw [List.pairwise_flatMap]
    constructor
    · intro c hc
      rw [List.pairwise_flatMap]
      constructor
      · intro s hs
        obtain ⟨v, e⟩ := expected_one (hk _ s hs) s.name.text (runtimeLabel c.name ++ s.labels)
        unfold shownAs
        rw [e]
        exact List.pairwise_singleton _ _
      · exact (ha.apart c.runtime (he c hc)).imp_of_mem fun {s s'} hs hs' h =>
          samples_apart ha hk hs hs' rfl (h.imp id (differ_prefix _))
    · have hnd := hn.nodup
      rw [List.nodup_iff_pairwise_ne, List.pairwise_map] at hnd
      refine hnd.imp_of_mem fun {c c'} hc hc' hne a ha' b hb' => ?_
      obtain ⟨s, hs, ha'⟩ := List.mem_flatMap.1 ha'
      obtain ⟨s', hs', hb'⟩ := List.mem_flatMap.1 hb'
      cases hcn : c.name with
      | none =>
        have := hn.named c hc hcn
        rw [this, List.mem_singleton] at hc'
        rw [hc'] at hne
        exact absurd rfl hne
      | some n =>
        cases hcn' : c'.name with
        | none =>
          have := hn.named c' hc' hcn'
          rw [this, List.mem_singleton] at hc
          rw [hc] at hne
          exact absurd rfl hne
        | some n' =>
          refine samples_apart ha hk hs hs' (by rw [hcn, hcn']; rfl) (.inr ?_) a ha' b hb'
          rw [hcn, hcn']
          refine labelsDiffer_first ?_
          intro e
          exact hne (by rw [hcn, hcn']; exact congrArg some e)
  · have hd := fam_names net
    rw [List.pairwise_map] at hd
    refine hd.imp_of_mem fun {f g} hf hg h a ha b hb => ?_
    obtain ⟨c, hc, ha⟩ := List.mem_flatMap.1 ha
    obtain ⟨s, hs, ha⟩ := List.mem_flatMap.1 ha
    obtain ⟨c', hc', hb⟩ := List.mem_flatMap.1 hb
    obtain ⟨s', hs', hb⟩ := List.mem_flatMap.1 hb
    obtain ⟨v, e⟩ := expected_one (rtFamilies_kind net asSecsF64 f hf _ s hs) s.name.text (runtimeLabel c.name ++ s.labels)
    obtain ⟨v', e'⟩ := expected_one (rtFamilies_kind net asSecsF64 g hg _ s' hs') s'.name.text (runtimeLabel c'.name ++ s'.labels)
    unfold shownAs at ha hb
    rw [e, List.mem_singleton] at ha
    rw [e', List.mem_singleton] at hb
    subst ha hb
    refine .inl ?_
    intro hx
    have hx : s.name.text = s'.name.text := hx
    refine h _ ((fam_apart net f hf).names _ s hs) ?_
    rw [hx]
    exact (fam_apart net g hg).names _ s' hs'

/-- What is missing: runtimes of the same name. If the runtimes can be told apart, and the buckets of each runtime can,
then no series is shown twice. -/
theorem C74_distinct_partial {ryu : F64 → Bytes} {rf : Bytes → Option F64} (F : FloatText ryu rf) (R : ReadsSpecial rf)
    (m : Mode) (net : Bool) (rts : List RtCollector) (h : ∀ c ∈ rts, RtOk c.runtime) (hn : RtNamed rts)
    (he : ∀ c ∈ rts, EndsGrow c.runtime) :
    ∃ e ls, collectRuntimes m net rts (textEncoder m ryu) (TextEnc.new []) = (.ok (), e) ∧
      readLines rf e.writer = some ls ∧ SeriesDistinct (samplesIn ls) := by
  obtain ⟨e, ls, h1, h2, h3⟩ := C48_text F m net rts h
  exact ⟨e, ls, h1, h2, apart_distinct R (callsLines_samples h3) (rt_apart net rts hn he)⟩

/-- No sample has two labels of the same name. -/
theorem C74_names {ryu : F64 → Bytes} {rf : Bytes → Option F64} (F : FloatText ryu rf)
    (m : Mode) (net : Bool) (rts : List RtCollector) (h : ∀ c ∈ rts, RtOk c.runtime) :
    ∃ e ls, collectRuntimes m net rts (textEncoder m ryu) (TextEnc.new []) = (.ok (), e) ∧
      readLines rf e.writer = some ls ∧ ∀ s ∈ samplesIn ls, LabelNamesDistinct s := by
  obtain ⟨e, ls, h1, h2, h3⟩ := C48_text F m net rts h
  refine ⟨e, ls, h1, h2, ?_⟩
  have h4 := callsLines_samples h3
  rw [rtCalls_expected] at h4
  intro x hx
  obtain ⟨i, hi⟩ := List.mem_iff_getElem?.1 hx
  obtain ⟨y, hy, hr⟩ := forall₂_get h4.flip hi
  obtain ⟨f, hf, hy⟩ := List.mem_flatMap.1 (List.mem_of_getElem? hy)
  obtain ⟨c, _, hy⟩ := List.mem_flatMap.1 hy
  obtain ⟨s, hs, hy⟩ := List.mem_flatMap.1 hy
  obtain ⟨v, ev⟩ := expected_one (rtFamilies_kind net asSecsF64 f hf _ s hs) s.name.text (runtimeLabel c.name ++ s.labels)
  unfold shownAs at hy
  rw [ev, List.mem_singleton] at hy
  obtain ⟨L, hL, hL'⟩ := (fam_apart net f hf).labels
  unfold LabelNamesDistinct
  rw [labelsRead_names hr.2.1, hy]
  exact labels_nodup (hL _) (hL' _ s hs)

/-- Runtimes of the same name may be added to a collector, and then every scrape shows series twice. -/
theorem C74_same_name_refuted {ryu : F64 → Bytes} {rf : Bytes → Option F64} (F : FloatText ryu rf) (m : Mode)
    (net : Bool) (rt rt' : RtMetrics) (hr : RtOk rt) (hr' : RtOk rt') (n : Bytes) :
    ∃ e ls, collectRuntimes m net (addRuntime (addRuntime [] rt n) rt' n) (textEncoder m ryu) (TextEnc.new []) = (.ok (), e) ∧
      readLines rf e.writer = some ls ∧ ¬ SeriesDistinct (samplesIn ls) := by
  obtain ⟨e, ls, h1, h2, h3⟩ := C48_text F m net (addRuntime (addRuntime [] rt n) rt' n) (by
    intro c hc
    simp only [addRuntime, List.nil_append, List.cons_append, List.mem_cons, List.not_mem_nil, or_false] at hc
    rcases hc with rfl | rfl
    · exact hr
    · exact hr')
  refine ⟨e, ls, h1, h2, ?_⟩
  have h4 := callsLines_samples h3
  rw [rtCalls_expected] at h4
  obtain ⟨a, b, hab⟩ : [(⟨b!"active_tasks", [(b!"runtime", .str n)], .int rt.activeTasks⟩ : Expected),
      ⟨b!"active_tasks", [(b!"runtime", .str n)], .int rt'.activeTasks⟩] <:+:
      ((rtFamilies asSecsF64 net).flatMap fun f => (addRuntime (addRuntime [] rt n) rt' n).flatMap fun c =>
        (f.samples c.runtime).flatMap (shownAs c)) := by
    refine List.IsInfix.trans ?_ (infix_flatMap (x := ⟨b!"active_tasks", b!"number of active tasks spawned in the runtime",
      fun rt => [⟨.str b!"active_tasks", [], .gauge rt.activeTasks⟩]⟩)
      (List.mem_append.2 (.inl (List.mem_append.2 (.inl (List.mem_of_getElem? (i := 1) rfl))))))
    simp only [addRuntime, List.nil_append, List.cons_append, List.flatMap_cons, List.flatMap_nil, shownAs, Name.text_eq,
      expected, List.append_nil]
    exact List.infix_refl _
  rw [← hab] at h4
  obtain ⟨x, hx, hx'⟩ := forall₂_get h4 (i := a.length) (x := _) (by simp; rfl)
  obtain ⟨y, hy, hy'⟩ := forall₂_get h4 (i := a.length + 1) (x := _) (by simp; rfl)
  have key : ∀ {k : Int} {z : Sample}, SampleReads rf ⟨b!"active_tasks", [(b!"runtime", .str n)], .int k⟩ z →
      z.name = b!"active_tasks" ∧ z.labels = [(b!"runtime", n)] := by
    intro k z hz
    refine ⟨hz.1, ?_⟩
    have h2 := hz.2.1
    generalize z.labels = zl at h2
    cases h2 with
    | cons h2 h3 =>
      cases h3
      obtain ⟨t1, t2⟩ := h2
      rename_i t
      obtain ⟨ta, tb⟩ := t
      simp only [LabelReads] at t1 t2
      rw [← t1, t2]
  intro hd
  obtain ⟨lx, ex⟩ := List.getElem?_eq_some_iff.1 hx
  obtain ⟨ly, ey⟩ := List.getElem?_eq_some_iff.1 hy
  refine List.pairwise_iff_getElem.1 hd a.length (a.length + 1) lx ly (by omega) ?_
  rw [ex, ey]
  refine ⟨by rw [(key hx').1, (key hy').1], fun l => by rw [(key hx').2, (key hy').2]⟩

/-! ### Two runtimes -/

def exRts : List RtCollector := addRuntime (addRuntime [] exRt b!"main") exRt b!"io"

example : RtNamed exRts ∧ ∀ c ∈ exRts, EndsGrow c.runtime := by
  refine ⟨⟨by decide, ?_⟩, ?_⟩
  · intro c hc hn
    simp only [exRts, addRuntime, List.nil_append, List.cons_append, List.mem_cons, List.not_mem_nil, or_false] at hc
    rcases hc with rfl | rfl <;> cases hn
  · have : EndsGrow exRt := by
      intro _ b b' h h'
      have h' : b' < 3 := h'
      have : (b = 0 ∧ b' = 1) ∨ (b = 0 ∧ b' = 2) ∨ (b = 1 ∧ b' = 2) := by omega
      rcases this with ⟨rfl, rfl⟩ | ⟨rfl, rfl⟩ | ⟨rfl, rfl⟩ <;> decide
    intro c hc
    simp only [exRts, addRuntime, List.nil_append, List.cons_append, List.mem_cons, List.not_mem_nil, or_false] at hc
    rcases hc with rfl | rfl <;> exact this

end Measured
