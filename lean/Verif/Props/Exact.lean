import Verif.Props.TextExact
import Verif.Props.RtSeries
import Verif.Props.Derive
import Verif.Props.Process

/-! # When exactly the partial claims about series, labels and processes hold (C46, C56, C57, C61, C74) -/

namespace Measured
open Spec

/-! ## C57 -/

theorem writtenOf_names (n : Name) (ls : Labels) (x : Metric) :
    (∀ w ∈ writtenOf n ls x, w.labels = ls ∨ x.kind = .histogram ∧ ∃ b, w.labels = ls ++ [(b!"le", .float b)]) ∧
    (∃ w ∈ writtenOf n ls x, w.labels = ls) ∧
    (x.kind = .histogram → ∃ w ∈ writtenOf n ls x, ∃ b, w.labels = ls ++ [(b!"le", .float b)]) := by
  cases x with
  | histogram le h =>
    refine ⟨?_, ?_, fun _ => ?_⟩
    · intro w hw
      rcases List.mem_append.1 hw with hw | hw
      · obtain ⟨i, hi⟩ := List.mem_iff_getElem?.1 hw
        rw [List.getElem?_mapIdx] at hi
        obtain ⟨b, _, rfl⟩ := Option.map_eq_some_iff.1 hi
        exact .inr ⟨rfl, _, rfl⟩
      · simp only [List.mem_cons, List.not_mem_nil, or_false] at hw
        rcases hw with rfl | rfl | rfl
        · exact .inr ⟨rfl, _, rfl⟩
        · exact .inl rfl
        · exact .inl rfl
    · exact ⟨⟨.suffix n .sum, ls, .float h.sum⟩, List.mem_append.2 (.inr (by simp)), rfl⟩
    · exact ⟨_, List.mem_append.2 (.inr List.mem_cons_self), _, rfl⟩
  | _ =>
    refine ⟨fun w hw => .inl ?_, ⟨_, List.mem_cons_self, rfl⟩, fun h => nomatch h⟩
    rw [List.mem_singleton.1 hw]

/-- C57, exactly: no sample of a metric has two labels of the same name if and only if the names of its label group are
distinct and, for a histogram, none of them is `le`. -/
theorem C57_iff {ryu : F64 → Bytes} {rf : Bytes → Option F64} (F : FloatText ryu rf) (m : Mode) (x : Metric)
    (hx : Counts64 x) (n : Name) (ls : Labels) (st : TState) (w : Bytes) (hn : MetricNameRe n.text)
    (hl : ∀ l ∈ ls, LabelNameRe l.1) :
    ∃ out, ∃ ss : List Sample, textSample m ryu x ls n ⟨st, w⟩ = (.ok (), ⟨.metrics, w ++ out⟩) ∧
      readLines rf out = some (ss.map .sample) ∧
      ((∀ s ∈ ss, LabelNamesDistinct s) ↔
        (ls.map Prod.fst).Nodup ∧ (x.kind = .histogram → b!"le" ∉ ls.map Prod.fst)) := by
  rw [Name.text_eq] at hn
  refine ⟨_, _, textSample_bytes m ryu x ls n ⟨st, w⟩ (counts64_sizeOk hx), readLines_written F _ (writtenOf_valid hn hl x), ?_⟩
  obtain ⟨h1, ⟨w2, hw2, e2⟩, h3⟩ := writtenOf_names n ls x
  have hf : ∀ ls : Labels, (textsOf ryu ls).map Prod.fst = ls.map Prod.fst := by
    intro ls; simp [textsOf, Function.comp_def]
  have hle : ∀ b : F64, (ls ++ [(b!"le", LVal.float b)]).map Prod.fst = ls.map Prod.fst ++ [b!"le"] := by simp
  constructor
  · intro h
    constructor
    · have := h _ (List.mem_map_of_mem hw2)
      simpa [LabelNamesDistinct, Written.sample, hf, e2] using this
    · intro hk hmem
      obtain ⟨w3, hw3, b, e3⟩ := h3 hk
      have := h _ (List.mem_map_of_mem hw3)
      simp only [LabelNamesDistinct, Written.sample, hf, e3, hle] at this
      exact (List.nodup_append.1 this).2.2 _ hmem _ (by simp) rfl
  · rintro ⟨hd, hk⟩ s hs
    obtain ⟨w, hw, rfl⟩ := List.mem_map.1 hs
    simp only [LabelNamesDistinct, Written.sample, hf]
    rcases h1 w hw with e | ⟨e, b, eb⟩
    · rwa [e]
    · rw [eb, hle]
      refine List.nodup_append.2 ⟨hd, by simp, ?_⟩
      intro a ha c hc
      rw [List.mem_singleton] at hc
      subst hc
      rintro rfl
      exact hk e ha

/-! ## C56 -/

theorem labelFloat_canon (ryu : F64 → Bytes) {x y : F64} (h : canon x = canon y) : labelFloat ryu x = labelFloat ryu y := by
  have hnan : F64.nan.isNaN = true := by decide
  unfold canon at h
  split at h <;> split at h
  · rename_i p q
    have hi : ∀ z : F64, z.isNaN = true → z.isInf = false := by
      intro z hz
      simp only [F64.isInf, F64.isNaN, decide_eq_true_eq, beq_eq_false_iff_ne] at hz ⊢; omega
    unfold labelFloat
    simp only [hi x p, hi y q, p, q, if_true, Bool.false_eq_true, if_false]
  · rename_i q; rw [← h] at q; exact absurd hnan q
  · rename_i q _; rw [h] at q; exact absurd hnan q
  · rw [h]

theorem differ_canon {x y : F64} (h : canon x ≠ canon y) : LVal.Differ (.float x) (.float y) := by
  refine ⟨fun e => h (by rw [e]), ?_⟩
  by_contra hn
  simp only [not_or, Bool.not_eq_false] at hn
  exact h (by unfold canon; rw [if_pos hn.1, if_pos hn.2])

theorem writtenOf_buckets (n : Name) (ls : Labels) (le : List F64) (h : HistInner) :
    ∃ vs : List MValue, ∃ v v' : MValue, vs.length = le.length + 1 ∧ writtenOf n ls (.histogram le h) =
      List.zipWith (fun b v => ⟨.suffix n .bucket, ls ++ [(b!"le", .float b)], v⟩) (le ++ [F64.infinity]) vs ++
      [⟨.suffix n .sum, ls, v⟩, ⟨.suffix n .count, ls, v'⟩] := by
  refine ⟨(List.range le.length).map (fun i => .int (asI64 (h.buckets.take (i + 1)).sum)) ++
    [.int (asI64 (h.buckets.sum + h.inf))], .float h.sum, .int (asI64 (h.buckets.sum + h.inf)), by simp, ?_⟩
  simp only [writtenOf]
  rw [List.zipWith_append (by simp)]
  simp only [List.zipWith_cons_cons, List.zipWith_nil_right, List.append_assoc, List.cons_append, List.nil_append]
  congr 1
  apply List.ext_getElem?
  intro i
  simp only [List.getElem?_mapIdx, List.getElem?_zipWith, List.getElem?_map]
  by_cases hi : i < le.length
  · simp [hi]
  · simp [hi]

theorem hist_series_iff {ryu : F64 → Bytes} {rf : Bytes → Option F64} (F : FloatText ryu rf) (R : ReadsSpecial rf)
    (le : List F64) (h : HistInner) (n : Name) (ls : Labels) (hd : (ls.map Prod.fst).Nodup)
    (hle : b!"le" ∉ ls.map Prod.fst) :
    SeriesDistinct ((writtenOf n ls (.histogram le h)).map (Written.sample ryu)) ↔
      ((le ++ [F64.inf false]).map canon).Nodup := by
  obtain ⟨vs, v, v', hlen, e⟩ := writtenOf_buckets n ls le h
  have hinf : F64.infinity = F64.inf false := rfl
  rw [hinf] at e
  rw [e]
  generalize hB : le ++ [F64.inf false] = B at *
  have hBl : B.length = vs.length := by rw [← hB, hlen]; simp
  rw [List.nodup_iff_pairwise_ne, List.pairwise_map]
  have hget : ∀ i (hi : i < B.length), ∃ hi' : i < (List.zipWith (fun b v => (⟨.suffix n .bucket, ls ++ [(b!"le", .float b)], v⟩ : Written)) B vs).length,
      (List.zipWith (fun b v => (⟨.suffix n .bucket, ls ++ [(b!"le", .float b)], v⟩ : Written)) B vs)[i] =
        ⟨.suffix n .bucket, ls ++ [(b!"le", .float B[i])], vs[i]⟩ := by
    intro i hi
    exact ⟨by simp only [List.length_zipWith]; omega, by simp⟩
  constructor
  · intro hs
    rw [List.pairwise_iff_getElem]
    intro i j hi hj hij hc
    unfold SeriesDistinct at hs
    rw [List.map_append, List.pairwise_append] at hs
    have hs := hs.1
    rw [List.pairwise_map, List.pairwise_iff_getElem] at hs
    obtain ⟨hi', ei⟩ := hget i hi
    obtain ⟨hj', ej⟩ := hget j hj
    refine hs i j hi' hj' hij ?_
    rw [ei, ej]
    refine ⟨rfl, fun l => ?_⟩
    simp only [Written.sample]
    have : textsOf ryu (ls ++ [(b!"le", LVal.float B[i])]) = textsOf ryu (ls ++ [(b!"le", LVal.float B[j])]) := by
      simp only [textsOf, List.map_append, List.map_cons, List.map_nil, labelText, labelFloat_canon ryu hc]
    rw [this]
  · intro hp
    have hnames : ∀ b : F64, ((ls ++ [(b!"le", LVal.float b)]).map Prod.fst).Nodup := by
      intro b
      rw [List.map_append]
      refine List.nodup_append.2 ⟨hd, by simp, ?_⟩
      intro a ha c hc
      simp only [List.map_cons, List.map_nil, List.mem_singleton] at hc
      subst hc
      rintro rfl
      exact hle ha
    let toE : Written → Expected := fun w => ⟨w.name.render, w.labels, valOf w.value⟩
    have hr : ∀ ws : List Written, List.Forall₂ (SampleReads rf) (ws.map toE) (ws.map (Written.sample ryu)) := by
      intro ws
      rw [List.forall₂_map_left_iff, List.forall₂_map_right_iff]
      exact List.forall₂_same.2 fun w _ => ⟨rfl, labelsRead_texts F _, rfl⟩
    refine apart_distinct R (hr _) ?_
    have hne1 : n.render ++ b!"_bucket" ≠ n.render ++ b!"_sum" := by simp
    have hne2 : n.render ++ b!"_bucket" ≠ n.render ++ b!"_count" := by simp
    have hne3 : n.render ++ b!"_sum" ≠ n.render ++ b!"_count" := by simp
    rw [List.map_append, List.pairwise_append]
    refine ⟨?_, ?_, ?_⟩
    · rw [List.pairwise_map, List.pairwise_iff_getElem]
      intro i j hi hj hij
      have hi2 : i < B.length := by simp only [List.length_zipWith] at hi; omega
      have hj2 : j < B.length := by simp only [List.length_zipWith] at hj; omega
      obtain ⟨_, ei⟩ := hget i hi2
      obtain ⟨_, ej⟩ := hget j hj2
      rw [ei, ej]
      exact .inr ⟨by simp [toE], hnames _, labelsDiffer_last (differ_canon (List.pairwise_iff_getElem.1 hp i j hi2 hj2 hij))⟩
    · simp only [List.map_cons, List.map_nil, List.pairwise_cons, List.mem_singleton, List.not_mem_nil, false_imp_iff,
        implies_true, List.Pairwise.nil, and_true, forall_eq]
      exact .inl hne3
    · intro a ha b hb
      obtain ⟨x, hx, rfl⟩ := List.mem_map.1 ha
      obtain ⟨i, hi, rfl⟩ := List.mem_iff_getElem.1 hx
      have hi2 : i < B.length := by simp only [List.length_zipWith] at hi; omega
      obtain ⟨_, ei⟩ := hget i hi2
      rw [ei]
      simp only [List.map_cons, List.map_nil, List.mem_cons, List.not_mem_nil, or_false] at hb
      rcases hb with rfl | rfl
      · exact .inl hne1
      · exact .inl hne2

/-- C56, exactly, for one histogram with any bounds and 64 bit counts, whose labels have distinct names and none called
`le`: no series is shown twice if and only if the bounds, together with `+Inf`, are distinct. (All NaN are alike.) -/
theorem C56_histogram_iff {ryu : F64 → Bytes} {rf : Bytes → Option F64} (F : FloatText ryu rf) (R : ReadsSpecial rf)
    (m : Mode) (le : List F64) (h : HistInner) (hx : Counts64 (.histogram le h)) (n : Name) (ls : Labels) (st : TState)
    (w : Bytes) (hn : MetricNameRe n.text) (hl : ∀ l ∈ ls, LabelNameRe l.1) (hd : (ls.map Prod.fst).Nodup)
    (hle : b!"le" ∉ ls.map Prod.fst) :
    ∃ out, ∃ ss : List Sample, textSample m ryu (.histogram le h) ls n ⟨st, w⟩ = (.ok (), ⟨.metrics, w ++ out⟩) ∧
      readLines rf out = some (ss.map .sample) ∧
      (SeriesDistinct ss ↔ ((le ++ [F64.inf false]).map canon).Nodup) := by
  rw [Name.text_eq] at hn
  refine ⟨_, _, textSample_bytes m ryu _ ls n ⟨st, w⟩ (counts64_sizeOk hx), readLines_written F _ (writtenOf_valid hn hl _),
    hist_series_iff F R le h n ls hd hle⟩

example : (([F64.one] ++ [F64.inf false]).map canon).Nodup := by decide +kernel
example : ¬ (([F64.one, F64.inf false] ++ [F64.inf false]).map canon).Nodup := by decide +kernel
example : Counts64 (.histogram [F64.one, F64.inf false] ⟨[1, 2], 3, F64.one⟩) := ⟨rfl, by decide⟩

/-! ## C26 -/

/-- C26, exactly what is shown, for all fewer than 2^64 observations including NaN and all non-decreasing thresholds: the
bucket of the bound `b` shows, as a signed number, the number of observations that are not above `b`; the `+Inf` bucket
and `_count` that of all observations. -/
theorem C26_exact {ryu : F64 → Bytes} {rf : Bytes → Option F64} (F : FloatText ryu rf) (m : Mode)
    (le xs : List F64) (hle : NonDecreasing le) (hx : xs.length < 2 ^ 64)
    (ls : Labels) (n : Name) (st : TState) (w : Bytes) (hn : MetricNameRe n.text) (hls : ∀ l ∈ ls, LabelNameRe l.1) :
    ∃ h out samples, histObserveAll le (HistInner.default le.length) xs = .ok h ∧
      textSample m ryu (.histogram le h) ls n ⟨st, w⟩ = (.ok (), ⟨.metrics, w ++ out⟩) ∧
      readLines rf out = some (samples.map .sample) ∧
      List.Forall₂ (SampleReads rf) (histogramShape n.text ls (le ++ [F64.inf false])
        ((le.map fun b => signed (xs.filter fun x => !F64.flt b x).length) ++ [signed xs.length])
        (xs.foldl F64.add F64.pzero) (signed xs.length)) samples := by
  rw [Spec.NonDecreasing.iff_pairwise] at hle
  obtain ⟨h, he, ha⟩ := histAfter_all hle xs [] _ (histAfter_default le)
  rw [List.nil_append] at ha
  obtain ⟨hc, ht⟩ := histAfter_counts hle ha hx
  have hl : le.length = h.buckets.length := by rw [ha.buckets]; simp
  obtain ⟨⟨out, samples, e1, e2, e3⟩, _⟩ :=
    C29_exact F m le h ⟨hl, by rw [ht]; exact hx⟩ ls n st w hn hls
  refine ⟨h, out, samples, he, e1, e2, ?_⟩
  have hcounts : (runningTotals h).map signed =
      (le.map fun b => signed (xs.filter fun x => !F64.flt b x).length) ++ [signed xs.length] := by
    unfold runningTotals
    rw [List.map_append, ht]
    congr 1
    apply List.ext_getElem?
    intro i
    simp only [List.map_map, List.getElem?_map]
    by_cases hi : i < le.length
    · rw [List.getElem?_range (by omega), List.getElem?_eq_getElem hi]
      have := hc i le[i] (List.getElem?_eq_getElem hi)
      simp [this, notAbove, List.countP_eq_length_filter]
    · rw [List.getElem?_eq_none (by simp; omega), List.getElem?_eq_none (by omega)]
      rfl
  rw [hcounts, ha.sum, ht] at e3
  exact e3

/-! ## C74 -/

/-- C74, exactly, for runtimes with names whose buckets can be told apart: no series is shown twice if and only if the names
differ. -/
theorem C74_iff {ryu : F64 → Bytes} {rf : Bytes → Option F64} (F : FloatText ryu rf) (R : ReadsSpecial rf)
    (m : Mode) (net : Bool) (rts : List RtCollector) (h : ∀ c ∈ rts, RtOk c.runtime) (hn : ∀ c ∈ rts, c.name ≠ none)
    (he : ∀ c ∈ rts, EndsGrow c.runtime) :
    ∃ e ls, collectRuntimes m net rts (textEncoder m ryu) (TextEnc.new []) = (.ok (), e) ∧
      readLines rf e.writer = some ls ∧ (SeriesDistinct (samplesIn ls) ↔ (rts.map RtCollector.name).Nodup) := by
  obtain ⟨e, ls, h1, h2, h3⟩ := C48_text F m net rts h
  refine ⟨e, ls, h1, h2, fun hd => ?_, fun hd => ?_⟩
  · rw [List.nodup_iff_pairwise_ne, List.pairwise_map, List.pairwise_iff_getElem]
    intro i j hi hj hij hname
    have h4 := callsLines_samples h3
    rw [rtCalls_expected] at h4
    obtain ⟨a, b, hab⟩ : (rts.map fun c => (⟨b!"active_tasks", runtimeLabel c.name, .int c.runtime.activeTasks⟩ : Expected)) <:+:
        ((rtFamilies asSecsF64 net).flatMap fun f => rts.flatMap fun c =>
          (f.samples c.runtime).flatMap (Measured.shownAs c)) := by
      refine List.IsInfix.trans ?_ (infix_flatMap (x := ⟨b!"active_tasks", b!"number of active tasks spawned in the runtime",
        fun rt => [⟨.str b!"active_tasks", [], .gauge rt.activeTasks⟩]⟩)
        (List.mem_append.2 (.inl (List.mem_append.2 (.inl (List.mem_of_getElem? (i := 1) rfl))))))
      simp only [List.flatMap_cons, List.flatMap_nil, Measured.shownAs, Name.text_eq, expected, List.append_nil]
      rw [List.map_eq_flatMap]
      exact List.infix_refl _
    rw [← hab] at h4
    obtain ⟨x, hx, hx'⟩ := forall₂_get h4 (i := a.length + i)
      (x := ⟨b!"active_tasks", runtimeLabel rts[i].name, .int rts[i].runtime.activeTasks⟩) (by
        rw [List.append_assoc, List.getElem?_append_right (by omega), Nat.add_sub_cancel_left,
          List.getElem?_append_left (by simpa using hi)]
        simp [hi])
    obtain ⟨y, hy, hy'⟩ := forall₂_get h4 (i := a.length + j)
      (x := ⟨b!"active_tasks", runtimeLabel rts[j].name, .int rts[j].runtime.activeTasks⟩) (by
        rw [List.append_assoc, List.getElem?_append_right (by omega), Nat.add_sub_cancel_left,
          List.getElem?_append_left (by simpa using hj)]
        simp [hj])
    obtain ⟨nm, hnm⟩ := Option.ne_none_iff_exists'.1 (hn rts[i] (by simp))
    have hnm' : rts[j].name = some nm := by rw [← hname, hnm]
    rw [hnm] at hx'
    rw [hnm'] at hy'
    have key : ∀ {k : Int} {z : Sample}, SampleReads rf ⟨b!"active_tasks", runtimeLabel (some nm), .int k⟩ z →
        z.name = b!"active_tasks" ∧ z.labels = [(b!"runtime", nm)] := by
      intro k z hz
      refine ⟨hz.1, ?_⟩
      have h2 := hz.2.1
      simp only [runtimeLabel] at h2
      generalize z.labels = zl at h2
      cases h2 with
      | cons h2 h3 =>
        cases h3
        obtain ⟨t1, t2⟩ := h2
        rename_i t
        obtain ⟨ta, tb⟩ := t
        simp only [LabelReads] at t1 t2
        rw [← t1, t2]
    obtain ⟨lx, ex⟩ := List.getElem?_eq_some_iff.1 hx
    obtain ⟨ly, ey⟩ := List.getElem?_eq_some_iff.1 hy
    refine List.pairwise_iff_getElem.1 hd (a.length + i) (a.length + j) lx ly (by omega) ?_
    rw [ex, ey]
    exact ⟨by rw [(key hx').1, (key hy').1], fun l => by rw [(key hx').2, (key hy').2]⟩
  · exact apart_distinct R (callsLines_samples h3) (rt_apart net rts ⟨hd, fun c hc hnone => absurd hnone (hn c hc)⟩ he)

example : (∀ c ∈ exRts, c.name ≠ none) ∧ (exRts.map RtCollector.name).Nodup := by
  refine ⟨?_, by decide⟩
  intro c hc
  simp only [exRts, addRuntime, List.nil_append, List.cons_append, List.mem_cons, List.not_mem_nil, or_false] at hc
  rcases hc with rfl | rfl <;> exact (nomatch ·)

/-! ## C61 -/

theorem escape_injective {a b : Bytes} (h : escape a = escape b) : a = b := by
  have h1 := readQuoted_escape a []
  have h2 := readQuoted_escape b []
  rw [h, h2] at h1
  simpa using h1.symm

/-- The text of a label, as it is written between the braces: equal if and only if the values are written alike. -/
theorem visitLabel_same (ryu : F64 → Bytes) (x y : LVal) :
    (visitLabel ryu x : RS Bytes Unit) [] = visitLabel ryu y [] ↔ labelText ryu x = labelText ryu y := by
  rw [visitLabel_bytes, visitLabel_bytes]
  constructor
  · intro h
    simp only [List.nil_append, Prod.mk.injEq, true_and] at h
    exact escape_injective (List.append_cancel_left (List.append_cancel_right h))
  · intro h; rw [h]

/-- C61, refuted also if no variant is renamed alike: a discriminant and a name may be written alike. -/
theorem C61_number_refuted (heck : Derive.RenameAll → Bytes → Bytes) (ryu : F64 → Bytes) {P : Type} :
    ∃ (vs : List Derive.Variant) (v v' : Derive.Variant), vs = [v, v'] ∧ (vs.map Derive.Variant.ident).Nodup ∧
      (Derive.discriminants 0 vs).Nodup ∧ v.rename ≠ v'.rename ∧
      (visitLabel ryu (Derive.variantLabel heck (⟨none, none, none⟩ : Derive.EnumAttrs P) v) : RS Bytes Unit) [] = (.ok (), b!"=\"7\"") ∧
      (visitLabel ryu (Derive.variantLabel heck (⟨none, none, none⟩ : Derive.EnumAttrs P) v') : RS Bytes Unit) [] = (.ok (), b!"=\"7\"") := by
  refine ⟨_, ⟨b!"A", none, some 7⟩, ⟨b!"B", some b!"7", none⟩, rfl, by decide, by decide, by decide, ?_, ?_⟩
  · have : itoa 7 = b!"7" := by decide +kernel
    rw [visitLabel_bytes]
    simp only [Derive.variantLabel, labelText, this]
    rfl
  · rw [visitLabel_bytes]
    rfl

/-- C61, exactly: two different variants of an enum that compiles are shown alike if and only if both have a string (given,
or made from the name) and it is the same, or one has a number for its discriminant and the other has the digits of that
number for its string. -/
theorem C61_shown_alike_iff {P : Type} (heck : Derive.RenameAll → Bytes → Bytes) (ryu : F64 → Bytes) (a : Derive.EnumAttrs P)
    (vs : List Derive.Variant) (hd : (Derive.discriminants 0 vs).Nodup) {i j : Nat} (hi : i < vs.length) (hj : j < vs.length)
    (hij : i ≠ j) (str : Derive.Variant → Bytes)
    (hstr : ∀ v, str v = v.rename.getD (heck (a.renameAll.getD .snake) v.ident)) :
    (visitLabel ryu (Derive.variantLabel heck a vs[i]) : RS Bytes Unit) [] = visitLabel ryu (Derive.variantLabel heck a vs[j]) [] ↔
      (vs[i].disc = none ∧ vs[j].disc = none ∧ str vs[i] = str vs[j]) ∨
      (∃ k, vs[i].disc = some k ∧ vs[j].disc = none ∧ str vs[j] = itoa k) ∨
      (∃ k, vs[i].disc = none ∧ vs[j].disc = some k ∧ str vs[i] = itoa k) := by
  rw [visitLabel_same]
  have ht : ∀ v : Derive.Variant, labelText ryu (Derive.variantLabel heck a v) =
      match v.disc with | some k => itoa k | none => str v := by
    intro v
    unfold Derive.variantLabel
    cases v.disc with
    | none => exact (hstr v).symm
    | some k => rfl
  rw [ht, ht]
  cases hx : vs[i].disc with
  | none =>
    cases hy : vs[j].disc with
    | none => simp
    | some y => simp
  | some x =>
    cases hy : vs[j].disc with
    | none => simp [eq_comm]
    | some y =>
      simp only [reduceCtorEq, false_and, and_false, exists_false, or_false, iff_false]
      intro h
      have hxy : x = y := by have := congrArg readInt h; rw [readInt_itoa, readInt_itoa] at this; simpa using this
      subst hxy
      have := C61_labels_partial heck a vs hd hi hj (by unfold Derive.variantLabel; rw [hx, hy])
      rcases this with h | ⟨h, _⟩
      · exact hij h
      · rw [hx] at h; cases h

example : (visitLabel exRyu (.int 7) : RS Bytes Unit) [] = visitLabel exRyu (.str b!"7") [] := by decide +kernel

/-! ## C46 -/

/-- C46, exactly: a collector made with `new(pid)` shows descriptors, memory, cpu and threads of the process `pid` and the
start time of the process that made the collector. (`q` is that process at the time.) -/
theorem C46_exact {ryu : F64 → Bytes} {rf : Bytes → Option F64} (F : FloatText ryu rf) (m : Mode) (os₀ os : Os) (pid : Int)
    (q p : ProcInfo) (hq : os₀.procs os₀.self = some q) (hp : os.procs pid = some p)
    (ho₀ : OsOk os₀) (hq' : ProcOk os₀ q) (ho : OsOk os) (hok : ProcOk os p) :
    ∃ c e, ProcessCollector.new m os₀ pid = .ok c ∧
      c.collect m os (textEncoder m ryu) (TextEnc.new []) = (.ok (), e) ∧
      readFamilies rf e.writer = some ((usageFacts os p ++ startFacts (startOf os₀ q)).map Fact.family) ∧
      (readFamilies rf e.writer = some ((processFacts os p).map Fact.family) ↔
        startOf os₀ q = startOf os p) := by
  refine ⟨⟨pid, startOf os₀ q⟩, ?_⟩
  obtain ⟨e, h1, h2⟩ := C46_usage_partial F m os ⟨pid, startOf os₀ q⟩ p hp ho hok
  refine ⟨e, new_ok m os₀ ho₀ _ q hq hq', h1, h2, ?_⟩
  rw [h2]
  simp only [processFacts, Option.some.injEq, List.map_append, List.append_cancel_left_eq]
  cases startOf os₀ q <;> cases startOf os p <;> simp [startFacts, Fact.family]

end Measured
