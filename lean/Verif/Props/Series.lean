import Verif.Spec.Series
import Verif.Model.Visit
import Verif.Props.Api
import Verif.Props.Name

/-! # Properties of series and of duration histograms (C55, C56, C57) -/

namespace Measured
open Measured.Spec F64

/-! ## C55: durations -/

theorem atMost_map (f : Nat → F64) (b : F64) (ds : List Nat) :
    atMost b (ds.map f) = (ds.filter fun d => fle (f d) b).length := by
  unfold atMost
  rw [List.filter_map, List.length_map]
  rfl

theorem atMost_exact (f : Nat → F64) (D : Nat) (ds : List Nat) (h : ∀ d ∈ ds, fle (f d) (f D) = true ↔ d ≤ D) :
    atMost (f D) (ds.map f) = (ds.filter fun d => d ≤ D).length := by
  rw [atMost_map]
  congr 1
  apply List.filter_congr
  intro d hd
  rw [Bool.eq_iff_iff, decide_eq_true_eq]
  exact h d hd

theorem fle_flt_absurd {x y : F64} (h : fle x y = true) (h' : flt y x = true) : False := by
  have := flt_of_le_of_lt h h'
  simp [flt] at this

theorem duration_bucket (D : Nat) (hD : D / 10 ^ 9 < 2 ^ 64) (ds : List Nat) (hds : ∀ d ∈ ds, d / 10 ^ 9 < 2 ^ 64) :
    (ds.filter fun d => d ≤ D).length ≤ atMost (asSecsF64 D) (ds.map asSecsF64) ∧
    atMost (asSecsF64 D) (ds.map asSecsF64) ≤ (ds.filter fun d => d ≤ D ∨ 2 ^ 49 * (d - D) < d).length := by
  rw [atMost_map, ← List.countP_eq_length_filter, ← List.countP_eq_length_filter, ← List.countP_eq_length_filter]
  constructor
  · apply List.countP_mono_left
    intro d _ h
    exact C51_monotone (by simpa using h) hD
  · apply List.countP_mono_left
    intro d hd h
    rw [decide_eq_true_eq]
    by_contra hn
    rw [not_or] at hn
    exact fle_flt_absurd h (C51_gap (d := D) (d' := d) (by omega) (by omega) (hds d hd))

theorem duration_exact (D : Nat) (hD : D ≤ 2 ^ 50) (ds : List Nat) (hds : ∀ d ∈ ds, d ≤ 2 ^ 50) :
    atMost (asSecsF64 D) (ds.map asSecsF64) = (ds.filter fun d => d ≤ D).length := by
  exact atMost_exact asSecsF64 D ds fun d hd => ⟨fun h => by
    by_contra hn
    exact fle_flt_absurd h (C51_strict (d := D) (d' := d) (by omega) (hds d hd)), fun h => C51_monotone h (by omega)⟩

theorem not_flt_iff_fle (f : Nat → F64) (D : Nat) (ds : List Nat) (hD : fle (f D) (f D) = true)
    (hf : ∀ d ∈ ds, fle (f d) (f d) = true) :
    notAbove (f D) (ds.map f) = atMost (f D) (ds.map f) := by
  unfold notAbove atMost
  rw [List.countP_eq_length_filter]
  congr 1
  apply List.filter_congr
  intro x hx
  obtain ⟨d, hd, rfl⟩ := List.mem_map.1 hx
  rw [Bool.eq_iff_iff]
  have nn : ∀ x : F64, fle x x = true → x.isNaN = false := by
    intro x h
    simp only [fle, Bool.and_eq_true, Bool.not_eq_true'] at h
    simp_all
  simpa using not_flt (nn _ hD) (nn _ (hf d hd))

theorem duration_counts (f : Nat → F64) (le : List F64) (hle : NonDecreasing le) (us : List (Use HistCall)) (ds : List Nat)
    (hus : us.map (fun u => HistCall.value (Use.call u)) = ds.map f) (hlen : ds.length < 2 ^ 64) :
    ∃ h, (histOps le).uses (histOps le).dflt us = .ok h ∧
      ∀ i b, le[i]? = some b → (h.buckets.take (i + 1)).sum = notAbove b (ds.map f) := by
  obtain ⟨h, e1, e2⟩ := C53_histogram le us
  rw [hus] at e2
  rw [Spec.NonDecreasing.iff_pairwise] at hle
  obtain ⟨h', he, ha⟩ := histAfter_all hle (ds.map f) [] _ (histAfter_default le)
  rw [e2] at he
  cases he
  exact ⟨h, e1, (histAfter_counts hle ha (by simpa [W64] using hlen)).1⟩

theorem value_duration (d : Nat) : HistCall.value (.observeDuration d) = asSecsF64 d := by
  rw [HistCall.value]

theorem map_map_eq {A B C : Type} (v : B → C) (o : A → B) (f : A → C) (h : ∀ d, v (o d) = f d) (ds : List A) :
    (ds.map o).map v = ds.map f := by
  rw [List.map_map]
  exact List.map_congr_left fun d _ => h d

/-- C55. In a histogram that is used with `observe_duration` (also through timers), the bucket whose bound is the duration
`D` in seconds counts, together with those below, at least the observed durations that are at most `D`, and none that is
longer by one part in `2^49` or more. Up to 13 days it counts exactly the former. -/
theorem C55_histogram (le : List F64) (hle : NonDecreasing le) (us : List (Use HistCall)) (ds : List Nat)
    (hus : us.map Use.call = ds.map .observeDuration) (hlen : ds.length < 2 ^ 64) (hds : ∀ d ∈ ds, d / 10 ^ 9 < 2 ^ 64) :
    ∃ h, (histOps le).uses (histOps le).dflt us = .ok h ∧
      ∀ i D, le[i]? = some (asSecsF64 D) → D / 10 ^ 9 < 2 ^ 64 →
        (ds.filter fun d => d ≤ D).length ≤ (h.buckets.take (i + 1)).sum ∧
        (h.buckets.take (i + 1)).sum ≤ (ds.filter fun d => d ≤ D ∨ 2 ^ 49 * (d - D) < d).length ∧
        (D ≤ 2 ^ 50 → (∀ d ∈ ds, d ≤ 2 ^ 50) → (h.buckets.take (i + 1)).sum = (ds.filter fun d => d ≤ D).length) := by
  have hus' : us.map (fun u => HistCall.value (Use.call u)) = ds.map asSecsF64 := by
    rw [← Function.comp_def HistCall.value Use.call, ← List.map_map, hus]
    exact map_map_eq _ _ _ value_duration ds
  obtain ⟨h, e, hc⟩ := duration_counts asSecsF64 le hle us ds hus' hlen
  refine ⟨h, e, fun i D hi hD => ?_⟩
  rw [hc i _ hi, not_flt_iff_fle asSecsF64 D ds (C51_monotone (Nat.le_refl _) hD) fun d hd => C51_monotone (Nat.le_refl _) (hds d hd)]
  obtain ⟨a1, a2⟩ := duration_bucket D hD ds hds
  exact ⟨a1, a2, fun h1 h2 => duration_exact D h1 ds h2⟩

set_option exponentiation.threshold 3000 in
example : ((histOps [asSecsF64 1500000000]).uses (HistInner.default 1)
    ([1499999999, 1500000000, 1500000001].map fun d => .shared (.observeDuration d))).map (fun h => (h.buckets, h.inf)) =
    .ok ([2], 1) := by decide +kernel

set_option exponentiation.threshold 3000 in
example : atMost (asSecsF64 1500000000) ([1499999999, 1500000000, 1500000001].map asSecsF64) = 2 := by decide +kernel

/-! ## C56, C57 -/

theorem labelReads_differ {rf : Bytes → Option F64} (R : ReadsSpecial rf) {a b : LVal} (h : LVal.Differ a b) (t : Bytes)
    (ha : LabelReads rf a t) (hb : LabelReads rf b t) : False := by
  cases a with
  | str s =>
    cases b with
    | str s' => exact h (by simp only [LabelReads] at ha hb; rw [← ha, ← hb])
    | int _ => exact h (by simp only [LabelReads] at ha hb; rw [← ha]; exact hb)
    | float _ => exact h
  | int x =>
    cases b with
    | int y => exact h (by simp only [LabelReads] at ha hb; rw [ha] at hb; simpa using hb)
    | str _ => exact h (by simp only [LabelReads] at ha hb; rw [← hb]; exact ha)
    | float _ => exact h
  | float x =>
    cases b with
    | str _ => exact h
    | int _ => exact h
    | float y =>
      have key : ∀ x : F64, LabelReads rf (.float x) t → rf t = some (canon x) := by
        intro x hx
        simp only [LabelReads] at hx
        unfold canon
        split at hx
        · rename_i hi
          have hnn : x.isNaN = false := by
            simp only [isInf, isNaN, decide_eq_false_iff_not, beq_iff_eq] at hi ⊢; omega
          rw [if_neg (by simp [hnn])]
          have hxe : x = F64.inf x.sign := by
            apply F64.ext'
            · cases x.sign <;> decide
            · simp only [isInf, beq_iff_eq] at hi
              rw [hi]; cases x.sign <;> decide
          rw [hx]
          split
          · rename_i hs; rw [R.negInf, hxe, hs]
          · rename_i hs
            have : x.sign = false := by simpa using hs
            rw [R.inf, hxe, this]
        · split at hx
          · rename_i hn; rw [if_pos hn, hx, R.nan]
          · rename_i hn; rw [if_neg hn, hx]
      have h1 := key x ha
      have h2 := key y hb
      rw [h1] at h2
      have h3 : canon x = canon y := by simpa using h2
      unfold canon at h3
      have hnan : F64.nan.isNaN = true := by decide
      split at h3 <;> split at h3
      · rename_i p q
        rcases h.2 with h | h
        · rw [p] at h; cases h
        · rw [q] at h; cases h
      · rename_i p q; rw [← h3] at q; exact q hnan
      · rename_i p q; rw [h3] at p; exact p hnan
      · exact h.1 h3

theorem labelsRead_names {rf : Bytes → Option F64} {ls : Labels} {ts : List (Bytes × Bytes)} (h : LabelsRead rf ls ts) :
    ts.map Prod.fst = ls.map Prod.fst := by
  induction h with
  | nil => rfl
  | cons h _ ih => rw [List.map_cons, List.map_cons, ih, h.1]

theorem labelsRead_get {rf : Bytes → Option F64} {ls : Labels} {ts : List (Bytes × Bytes)} (h : LabelsRead rf ls ts) :
    ∀ {i : Nat} {x : Bytes × LVal}, ls[i]? = some x → ∃ t, ts[i]? = some (x.1, t) ∧ LabelReads rf x.2 t := by
  induction h with
  | nil => intro i x hx; simp at hx
  | @cons l t ls ts h _ ih =>
    intro i x hx
    cases i with
    | zero =>
      simp only [List.getElem?_cons_zero, Option.some.injEq] at hx
      subst hx
      exact ⟨t.2, by simp [h.1], h.2⟩
    | succ i => simpa using ih (by simpa using hx)

/-- Lists of pairs with the same distinct keys are equal if they have the same members. -/
theorem eq_of_same_members {a b : List (Bytes × Bytes)} (hk : a.map Prod.fst = b.map Prod.fst)
    (hn : (a.map Prod.fst).Nodup) (h : ∀ l, l ∈ a ↔ l ∈ b) : a = b := by
  apply List.ext_getElem?
  intro i
  cases ha : a[i]? with
  | none =>
    have hla : a.length = b.length := by simpa using congrArg List.length hk
    rw [List.getElem?_eq_none_iff] at ha
    exact (List.getElem?_eq_none (by omega)).symm
  | some x =>
    have hx : x ∈ b := (h x).1 (List.mem_of_getElem? ha)
    obtain ⟨j, hj⟩ := List.mem_iff_getElem?.1 hx
    have h1 : (a.map Prod.fst)[i]? = some x.1 := by rw [List.getElem?_map, ha]; rfl
    have h2 : (a.map Prod.fst)[j]? = some x.1 := by rw [hk, List.getElem?_map, hj]; rfl
    have hi : i < (a.map Prod.fst).length := (List.getElem?_eq_some_iff.1 h1).1
    have : i = j := (List.getElem?_inj hi hn).1 (h1.trans h2.symm)
    rw [this, hj]

/-- Expected samples that can not be read as the same series. -/
def Apart (a b : Expected) : Prop :=
  a.name ≠ b.name ∨
    (a.labels.map Prod.fst = b.labels.map Prod.fst ∧ (a.labels.map Prod.fst).Nodup ∧ LabelsDiffer a.labels b.labels)

theorem apart_series {rf : Bytes → Option F64} (R : ReadsSpecial rf) {a b : Expected} {x y : Sample} (h : Apart a b)
    (ha : SampleReads rf a x) (hb : SampleReads rf b y) : ¬ SameSeries x y := by
  rintro ⟨hn, hl⟩
  rcases h with h | ⟨h1, h2, i, p, q, h3, h4, h5⟩
  · exact h (by rw [← ha.1, ← hb.1, hn])
  · have e : x.labels = y.labels := by
      apply eq_of_same_members _ _ hl
      · rw [labelsRead_names ha.2.1, labelsRead_names hb.2.1, h1]
      · rw [labelsRead_names ha.2.1]; exact h2
    obtain ⟨t, t1, t2⟩ := labelsRead_get ha.2.1 h3
    obtain ⟨u, u1, u2⟩ := labelsRead_get hb.2.1 h4
    rw [e, u1] at t1
    have : t = u := by simp at t1; exact t1.2.symm
    subst this
    exact labelReads_differ R h5 t t2 u2

theorem apart_distinct {rf : Bytes → Option F64} (R : ReadsSpecial rf) {es : List Expected} {ss : List Sample}
    (h : List.Forall₂ (SampleReads rf) es ss) (hp : es.Pairwise Apart) : SeriesDistinct ss := by
  induction h with
  | nil => exact .nil
  | @cons e s es ss h1 h2 ih =>
    rw [List.pairwise_cons] at hp
    refine List.pairwise_cons.2 ⟨?_, ih hp.2⟩
    intro s' hs'
    obtain ⟨i, hi⟩ := List.mem_iff_getElem?.1 hs'
    have hlen := h2.length_eq
    have hi' : i < es.length := by have := (List.getElem?_eq_some_iff.1 hi).1; omega
    have := List.forall₂_iff_get.1 h2 |>.2 i hi' (by omega)
    obtain ⟨hlt, rfl⟩ := List.getElem?_eq_some_iff.1 hi
    exact apart_series R (hp.1 es[i] (by simp)) h1 this

/-- The labels of the groups of a vector: the same distinct names for all groups, and different values. -/
structure Spec.LabelsApart {G A : Type} (visit : G → Labels) (live : G → Option A) (names : List Bytes) : Prop where
  same : ∀ g a, live g = some a → (visit g).map Prod.fst = names
  nodup : names.Nodup
  differ : ∀ g g' a a', live g = some a → live g' = some a' → g ≠ g' → LabelsDiffer (visit g) (visit g')

theorem flatMap_apart {G A : Type} {l : List (G × A)} {f : G × A → List Expected} (hn : (l.map Prod.fst).Nodup)
    (h1 : ∀ q ∈ l, (f q).Pairwise Apart) (h2 : ∀ q ∈ l, ∀ r ∈ l, q.1 ≠ r.1 → ∀ a ∈ f q, ∀ b ∈ f r, Apart a b) :
    (l.flatMap f).Pairwise Apart := by
  rw [List.pairwise_flatMap]
  refine ⟨h1, ?_⟩
  rw [List.nodup_iff_pairwise_ne, List.pairwise_map] at hn
  exact hn.imp_of_mem fun {q r} hq hr hne a ha b hb => h2 q hq r hr hne a ha b hb

section
variable {G A : Type} {rf : Bytes → Option F64}

/-- C56, vectors of counters and gauges (C54 says that their scrapes are of this form). -/
theorem C56_vector (R : ReadsSpecial rf) {n : Bytes} {kind : Kind} {visit : G → Labels} (val : A → Val) {live : G → Option A}
    {text : Bytes} {names : List Bytes} (hs : ScrapeShows rf n kind visit (fun n ls a => [⟨n, ls, val a⟩]) live text)
    (hl : LabelsApart visit live names) :
    ∃ f, readFamilies rf text = some [f] ∧ SeriesDistinct f.samples := by
  obtain ⟨l, ss, he, hr, hf⟩ := hs
  refine ⟨_, hr, apart_distinct R hf (flatMap_apart he.1 (fun q _ => List.pairwise_singleton _ _) ?_)⟩
  intro q hq r hr' hne a ha b hb
  rw [List.mem_singleton] at ha hb
  subst ha hb
  have hq := (he.2 q.1 q.2).1 hq
  have hr' := (he.2 r.1 r.2).1 hr'
  right
  exact ⟨by rw [hl.same _ _ hq, hl.same _ _ hr'], by rw [hl.same _ _ hq]; exact hl.nodup, hl.differ _ _ _ _ hq hr' hne⟩

theorem labelsDiffer_append {a b c d : Labels} (h : LabelsDiffer a b) : LabelsDiffer (a ++ c) (b ++ d) := by
  obtain ⟨i, x, y, h1, h2, h3⟩ := h
  exact ⟨i, x, y, List.getElem?_append_left (List.getElem?_eq_some_iff.1 h1).1 ▸ h1,
    List.getElem?_append_left (List.getElem?_eq_some_iff.1 h2).1 ▸ h2, h3⟩

theorem labelsDiffer_last {a : Labels} {x y : Bytes × LVal} (h : LVal.Differ x.2 y.2) :
    LabelsDiffer (a ++ [x]) (a ++ [y]) :=
  ⟨a.length, x, y, by simp, by simp, h⟩

/-- The lines of histograms are apart. -/
theorem histogram_apart {n : Bytes} {visit : G → Labels} (les : List F64)
    (hle : StrictlyIncreasing les) (hinf : F64.inf false ∉ les) {live : G → Option (List F64)} {names : List Bytes}
    {l : List (G × List F64)} (he : Enumerates l live) (hl : LabelsApart visit live names) (hnl : b!"le" ∉ names) :
    (l.flatMap fun q => shownHistogram les n (visit q.1) q.2).Pairwise Apart := by
  refine flatMap_apart he.1 ?_ ?_
  · intro q hq
    have hq := (he.2 q.1 q.2).1 hq
    have hnd : ∀ x : LVal, ((visit q.1 ++ [(b!"le", x)]).map Prod.fst).Nodup := by
      intro x
      rw [List.map_append, hl.same _ _ hq]
      exact List.nodup_append.2 ⟨hl.nodup, by simp, by
        intro a ha b hb
        simp only [List.map_cons, List.map_nil, List.mem_singleton] at hb
        subst hb; rintro rfl; exact hnl ha⟩
    have hap : ∀ (x y : F64) (v w : Val), LVal.Differ (.float x) (.float y) →
        Apart ⟨n ++ b!"_bucket", visit q.1 ++ [(b!"le", .float x)], v⟩ ⟨n ++ b!"_bucket", visit q.1 ++ [(b!"le", .float y)], w⟩ := by
      intro x y v w h
      exact .inr ⟨by simp, hnd _, labelsDiffer_last h⟩
    have hne1 : n ++ b!"_bucket" ≠ n ++ b!"_sum" := by simp
    have hne2 : n ++ b!"_bucket" ≠ n ++ b!"_count" := by simp
    have hne3 : n ++ b!"_sum" ≠ n ++ b!"_count" := by simp
    unfold shownHistogram
    rw [List.pairwise_append]
    refine ⟨?_, ?_, ?_⟩
    · rw [List.pairwise_map]
      rw [Spec.StrictlyIncreasing.iff_pairwise] at hle
      refine hle.imp fun {x y} hxy => hap x y _ _ ⟨?_, ?_⟩
      · rintro rfl; simp [flt] at hxy
      · left
        simp only [flt, Bool.and_eq_true, Bool.not_eq_true'] at hxy
        simp_all
    · refine List.pairwise_cons.2 ⟨?_, List.pairwise_cons.2 ⟨?_, List.pairwise_singleton _ _⟩⟩
      · intro a ha
        simp only [List.mem_cons, List.not_mem_nil, or_false] at ha
        rcases ha with rfl | rfl
        · exact .inl hne1
        · exact .inl hne2
      · intro a ha
        simp only [List.mem_cons, List.not_mem_nil, or_false] at ha
        subst ha
        exact .inl hne3
    · intro a ha b hb
      obtain ⟨x, hx, rfl⟩ := List.mem_map.1 ha
      simp only [List.mem_cons, List.not_mem_nil, or_false] at hb
      rcases hb with rfl | rfl | rfl
      · exact hap x _ _ _ ⟨fun e => hinf (e ▸ hx), .inr (by decide)⟩
      · exact .inl hne1
      · exact .inl hne2
  · intro q hq r hr' hne a ha b hb
    have hq := (he.2 q.1 q.2).1 hq
    have hr' := (he.2 r.1 r.2).1 hr'
    have hd := hl.differ _ _ _ _ hq hr' hne
    have e1 := hl.same _ _ hq
    have e2 := hl.same _ _ hr'
    have hshape : ∀ (q : G × List F64) a, a ∈ shownHistogram les n (visit q.1) q.2 →
        (∃ x, a.name = n ++ b!"_bucket" ∧ a.labels = visit q.1 ++ [(b!"le", .float x)]) ∨
        (a.name = n ++ b!"_sum" ∧ a.labels = visit q.1) ∨ (a.name = n ++ b!"_count" ∧ a.labels = visit q.1) := by
      intro q a ha
      simp only [shownHistogram, List.mem_append, List.mem_map, List.mem_cons, List.not_mem_nil, or_false] at ha
      rcases ha with ⟨x, _, rfl⟩ | rfl | rfl | rfl
      · exact .inl ⟨x, rfl, rfl⟩
      · exact .inl ⟨_, rfl, rfl⟩
      · exact .inr (.inl ⟨rfl, rfl⟩)
      · exact .inr (.inr ⟨rfl, rfl⟩)
    by_cases hn : a.name = b.name
    · right
      have hle' : ∀ x : LVal, (names ++ [b!"le"]).Nodup := fun _ => List.nodup_append.2 ⟨hl.nodup, by simp, by
        intro a ha b hb
        rw [List.mem_singleton] at hb
        subst hb; rintro rfl; exact hnl ha⟩
      rcases hshape q a ha with ⟨x, a1, a2⟩ | ⟨a1, a2⟩ | ⟨a1, a2⟩ <;>
        rcases hshape r b hb with ⟨y, b1, b2⟩ | ⟨b1, b2⟩ | ⟨b1, b2⟩ <;>
        (try (exfalso; rw [a1, b1] at hn; simp at hn; done))
      · rw [a2, b2]
        refine ⟨by simp [e1, e2], ?_, labelsDiffer_append hd⟩
        rw [List.map_append, e1]
        exact hle' (.int 0)
      · rw [a2, b2]; exact ⟨by rw [e1, e2], by rw [e1]; exact hl.nodup, hd⟩
      · rw [a2, b2]; exact ⟨by rw [e1, e2], by rw [e1]; exact hl.nodup, hd⟩
    · exact .inl hn

/-- C56, histograms: the bounds must be ascending, without `+Inf` among them, and the labels must not be named `le`. -/
theorem C56_histogram_partial (R : ReadsSpecial rf) {n : Bytes} {visit : G → Labels} (les : List F64)
    (hle : StrictlyIncreasing les) (hinf : F64.inf false ∉ les) {live : G → Option (List F64)} {text : Bytes}
    {names : List Bytes} (hs : ScrapeShows rf n .histogram visit (shownHistogram les) live text)
    (hl : LabelsApart visit live names) (hnl : b!"le" ∉ names) :
    ∃ f, readFamilies rf text = some [f] ∧ SeriesDistinct f.samples := by
  obtain ⟨l, ss, he, hr, hf⟩ := hs
  exact ⟨_, hr, apart_distinct R hf (histogram_apart les hle hinf he hl hnl)⟩

/-- C57. No sample has two labels of the same name, if the group visits distinct names, none of which is `le` in the
case of a histogram. -/
theorem C57_names_partial {n : Bytes} {kind : Kind} {visit : G → Labels} {shown : Bytes → Labels → A → List Expected}
    {live : G → Option A} {text : Bytes} (hs : ScrapeShows rf n kind visit shown live text)
    (hshown : ∀ ls a e, e ∈ shown n ls a → e.labels = ls ∨ (kind = .histogram ∧ ∃ x, e.labels = ls ++ [(b!"le", .float x)]))
    (hv : ∀ g a, live g = some a → ((visit g).map Prod.fst).Nodup ∧ (kind = .histogram → b!"le" ∉ (visit g).map Prod.fst)) :
    ∃ f, readFamilies rf text = some [f] ∧ ∀ s ∈ f.samples, LabelNamesDistinct s := by
  obtain ⟨l, ss, he, hr, hf⟩ := hs
  refine ⟨_, hr, ?_⟩
  intro s hs
  obtain ⟨i, hi⟩ := List.mem_iff_getElem?.1 hs
  obtain ⟨hlt, rfl⟩ := List.getElem?_eq_some_iff.1 hi
  have hlt : i < ss.length := hlt
  have hlen := hf.length_eq
  have hread := (List.forall₂_iff_get.1 hf).2 i (by omega) hlt
  simp only [List.get_eq_getElem] at hread
  have hmem := List.getElem_mem (l := l.flatMap fun q => shown n (visit q.1) q.2) (n := i) (by omega)
  obtain ⟨q, hq, hm⟩ := List.mem_flatMap.1 hmem
  obtain ⟨v1, v2⟩ := hv q.1 q.2 ((he.2 _ _).1 hq)
  unfold LabelNamesDistinct
  rw [labelsRead_names hread.2.1]
  rcases hshown _ _ _ hm with h | ⟨hk, x, h⟩
  · rw [h]; exact v1
  · rw [h, List.map_append]
    refine List.nodup_append.2 ⟨v1, by simp, ?_⟩
    intro a ha b hb
    simp only [List.map_cons, List.map_nil, List.mem_singleton] at hb
    subst hb; rintro rfl; exact v2 hk ha

end

/-! ### The groups of the crate -/

/-- The labels of all groups of a type: the same distinct names, and different values. -/
structure Spec.VisitApart {G : Type} (visit : G → Labels) (names : List Bytes) : Prop where
  same : ∀ g, (visit g).map Prod.fst = names
  nodup : names.Nodup
  differ : ∀ g g', g ≠ g' → LabelsDiffer (visit g) (visit g')

theorem Spec.VisitApart.live {G A : Type} {visit : G → Labels} {names : List Bytes} (h : VisitApart visit names)
    (live : G → Option A) : LabelsApart visit live names :=
  ⟨fun g _ _ => h.same g, h.nodup, fun g g' _ _ _ _ => h.differ g g'⟩

theorem C56_no_labels : VisitApart noLabelsVisit [] :=
  ⟨fun _ => rfl, by simp, fun _ _ h => absurd rfl h⟩

/-- C56, derived groups: if all values of a field are written differently. -/
theorem C56_derived {V : Type} (d : GroupDef V) (lv : V → LVal)
    (hn : ((List.finRange d.n).map fun i => (d.field i).name).Nodup)
    (hv : ∀ x y, x ≠ y → LVal.Differ (lv x) (lv y)) :
    VisitApart (derivedLabels d lv) ((List.finRange d.n).map fun i => (d.field i).name) := by
  refine ⟨fun g => ?_, hn, fun g g' hne => ?_⟩
  · simp only [derivedLabels, derivedVisit, List.map_map]; rfl
  · obtain ⟨i, hi⟩ := Function.ne_iff.1 hne
    refine ⟨i, ((d.field i).name, lv (g i)), ((d.field i).name, lv (g' i)), ?_, ?_, hv _ _ hi⟩ <;>
      simp [derivedLabels, derivedVisit]

/-- C56 and C57, composed groups: if their names are disjoint. -/
theorem C56_composed_partial {G H : Type} {a : G → Labels} {b : H → Labels} {na nb : List Bytes} (ha : VisitApart a na)
    (hb : VisitApart b nb) (hd : ∀ n ∈ na, n ∉ nb) : VisitApart (composedVisit a b) (na ++ nb) := by
  refine ⟨fun g => by simp [composedVisit, ha.same, hb.same], ?_, ?_⟩
  · exact List.nodup_append.2 ⟨ha.nodup, hb.nodup, fun x hx y hy e => hd x hx (e ▸ hy)⟩
  · rintro ⟨g, h⟩ ⟨g', h'⟩ hne
    by_cases hg : g = g'
    · subst hg
      have hh : h ≠ h' := fun e => hne (by rw [e])
      obtain ⟨i, x, y, e1, e2, e3⟩ := hb.differ h h' hh
      refine ⟨(a g).length + i, x, y, ?_, ?_, e3⟩
      · simp only [composedVisit]
        rw [List.getElem?_append_right (by omega)]; simpa using e1
      · simp only [composedVisit]
        rw [List.getElem?_append_right (by omega)]; simpa using e2
    · exact labelsDiffer_append (ha.differ g g' hg)

/-! ### Scrapes of vectors in use

The theorems above, put together with C54: make a vector, use it in any way, and scrape it. -/

section
variable {S G U : Type} [DecidableEq U] [DecidableEq G]
variable (m : Mode) (p : Nat) (h0 : 0 < p) (hp : p ≤ 2 ^ 55)
variable (hasher : U → Nat) (t : GroupSet S G U) (inv : S → Prop) (sle : S → S → Prop) (valid : S → U → Prop)
variable (L : GroupSetLaws t inv sle valid) (s : S) (hs : inv s) (dense : Bool)
variable {ryu : F64 → Bytes} {rf : Bytes → Option F64} (F : FloatText ryu rf) (m' : Mode)
variable (n : Name) (hn : MetricNameRe n.text) (visit : G → Labels)
include h0 hp L hs F hn

/-- C56, counters: after any calls, a scrape shows no series twice, if the groups of the type are apart (as for the
crate's groups, below and above). -/
theorem C56_counter (R : ReadsSpecial rf) {names : List Bytes} (hl : VisitApart visit names)
    (v : MetricVec S U Nat) (hv : Created m p t s dense v) (cs : List (VecCall G CounterCall))
    (hc : ∀ c ∈ cs, ∀ x, VecCall.call? c = some x → CounterCall.Ok x) (rs : List CallRes) (v' : MetricVec S U Nat)
    (hrun : vecCalls (counterOps m) m hasher t v cs = (rs, v'))
    (hfit : ∀ g a, tally dense 0 CounterCall.apply (cs.zip rs) g = some a → (∀ l ∈ visit g, LabelNameRe l.1) ∧ a < 2 ^ 63) :
    ∃ st out f, (Fam.vec t visit .counter .counter v').collect (textEncoder m' ryu) n (TextEnc.new []) =
        (.ok (), ⟨st, out⟩) ∧ readFamilies rf out = some [f] ∧ SeriesDistinct f.samples := by
  obtain ⟨_, _, _, st, out, h1, h2⟩ := C54_counter m p h0 hp hasher t inv sle valid L s hs dense F m' n hn visit v hv cs hc rs v' hrun hfit
  obtain ⟨f, h3, h4⟩ := C56_vector R _ h2 (hl.live _)
  exact ⟨st, out, f, h1, h3, h4⟩

/-- C57, counters: after any calls, no sample of a scrape has two labels of the same name, if the group visits
distinct names. -/
theorem C57_counter (hl : ∀ g, ((visit g).map Prod.fst).Nodup)
    (v : MetricVec S U Nat) (hv : Created m p t s dense v) (cs : List (VecCall G CounterCall))
    (hc : ∀ c ∈ cs, ∀ x, VecCall.call? c = some x → CounterCall.Ok x) (rs : List CallRes) (v' : MetricVec S U Nat)
    (hrun : vecCalls (counterOps m) m hasher t v cs = (rs, v'))
    (hfit : ∀ g a, tally dense 0 CounterCall.apply (cs.zip rs) g = some a → (∀ l ∈ visit g, LabelNameRe l.1) ∧ a < 2 ^ 63) :
    ∃ st out f, (Fam.vec t visit .counter .counter v').collect (textEncoder m' ryu) n (TextEnc.new []) =
        (.ok (), ⟨st, out⟩) ∧ readFamilies rf out = some [f] ∧ ∀ x ∈ f.samples, LabelNamesDistinct x := by
  obtain ⟨_, _, _, st, out, h1, h2⟩ := C54_counter m p h0 hp hasher t inv sle valid L s hs dense F m' n hn visit v hv cs hc rs v' hrun hfit
  obtain ⟨f, h3, h4⟩ := C57_names_partial h2
    (fun ls a e he => .inl (by rw [shownCounter, List.mem_singleton] at he; rw [he])) (fun g _ _ => ⟨hl g, nofun⟩)
  exact ⟨st, out, f, h1, h3, h4⟩

/-- C56, integer gauges: after any calls, a scrape shows no series twice, if the groups of the type are apart (as for the
crate's groups, below and above). -/
theorem C56_gauge (R : ReadsSpecial rf) {names : List Bytes} (hl : VisitApart visit names)
    (v : MetricVec S U Int) (hv : Created m p t s dense v) (cs : List (VecCall G GaugeCall))
    (hc : ∀ c ∈ cs, ∀ x, VecCall.call? c = some x → GaugeCall.Ok x) (rs : List CallRes) (v' : MetricVec S U Int)
    (hrun : vecCalls (gaugeOps m) m hasher t v cs = (rs, v'))
    (hfit : ∀ g a, tally dense 0 GaugeCall.apply (cs.zip rs) g = some a → (∀ l ∈ visit g, LabelNameRe l.1) ∧ InI64 a) :
    ∃ st out f, (Fam.vec t visit .gauge .gauge v').collect (textEncoder m' ryu) n (TextEnc.new []) =
        (.ok (), ⟨st, out⟩) ∧ readFamilies rf out = some [f] ∧ SeriesDistinct f.samples := by
  obtain ⟨_, _, _, st, out, h1, h2⟩ := C54_gauge m p h0 hp hasher t inv sle valid L s hs dense F m' n hn visit v hv cs hc rs v' hrun hfit
  obtain ⟨f, h3, h4⟩ := C56_vector R _ h2 (hl.live _)
  exact ⟨st, out, f, h1, h3, h4⟩

/-- C57, integer gauges: after any calls, no sample of a scrape has two labels of the same name, if the group visits
distinct names. -/
theorem C57_gauge (hl : ∀ g, ((visit g).map Prod.fst).Nodup)
    (v : MetricVec S U Int) (hv : Created m p t s dense v) (cs : List (VecCall G GaugeCall))
    (hc : ∀ c ∈ cs, ∀ x, VecCall.call? c = some x → GaugeCall.Ok x) (rs : List CallRes) (v' : MetricVec S U Int)
    (hrun : vecCalls (gaugeOps m) m hasher t v cs = (rs, v'))
    (hfit : ∀ g a, tally dense 0 GaugeCall.apply (cs.zip rs) g = some a → (∀ l ∈ visit g, LabelNameRe l.1) ∧ InI64 a) :
    ∃ st out f, (Fam.vec t visit .gauge .gauge v').collect (textEncoder m' ryu) n (TextEnc.new []) =
        (.ok (), ⟨st, out⟩) ∧ readFamilies rf out = some [f] ∧ ∀ x ∈ f.samples, LabelNamesDistinct x := by
  obtain ⟨_, _, _, st, out, h1, h2⟩ := C54_gauge m p h0 hp hasher t inv sle valid L s hs dense F m' n hn visit v hv cs hc rs v' hrun hfit
  obtain ⟨f, h3, h4⟩ := C57_names_partial h2
    (fun ls a e he => .inl (by rw [shownGauge, List.mem_singleton] at he; rw [he])) (fun g _ _ => ⟨hl g, nofun⟩)
  exact ⟨st, out, f, h1, h3, h4⟩

/-- C56, float gauges: after any calls, a scrape shows no series twice, if the groups of the type are apart (as for the
crate's groups, below and above). -/
theorem C56_float (R : ReadsSpecial rf) {names : List Bytes} (hl : VisitApart visit names)
    (v : MetricVec S U F64) (hv : Created m p t s dense v) (cs : List (VecCall G FloatCall))
    (rs : List CallRes) (v' : MetricVec S U F64)
    (hrun : vecCalls floatOps m hasher t v cs = (rs, v'))
    (hfit : ∀ g a, tally dense F64.pzero FloatCall.apply (cs.zip rs) g = some a → ∀ l ∈ visit g, LabelNameRe l.1) :
    ∃ st out f, (Fam.vec t visit .floatGauge .floatGauge v').collect (textEncoder m' ryu) n (TextEnc.new []) =
        (.ok (), ⟨st, out⟩) ∧ readFamilies rf out = some [f] ∧ SeriesDistinct f.samples := by
  obtain ⟨_, _, _, st, out, h1, h2⟩ := C54_float m p h0 hp hasher t inv sle valid L s hs dense F m' n hn visit v hv cs rs v' hrun hfit
  obtain ⟨f, h3, h4⟩ := C56_vector R _ h2 (hl.live _)
  exact ⟨st, out, f, h1, h3, h4⟩

/-- C57, float gauges: after any calls, no sample of a scrape has two labels of the same name, if the group visits
distinct names. -/
theorem C57_float (hl : ∀ g, ((visit g).map Prod.fst).Nodup)
    (v : MetricVec S U F64) (hv : Created m p t s dense v) (cs : List (VecCall G FloatCall))
    (rs : List CallRes) (v' : MetricVec S U F64)
    (hrun : vecCalls floatOps m hasher t v cs = (rs, v'))
    (hfit : ∀ g a, tally dense F64.pzero FloatCall.apply (cs.zip rs) g = some a → ∀ l ∈ visit g, LabelNameRe l.1) :
    ∃ st out f, (Fam.vec t visit .floatGauge .floatGauge v').collect (textEncoder m' ryu) n (TextEnc.new []) =
        (.ok (), ⟨st, out⟩) ∧ readFamilies rf out = some [f] ∧ ∀ x ∈ f.samples, LabelNamesDistinct x := by
  obtain ⟨_, _, _, st, out, h1, h2⟩ := C54_float m p h0 hp hasher t inv sle valid L s hs dense F m' n hn visit v hv cs rs v' hrun hfit
  obtain ⟨f, h3, h4⟩ := C57_names_partial h2
    (fun ls a e he => .inl (by rw [shownFloat, List.mem_singleton] at he; rw [he])) (fun g _ _ => ⟨hl g, nofun⟩)
  exact ⟨st, out, f, h1, h3, h4⟩

/-- C56, histograms in use, with the same conditions as `C56_histogram_partial`. -/
theorem C56_histogram_used_partial (R : ReadsSpecial rf) {names : List Bytes} (hl : VisitApart visit names) (hnl : b!"le" ∉ names)
    (les : List F64) (hle : StrictlyIncreasing les) (hinf : F64.inf false ∉ les) (hnan : ∀ b ∈ les, b.isNaN = false)
    (v : MetricVec S U HistInner) (hv : Created m p t s dense v) (cs : List (VecCall G HistCall))
    (hc : ∀ c ∈ cs, ∀ x, VecCall.call? c = some x → (HistCall.value x).isNaN = false)
    (rs : List CallRes) (v' : MetricVec S U HistInner) (hrun : vecCalls (histOps les) m hasher t v cs = (rs, v'))
    (hfit : ∀ g a, tally dense [] HistCall.apply (cs.zip rs) g = some a →
      (∀ l ∈ visit g, LabelNameRe l.1) ∧ a.length < 2 ^ 63) :
    ∃ st out f, (Fam.vec t visit .histogram (.histogram les) v').collect (textEncoder m' ryu) n (TextEnc.new []) =
        (.ok (), ⟨st, out⟩) ∧ readFamilies rf out = some [f] ∧ SeriesDistinct f.samples := by
  obtain ⟨_, _, _, st, out, h1, h2⟩ :=
    C54_histogram m p h0 hp hasher t inv sle valid L s hs dense F m' n hn visit les hle.nonDecreasing hnan v hv cs hc rs v' hrun hfit
  obtain ⟨f, h3, h4⟩ := C56_histogram_partial R les hle hinf h2 (hl.live _) hnl
  exact ⟨st, out, f, h1, h3, h4⟩

/-- C57, histograms in use: if none of the labels is called `le`. -/
theorem C57_histogram_partial (hl : ∀ g, ((visit g).map Prod.fst).Nodup ∧ b!"le" ∉ (visit g).map Prod.fst)
    (les : List F64) (hle : NonDecreasing les) (hnan : ∀ b ∈ les, b.isNaN = false)
    (v : MetricVec S U HistInner) (hv : Created m p t s dense v) (cs : List (VecCall G HistCall))
    (hc : ∀ c ∈ cs, ∀ x, VecCall.call? c = some x → (HistCall.value x).isNaN = false)
    (rs : List CallRes) (v' : MetricVec S U HistInner) (hrun : vecCalls (histOps les) m hasher t v cs = (rs, v'))
    (hfit : ∀ g a, tally dense [] HistCall.apply (cs.zip rs) g = some a →
      (∀ l ∈ visit g, LabelNameRe l.1) ∧ a.length < 2 ^ 63) :
    ∃ st out f, (Fam.vec t visit .histogram (.histogram les) v').collect (textEncoder m' ryu) n (TextEnc.new []) =
        (.ok (), ⟨st, out⟩) ∧ readFamilies rf out = some [f] ∧ ∀ x ∈ f.samples, LabelNamesDistinct x := by
  obtain ⟨_, _, _, st, out, h1, h2⟩ :=
    C54_histogram m p h0 hp hasher t inv sle valid L s hs dense F m' n hn visit les hle hnan v hv cs hc rs v' hrun hfit
  obtain ⟨f, h3, h4⟩ := C57_names_partial h2
    (fun ls a e he => by
      simp only [shownHistogram, List.mem_append, List.mem_map, List.mem_cons, List.not_mem_nil, or_false] at he
      rcases he with ⟨x, _, rfl⟩ | rfl | rfl | rfl
      · exact .inr ⟨rfl, _, rfl⟩
      · exact .inr ⟨rfl, _, rfl⟩
      · exact .inl rfl
      · exact .inl rfl) (fun g _ _ => ⟨(hl g).1, fun _ => (hl g).2⟩)
  exact ⟨st, out, f, h1, h3, h4⟩

end

/-! ### Where C56 and C57 fail -/

theorem written_bucket (n : Name) (ls : Labels) (le : List F64) (h : HistInner) {i : Nat} {b : F64} (hi : le[i]? = some b) :
    ∃ v, (writtenOf n ls (.histogram le h))[i]? = some ⟨.suffix n .bucket, ls ++ [(b!"le", .float b)], v⟩ := by
  refine ⟨.int (asI64 (h.buckets.take (i + 1)).sum), ?_⟩
  simp only [writtenOf]
  rw [List.getElem?_append_left (by simpa using (List.getElem?_eq_some_iff.1 hi).1), List.getElem?_mapIdx, hi]
  rfl

theorem written_inf (n : Name) (ls : Labels) (le : List F64) (h : HistInner) :
    ∃ v, (writtenOf n ls (.histogram le h))[le.length]? =
      some ⟨.suffix n .bucket, ls ++ [(b!"le", .float F64.infinity)], v⟩ := by
  refine ⟨.int (asI64 (h.buckets.sum + h.inf)), ?_⟩
  simp only [writtenOf]
  rw [List.getElem?_append_right (by simp)]
  simp

theorem dup_series (ryu : F64 → Bytes) (ws : List Written) (i j : Nat) (hij : i < j) {a b : Written} (ha : ws[i]? = some a)
    (hb : ws[j]? = some b) (hn : a.name = b.name) (hl : a.labels = b.labels) :
    ¬ SeriesDistinct (ws.map (Written.sample ryu)) := by
  intro hd
  obtain ⟨h1, e1⟩ := List.getElem?_eq_some_iff.1 ha
  obtain ⟨h2, e2⟩ := List.getElem?_eq_some_iff.1 hb
  have := List.pairwise_iff_getElem.1 hd i j (by simpa using h1) (by simpa using h2) hij
  simp only [List.getElem_map, e1, e2] at this
  exact this ⟨by simp only [Written.sample, hn], fun l => by simp only [Written.sample, hl]⟩

/-- A histogram over any non-decreasing bounds can be scraped after one observation. -/
theorem scrape_one {ryu : F64 → Bytes} {rf : Bytes → Option F64} (F : FloatText ryu rf) (m : Mode) (le : List F64)
    (hle : NonDecreasing le) (x : F64) :
    ∃ h, histObserveAll le (HistInner.default le.length) [x] = .ok h ∧
      ∃ out, textSample m ryu (.histogram le h) [] (.str b!"h") (TextEnc.new []) = (.ok (), ⟨.metrics, out⟩) ∧
        readLines rf out = some (((writtenOf (.str b!"h") [] (.histogram le h)).map (Written.sample ryu)).map .sample) := by
  have hn : MetricNameRe (Name.str b!"h").render :=
    ⟨0x68, [], rfl, ⟨(0x61, 0x7a), by decide, by decide, by decide⟩, by simp⟩
  obtain ⟨e, hl⟩ := histConc_ok le [x]
  obtain ⟨_, ht⟩ := histAfter_counts (Spec.NonDecreasing.iff_pairwise.1 hle)
    (by
      obtain ⟨h', he, ha⟩ := histAfter_all (Spec.NonDecreasing.iff_pairwise.1 hle) [x] [] _
        (histAfter_default le)
      rw [e] at he
      cases he
      exact ha) (by simp [W64])
  exact ⟨_, e, _, textSample_bytes m ryu _ [] _ _ (show SizeOk _ from ⟨hl.symm, by rw [ht]; simp [W64]⟩),
    readLines_written F _ (writtenOf_valid hn (by intro l hl; cases hl) _)⟩

/-- `with_buckets` accepts the bound `+Inf`, and then every scrape shows the series of the `+Inf` bucket twice. -/
theorem C56_inf_refuted {ryu : F64 → Bytes} {rf : Bytes → Option F64} (F : FloatText ryu rf) (m : Mode) (x : F64) :
    ∃ le h, withBuckets m le = .ok le ∧ histObserveAll le (HistInner.default le.length) [x] = .ok h ∧
      ∃ out ss, textSample m ryu (.histogram le h) [] (.str b!"h") (TextEnc.new []) = (.ok (), ⟨.metrics, out⟩) ∧
        readLines rf out = some (ss.map .sample) ∧ ¬ SeriesDistinct ss := by
  have hle : StrictlyIncreasing [F64.one, F64.inf false] := by
    rw [Spec.StrictlyIncreasing.iff_pairwise]; decide +kernel
  obtain ⟨h, e, out, eo, er⟩ := scrape_one F m _ hle.nonDecreasing x
  refine ⟨_, h, (C27_with_buckets_partial m _ (by simp)).1 hle, e, out, _, eo, er, ?_⟩
  obtain ⟨_, e1⟩ := written_bucket (.str b!"h") [] [F64.one, F64.inf false] h (i := 1) (b := F64.inf false) rfl
  obtain ⟨_, e2⟩ := written_inf (.str b!"h") [] [F64.one, F64.inf false] h
  exact dup_series ryu _ 1 2 (by decide) e1 e2 rfl rfl

/-- The double `2^53`. -/
def twoTo53 : F64 := ⟨0x4340000000000000, by decide⟩

set_option exponentiation.threshold 3000 in
/-- `linear_buckets` may produce equal bounds, here `2^53, 2^53`, and then every scrape shows their series twice. -/
theorem C56_linear_refuted {ryu : F64 → Bytes} {rf : Bytes → Option F64} (F : FloatText ryu rf) (m : Mode) (x : F64) :
    ∃ start width le h, F64.flt F64.pzero width = true ∧ linearBuckets 2 start width = .ok le ∧
      histObserveAll le (HistInner.default le.length) [x] = .ok h ∧
      ∃ out ss, textSample m ryu (.histogram le h) [] (.str b!"h") (TextEnc.new []) = (.ok (), ⟨.metrics, out⟩) ∧
        readLines rf out = some (ss.map .sample) ∧ ¬ SeriesDistinct ss := by
  have hle : NonDecreasing [twoTo53, twoTo53] := by
    rw [Spec.NonDecreasing.iff_pairwise]; decide +kernel
  obtain ⟨h, e, out, eo, er⟩ := scrape_one F m _ hle x
  refine ⟨twoTo53, F64.one, _, h, by decide +kernel, by decide +kernel, e, out, _, eo, er, ?_⟩
  obtain ⟨_, e1⟩ := written_bucket (.str b!"h") [] [twoTo53, twoTo53] h (i := 0) (b := twoTo53) rfl
  obtain ⟨_, e2⟩ := written_bucket (.str b!"h") [] [twoTo53, twoTo53] h (i := 1) (b := twoTo53) rfl
  exact dup_series ryu _ 0 1 (by decide) e1 e2 rfl rfl

/-- Groups that share a label name compose, and then every sample has that name twice. -/
theorem C57_composed_refuted {ryu : F64 → Bytes} {rf : Bytes → Option F64} (F : FloatText ryu rf) (m : Mode)
    {G H : Type} (a : G → Labels) (b : H → Labels) (n : Bytes) (g : G) (h : H)
    (ha : n ∈ (a g).map Prod.fst) (hb : n ∈ (b h).map Prod.fst) (hok : ∀ l ∈ a g ++ b h, LabelNameRe l.1) :
    ∃ out s, textSample m ryu (.counter 0) (composedVisit a b (g, h)) (.str b!"c") (TextEnc.new []) =
        (.ok (), ⟨.metrics, out⟩) ∧ readLines rf out = some [.sample s] ∧ ¬ LabelNamesDistinct s := by
  have hn : MetricNameRe (Name.str b!"c").render :=
    ⟨0x63, [], rfl, ⟨(0x61, 0x7a), by decide, by decide, by decide⟩, by simp⟩
  refine ⟨_, _, textSample_bytes m ryu _ _ _ _ (show SizeOk _ from by show 0 < W64; decide),
    readLines_written F _ (writtenOf_valid hn hok _), ?_⟩
  intro hd
  have hd : ((textsOf ryu (a g ++ b h)).map Prod.fst).Nodup := hd
  have e : (textsOf ryu (a g ++ b h)).map Prod.fst = (a g).map Prod.fst ++ (b h).map Prod.fst := by
    simp [textsOf, Function.comp_def]
  rw [e] at hd
  exact (List.nodup_append.1 hd).2.2 n ha n hb rfl

/-- A label may be called `le`, and then every bucket of a histogram has that name twice. -/
theorem C57_le_refuted {ryu : F64 → Bytes} {rf : Bytes → Option F64} (F : FloatText ryu rf) (m : Mode) (v : LVal) :
    assertLabelName b!"le" = .ok () ∧
    ∃ out, ∃ ss : List Sample, ∃ s, textSample m ryu (.histogram [F64.one] (HistInner.default 1)) [(b!"le", v)] (.str b!"h") (TextEnc.new []) =
        (.ok (), ⟨.metrics, out⟩) ∧ readLines rf out = some (ss.map .sample) ∧ s ∈ ss ∧ ¬ LabelNamesDistinct s := by
  have hn : MetricNameRe (Name.str b!"h").render :=
    ⟨0x68, [], rfl, ⟨(0x61, 0x7a), by decide, by decide, by decide⟩, by simp⟩
  refine ⟨by decide, _, _, _, textSample_bytes m ryu _ _ _ _ (show SizeOk _ from ⟨rfl, by decide⟩),
    readLines_written F _ (writtenOf_valid hn ?_ _), List.mem_cons_self, ?_⟩
  · intro l hl
    rw [List.mem_singleton.1 hl]
    exact le_label
  · intro hd
    have hd : [b!"le", b!"le"].Nodup := hd
    simp at hd

section examples

/-- The reader of the examples, with the special numbers. -/
def exReadAll (t : Bytes) : Option F64 :=
  if t = b!"+Inf" then some (F64.inf false) else if t = b!"-Inf" then some (F64.inf true)
  else if t = b!"NaN" then some F64.nan else exRead t

example : ReadsSpecial exReadAll := ⟨by decide, by decide, by decide⟩

theorem exFloatAll : FloatText exRyu exReadAll where
  bytes := exFloat.bytes
  notInt := exFloat.notInt
  read x := by
    rw [← exFloat.read x]
    simp [exReadAll, exRyu]

/-- `struct Labels { method: String, code: String }` -/
def exDef : GroupDef Bytes := ⟨2, fun i => ⟨if i = 0 then b!"method" else b!"code", .dynamic i⟩⟩

example : VisitApart (derivedLabels exDef .str) [b!"method", b!"code"] :=
  C56_derived exDef .str (by decide) fun _ _ h => h

/-- A vector of counters by method, and calls on it. -/
def exMethodCalls : List (VecCall Bytes CounterCall) :=
  [.shared b!"Get" .inc, .shared b!"Post" (.incBy 7), .exclusive b!"Get" (.incBy 2), .shared b!"Put" .inc]

/-- All conditions of C54 and C56 hold for it. -/
example : ∃ st out f, (Fam.vec (staticGroupSet [b!"Get", b!"Post"]) (fun g => [(b!"method", .str g)]) .counter .counter
      (vecCalls (counterOps .debug) .debug (fun _ => 77) (staticGroupSet [b!"Get", b!"Post"]) exV exMethodCalls).2).collect
      (textEncoder .debug exRyu) (.str b!"hits") (TextEnc.new []) = (.ok (), ⟨st, out⟩) ∧
    readFamilies exReadAll out = some [f] ∧ SeriesDistinct f.samples := by
  refine C56_counter .debug 1 (by decide) (by decide) (fun _ => 77) (staticGroupSet [b!"Get", b!"Post"]) (fun _ => True)
    (fun _ _ => True) (fun _ u => u < 2)
    (staticGroupSet_laws _ (by decide) (by decide) _ _ (fun _ => trivial) (fun _ _ _ _ _ => trivial)) () trivial false
    exFloatAll .debug (.str b!"hits") ((C38_from_str _).1.1 (by decide)) (fun g => [(b!"method", .str g)])
    ⟨by decide, by decide, by decide⟩ (names := [b!"method"]) ⟨fun _ => rfl, by simp, fun g g' h => ?_⟩ exV (.sparse rfl)
    exMethodCalls ?_ [.done, .done, .done, .unknownLabel] _ rfl ?_
  · exact ⟨0, _, _, rfl, rfl, h⟩
  · intro c hc x hx
    simp only [exMethodCalls, List.mem_cons, List.not_mem_nil, or_false] at hc
    rcases hc with rfl | rfl | rfl | rfl <;> cases hx <;> (unfold CounterCall.Ok; decide)
  · intro g a h
    refine ⟨?_, ?_⟩
    · intro l hl
      rw [List.mem_singleton] at hl
      subst hl
      exact (C39_label_name _).1.1 rfl
    · simp only [tally, exMethodCalls, List.zip_cons_cons, List.zip_nil_left, List.foldl_cons, List.foldl_nil, tallyStep,
        Function.update_apply] at h
      split at h
      · cases h; decide +kernel
      · split at h
        · cases h; decide +kernel
        · cases h

end examples

end Measured
