import Verif.Proof.Accuracy
import Verif.Props.Histogram
import Verif.Props.HistConc
import Verif.Props.Atomic
import Verif.Props.Text

/-!
# Properties of computed numbers (C69, C70)

`real x` is the number that the double `x` stands for, `RoundsTo` is rounding as IEEE 754 has it (`Spec/Rounding.lean`).
That the additions, products, conversions and comparisons of the model are those of IEEE 754 is proved in
`Proof/Rounding.lean` (`add_roundsTo`, `sub_roundsTo`, `mul_roundsTo`, `ofNat_roundsTo`, `ofInt_roundsTo`, `flt_real`,
`fle_real`).
-/

namespace Measured
open Measured.Spec F64 Conc

/-! ## C69 -/

/-- C69. `linear_buckets` panics exactly for widths that are not positive. -/
theorem C69_linear_panics (n : Nat) (start width : F64) (hw : IsFinite width) :
    linearBuckets n start width = .panic ↔ real width ≤ 0 := by
  have h := flt_real isFinite_pzero hw
  rw [real_pzero] at h
  unfold linearBuckets
  by_cases hc : flt pzero width = true
  · rw [if_pos hc]
    simp only [reduceCtorEq, false_iff, not_le]
    exact h.1 hc
  · rw [if_neg hc]
    simp only [true_iff, ← not_lt]
    exact fun h' => hc (h.2 h')

/-- C69. `exponential_buckets` panics exactly for starts that are not positive and factors of 1 or less. -/
theorem C69_exponential_panics (n : Nat) (start factor : F64) (hs : IsFinite start) (hf : IsFinite factor) :
    exponentialBuckets n start factor = .panic ↔ real start ≤ 0 ∨ real factor ≤ 1 := by
  have h1 := flt_real isFinite_pzero hs
  have h2 := flt_real isFinite_one hf
  rw [real_pzero] at h1
  rw [real_one] at h2
  unfold exponentialBuckets
  by_cases hc : flt pzero start = true
  · rw [if_pos hc]
    by_cases hd : flt one factor = true
    · rw [if_pos hd]
      simp only [reduceCtorEq, false_iff, not_or, not_le]
      exact ⟨h1.1 hc, h2.1 hd⟩
    · rw [if_neg hd]
      simp only [true_iff]
      exact .inr (not_lt.1 fun h' => hd (h2.2 h'))
  · rw [if_neg hc]
    simp only [true_iff]
    exact .inl (not_lt.1 fun h' => hc (h1.2 h'))

/-- C69. They also panic for NaN. -/
theorem C69_nan_panics (n : Nat) (x y : F64) (h : y.isNaN = true) :
    linearBuckets n x y = .panic ∧ exponentialBuckets n x y = .panic ∧ exponentialBuckets n y x = .panic := by
  have h1 : ∀ z, flt z y = false := by intro z; simp [flt, h]
  unfold linearBuckets exponentialBuckets
  simp [h1]

/-- C69, linear. The bounds are as many as asked for; the first is `start`; bound `i` is `start + i * width` with two
roundings, that of the product and that of the sum. So it is off by at most `2^-53` of itself and of `i * width`, and
not at all if both can be represented. -/
theorem C69_linear (n : Nat) (hn : n ≤ 2 ^ 53) (start width : F64) (hs : IsFinite start) (hw : IsFinite width)
    (h0 : 0 < real width) :
    ∃ le, linearBuckets n start width = .ok le ∧ le.length = n ∧
      (∀ x, le[0]? = some x → real x = real start) ∧
      ∀ (i : Nat) x, le[i]? = some x →
        (∃ p, RoundsTo (i * real width) p ∧ (IsFinite p → RoundsTo (real start + real p) x) ∧ (IsFinite x → IsFinite p)) ∧
        (IsFinite x → |real x - (real start + i * real width)| ≤
          |real start + i * real width| / 2 ^ 53 + (1 / 2 ^ 53 + 1 / 2 ^ 106) * (i * real width)) ∧
        ((∃ p, IsFinite p ∧ real p = i * real width) → (∃ y, IsFinite y ∧ real y = real start + i * real width) →
          IsFinite x ∧ real x = real start + i * real width) := by
  have hc : flt pzero width = true := by
    rw [flt_real isFinite_pzero hw, real_pzero]; exact h0
  refine ⟨_, by unfold linearBuckets; rw [if_pos hc], by simp, ?_⟩
  have key : ∀ (i : Nat) x, ((List.range n).map fun i => add start (mul width (ofNat i)))[i]? = some x →
        (∃ p, RoundsTo (i * real width) p ∧ (IsFinite p → RoundsTo (real start + real p) x) ∧ (IsFinite x → IsFinite p)) ∧
        (IsFinite x → |real x - (real start + i * real width)| ≤
          |real start + i * real width| / 2 ^ 53 + (1 / 2 ^ 53 + 1 / 2 ^ 106) * (i * real width)) ∧
        ((∃ p, IsFinite p ∧ real p = i * real width) → (∃ y, IsFinite y ∧ real y = real start + i * real width) →
          IsFinite x ∧ real x = real start + i * real width) := by
    intro i x hx
    rw [List.getElem?_map, Option.map_eq_some_iff] at hx
    obtain ⟨j, hj, rfl⟩ := hx
    obtain ⟨hlt, rfl⟩ := List.getElem?_eq_some_iff.1 hj
    rw [List.getElem_range]
    rw [List.length_range] at hlt
    have hi := finite_ofNat (n := i) (by omega)
    have ri := real_ofNat (n := i) (by omega)
    have hmul := mul_roundsTo hw hi
    rw [ri, mul_comm] at hmul
    refine ⟨⟨_, hmul, fun hp => add_roundsTo hs hp, fun hx => ?_⟩, fun hx => ?_, fun ⟨p, hp, hpe⟩ ⟨y, hy, hye⟩ => ?_⟩
    · rw [finite_iff] at hx ⊢
      exact (add_finite hx).2
    · rw [finite_iff] at hx hs hw hi
      have fp := (add_finite hx).2
      have e1 := add_error hs fp hx
      have hd : 2 ^ 1074 ∣ unit width.mag * unit (ofNat i).mag := by
        have hu : unit (ofNat i).mag = i * 2 ^ 1074 := ofNat_unit (by omega)
        rw [hu]
        exact (Nat.dvd_mul_left _ _).mul_left _
      have e2 := mul_error hw hi fp (.inr hd)
      rw [ri, mul_comm (real width)] at e2
      have hiw : 0 ≤ (i : ℚ) * real width := _root_.mul_nonneg (Nat.cast_nonneg i) h0.le
      rw [abs_of_nonneg hiw] at e2
      generalize real (mul width (ofNat i)) = p at *
      generalize (i : ℚ) * real width = q at *
      generalize real (add start _) = z at *
      generalize real start = s at *
      have t1 : |s + p| ≤ |s + q| + |p - q| := by
        have := abs_add_le (s + q) (p - q)
        rwa [show s + q + (p - q) = s + p by ring] at this
      have t2 : |z - (s + q)| ≤ |z - (s + p)| + |p - q| := by
        have := abs_add_le (z - (s + p)) (p - q)
        rwa [show z - (s + p) + (p - q) = z - (s + q) by ring] at this
      have t3 : |s + p| / 2 ^ 53 ≤ (|s + q| + q / 2 ^ 53) / 2 ^ 53 := by
        apply div_le_div_of_nonneg_right _ (by positivity); linarith
      have t4 : (|s + q| + q / 2 ^ 53) / 2 ^ 53 = |s + q| / 2 ^ 53 + 1 / 2 ^ 106 * q := by ring
      have t5 : (1 / 2 ^ 53 + 1 / 2 ^ 106) * q = q / 2 ^ 53 + 1 / 2 ^ 106 * q := by ring
      rw [t5]
      linarith
    · obtain ⟨f1, v1⟩ := roundsTo_exact hp hpe hmul
      have := add_roundsTo hs f1
      rw [v1] at this
      exact roundsTo_exact hy hye this
  refine ⟨fun x hx => ?_, key⟩
  have := (key 0 x hx).2.2 ⟨pzero, isFinite_pzero, by simp [real_pzero]⟩ ⟨start, hs, by simp⟩
  simpa using this.2

/-- C69, exponential. The bounds are as many as asked for; the first is `start`; bound `i` is `start * factor^i` up to
`i` roundings. Missing: starts below the normal numbers and bounds that overflow, for which it is false. -/
theorem C69_exponential_partial (n : Nat) (hn : n ≤ 2 ^ 31) (start factor : F64) (le : List F64)
    (h : exponentialBuckets n start factor = .ok le) (hs : 1 / 2 ^ 1022 ≤ real start) :
    le.length = n ∧ (∀ x, le[0]? = some x → x = start) ∧
      ∀ (i : Nat) x, le[i]? = some x → IsFinite x →
        (1 - 1 / 2 ^ 53) ^ i * (real start * real factor ^ i) ≤ real x ∧
        real x ≤ (1 + 1 / 2 ^ 53) ^ i * (real start * real factor ^ i) := by
  unfold exponentialBuckets at h
  split at h
  · rename_i hpos
    split at h
    · rename_i hone
      cases h
      obtain ⟨sn, s0⟩ := pos_iff.1 hpos
      have hf := gt_one hone
      have hstart : mul start (powi factor 0) = start := by
        have : powi factor 0 = one := by unfold powi; exact powiLoop_zero _ _ _
        rw [this]
        apply ext'
        · rw [(mul_pos_mag sn one_nonneg s0 one_mag_pos).1.1, sn.1]
        · rw [(mul_pos_mag sn one_nonneg s0 one_mag_pos).2]
          split
          · rename_i hc
            rcases hc with hc | hc
            · exact hc.symm
            · exact absurd hc (by decide)
          · rw [unit_one, roundMag_unit sn.2]
      refine ⟨by simp, fun x hx => ?_, fun i x hx hfx => ?_⟩
      · rw [List.getElem?_map, Option.map_eq_some_iff] at hx
        obtain ⟨j, hj, rfl⟩ := hx
        obtain ⟨hlt, rfl⟩ := List.getElem?_eq_some_iff.1 hj
        rw [List.getElem_range]
        exact hstart
      · rw [List.getElem?_map, Option.map_eq_some_iff] at hx
        obtain ⟨j, hj, rfl⟩ := hx
        obtain ⟨hlt, rfl⟩ := List.getElem?_eq_some_iff.1 hj
        rw [List.getElem_range] at hfx ⊢
        rw [List.length_range] at hlt
        by_cases hi0 : i = 0
        · subst hi0
          rw [hstart]; simp
        · have gp := powi_ge hf i
          rw [finite_iff] at hfx
          have fs := finite_mono (le_mul sn gp.1 s0 gp.2) hfx
          have fp : (powi factor i).isFinite = true := by
            by_contra hc
            have hinf : (powi factor i).mag = INF := by
              have := gp.1.2
              simp only [isFinite, decide_eq_true_eq] at hc
              omega
            have := (mul_pos_mag sn gp.1 s0 gp.pos).2
            rw [if_pos (.inr hinf)] at this
            simp only [isFinite, decide_eq_true_eq] at hfx
            omega
          have hbig : 2 ^ 52 * 2 ^ 1074 ≤ unit start.mag * unit (powi factor i).mag := by
            refine Nat.mul_le_mul ?_ (unit_geOne gp)
            rw [real_eq, sn.val, show (2 : ℚ) ^ 1074 = 2 ^ 1022 * 2 ^ 52 by rw [← pow_add]] at hs
            have hK : (0 : ℚ) < 2 ^ 1022 := by positivity
            generalize (2 : ℚ) ^ 1022 = K at *
            rw [div_le_div_iff₀ hK (by positivity), one_mul] at hs
            have : (2 : ℚ) ^ 52 ≤ unit start.mag := by
              push_cast at hs
              nlinarith
            exact_mod_cast this
          have := (approx_self start).mul (powi_approx hf (by omega) (by omega) fp) fs fp hfx sn gp.1 (real_nonneg sn)
            (pow_nonneg (real_nonneg hf.1) _) hbig
          rw [show 0 + (i - 1) + 1 = i by omega] at this
          exact this
    · cases h
  · cases h

/-- C69 is false where `factor^i` overflows: with start `2^-1000` and factor `2^1000`, bound 2 is `+Inf`, although
`start * factor^2` is `2^1000`. -/
theorem C69_overflow_refuted : ∃ start factor le x, exponentialBuckets 3 start factor = .ok le ∧ le[2]? = some x ∧
    ¬ IsFinite x ∧ ∃ y, IsFinite y ∧ real y = real start * real factor ^ 2 := by
  refine ⟨⟨0x0170000000000000, by decide⟩, ⟨0x7e70000000000000, by decide⟩, _, _,
    by unfold exponentialBuckets; rw [if_pos (by decide +kernel), if_pos (by decide +kernel)],
    by rw [List.getElem?_map, List.getElem?_range (by decide)]; exact Option.map_some _ _, ?_,
    ⟨0x7e70000000000000, by decide⟩, ?_, ?_⟩
  · unfold IsFinite; decide +kernel
  · unfold IsFinite; decide +kernel
  · have e1 : real ⟨0x7e70000000000000, by decide⟩ = 2 ^ 1000 := by
      unfold real
      rw [if_pos (by decide), if_neg (by decide), show expField ⟨0x7e70000000000000, by decide⟩ = 2023 by decide,
        show fracField ⟨0x7e70000000000000, by decide⟩ = 0 by decide,
        show ((2023 : Nat) : Int) - 1023 = (1000 : Nat) by decide, zpow_natCast]
      simp
    have e2 : real ⟨0x0170000000000000, by decide⟩ = (2 ^ 1000)⁻¹ := by
      unfold real
      rw [if_pos (by decide), if_neg (by decide), show expField ⟨0x0170000000000000, by decide⟩ = 23 by decide,
        show fracField ⟨0x0170000000000000, by decide⟩ = 0 by decide,
        show ((23 : Nat) : Int) - 1023 = -(1000 : Nat) by decide, zpow_neg, zpow_natCast]
      simp
    rw [e1, e2]
    have : (2 : ℚ) ^ 1000 ≠ 0 := by positivity
    generalize (2 : ℚ) ^ 1000 = K at *
    field_simp

/-- C69 is false below the normal numbers: from the least positive double, with factor 1.5, bound 1 is twice the start. -/
theorem C69_subnormal_refuted : ∃ start factor le x, exponentialBuckets 2 start factor = .ok le ∧ le[1]? = some x ∧
    IsFinite x ∧ 0 < real start ∧ real factor = 3 / 2 ∧ real x = 2 * real start := by
  refine ⟨⟨1, by decide⟩, ⟨0x3ff8000000000000, by decide⟩, _, _,
    by unfold exponentialBuckets; rw [if_pos (by decide +kernel), if_pos (by decide +kernel)],
    by rw [List.getElem?_map, List.getElem?_range (by decide)]; exact Option.map_some _ _, ?_, ?_, ?_, ?_⟩
  · unfold IsFinite; decide +kernel
  · rw [real_eq, show F64.val ⟨1, by decide⟩ = 1 by decide]; positivity
  · unfold real
    rw [if_pos (by decide), if_neg (by decide), show expField ⟨0x3ff8000000000000, by decide⟩ = 1023 by decide,
      show fracField ⟨0x3ff8000000000000, by decide⟩ = 2 ^ 51 by decide]
    norm_num
  · rw [show mul ⟨1, by decide⟩ (powi ⟨0x3ff8000000000000, by decide⟩ 1) = ⟨2, by decide⟩ by decide +kernel, real_eq, real_eq,
      show F64.val ⟨1, by decide⟩ = 1 by decide, show F64.val ⟨2, by decide⟩ = 2 by decide]
    push_cast
    generalize (2 : ℚ) ^ 1074 = K
    ring

/-! ## C70 -/

/-- If `v` is finite, it is the exact sum of `xs` up to as many roundings as there are numbers. -/
def Spec.SumOf (v : F64) (xs : List F64) : Prop :=
  IsFinite v → |real v - (xs.map real).sum| ≤ ((1 + 1 / 2 ^ 53) ^ xs.length - 1) * (xs.map fun x => |real x|).sum

theorem sumOf_fold {ys xs : List F64} (hp : ys.Perm xs) : SumOf (ys.foldl add pzero) xs := by
  intro hf
  have := fold_error ys pzero ((finite_iff _).1 hf)
  rw [real_pzero, abs_zero, zero_add, zero_add] at this
  rwa [(hp.map real).sum_eq, (hp.map fun x => |real x|).sum_eq, hp.length_eq] at this

/-- C70. Whatever the threads do: the sum in a sample of a histogram is the exact sum of the observations completed
before, up to one rounding for each. -/
theorem C70_histogram {le : List F64} {tr tr' : List HistEvent} {t : Tid} {out : List Nat} {inf : Nat} {sum : F64}
    {s : HistSys} (h : Exec (HistStep le) (HistSys.new le.length) (tr ++ .sample t (out, inf, sum) :: tr') s) :
    SumOf sum (completed tr) := by
  obtain ⟨ys, st, hp, hall, hr⟩ := C22_snapshot h
  obtain ⟨h', e1, _, e3⟩ := observeAll_counted le ys [] _ (counted_default le)
  rw [hall] at e1
  cases e1
  cases hr
  rw [e3]
  exact sumOf_fold hp

/-- C70. The `_sum` line of a scrape. -/
theorem C70_text {ryu : F64 → Bytes} {rf : Bytes → Option F64} (F : FloatText ryu rf) (m : Mode)
    (le xs : List F64) (hle : NonDecreasing le) (hx : xs.length < 2 ^ 63)
    (ls : Labels) (n : Name) (st : TState) (w : Bytes) (hn : MetricNameRe n.text) (hls : ∀ l ∈ ls, LabelNameRe l.1) :
    ∃ h out, ∃ samples : List Sample, histObserveAll le (HistInner.default le.length) xs = .ok h ∧
      textSample m ryu (.histogram le h) ls n ⟨st, w⟩ = (.ok (), ⟨.metrics, w ++ out⟩) ∧
      readLines rf out = some (samples.map .sample) ∧
      ∃ s ∈ samples, ∃ v, s.name = n.text ++ b!"_sum" ∧ s.value = .float v ∧ SumOf v xs := by
  obtain ⟨h, out, samples, e1, e2, e3, e4⟩ := C26_not_above F m le xs hle hx ls n st w hn hls
  refine ⟨h, out, samples, e1, e2, e3, ?_⟩
  have hmem : (⟨n.text ++ b!"_sum", ls, .float (canon (xs.foldl F64.add F64.pzero))⟩ : Expected) ∈
      histogramShape n.text ls (le ++ [F64.inf false])
        ((le.map fun b => ((xs.filter fun x => !flt b x).length : Int)) ++ [(xs.length : Int)])
        (xs.foldl F64.add F64.pzero) xs.length := by
    simp [histogramShape]
  obtain ⟨i, hi, he⟩ := List.mem_iff_getElem.1 hmem
  have hlen := e4.length_eq
  have hr := (List.forall₂_iff_get.1 e4).2 i hi (by omega)
  simp only [List.get_eq_getElem] at hr
  rw [he] at hr
  refine ⟨_, List.getElem_mem (by omega), _, hr.1, hr.2.2, ?_⟩
  intro hf
  unfold canon at hf ⊢
  split at hf
  · exact absurd hf (by unfold IsFinite; decide)
  · rename_i hc
    rw [if_neg hc]
    exact sumOf_fold (.refl _) hf

/-- C70. A float gauge that is not `set`: whatever the threads do, and in whatever order their changes take effect, its
value is the exact one up to one rounding for each change (decrements are increments by the negative). -/
theorem C70_float {v0 : F64} {tr : List FloatEvent} {s : FloatSys} (h : Exec FloatStep (FloatSys.new v0) tr s)
    {deltas : List F64} (hd : (floatEffects tr).map Prod.snd = deltas.map .incBy)
    (hf : IsFinite (s.mem.valAt s.mem.mods.length)) :
    |real (s.mem.valAt s.mem.mods.length) - (real v0 + (deltas.map real).sum)| ≤
      ((1 + 1 / 2 ^ 53) ^ deltas.length - 1) * (|real v0| + (deltas.map fun x => |real x|).sum) := by
  obtain ⟨order, hl, hv⟩ := C21_value h
  have hp : (order.map Prod.snd).Perm (deltas.map FloatOp.incBy) := hd ▸ hl.perm.map Prod.snd
  let amount : FloatOp → F64 := fun op => match op with | .incBy x => x | .set x => x
  have hp' : (order.map fun u => amount u.2).Perm deltas := by
    have := hp.map amount
    rw [List.map_map, List.map_map] at this
    have e : (deltas.map (amount ∘ FloatOp.incBy)) = deltas := by
      rw [show amount ∘ FloatOp.incBy = id from rfl, List.map_id]
    rw [e] at this
    exact this
  have hfold : order.foldl (fun v u => FloatOp.on v u.2) v0 = (order.map fun u => amount u.2).foldl add v0 := by
    rw [List.foldl_map]
    refine List.foldl_ext _ _ _ fun v u hu => ?_
    have : u.2 ∈ deltas.map FloatOp.incBy := hp.subset (List.mem_map_of_mem hu)
    obtain ⟨x, _, hx⟩ := List.mem_map.1 this
    rw [← hx]; rfl
  rw [hv, hfold] at hf ⊢
  have := fold_error _ v0 ((finite_iff _).1 hf)
  rwa [(hp'.map real).sum_eq, (hp'.map fun x => |real x|).sum_eq, hp'.length_eq] at this

/-- C70. A float gauge that is also `set`: in the order in which the calls take effect, its value is that of the last
`set` with the changes after it, up to one rounding for each of these. -/
theorem C70_float_set {v0 : F64} {tr : List FloatEvent} {s : FloatSys} (h : Exec FloatStep (FloatSys.new v0) tr s)
    (hf : IsFinite (s.mem.valAt s.mem.mods.length)) :
    ∃ order, Linearises (floatEffects tr) order ∧
      ∀ (pre post : List (Tid × FloatOp)) (t : Tid) (x : F64) (deltas : List F64), order = pre ++ (t, .set x) :: post →
        post.map Prod.snd = deltas.map .incBy →
        |real (s.mem.valAt s.mem.mods.length) - (real x + (deltas.map real).sum)| ≤
          ((1 + 1 / 2 ^ 53) ^ deltas.length - 1) * (|real x| + (deltas.map fun x => |real x|).sum) := by
  obtain ⟨order, hl, hv⟩ := C21_value h
  refine ⟨order, hl, fun pre post t x deltas he hd => ?_⟩
  have hfold : order.foldl (fun v u => FloatOp.on v u.2) v0 = deltas.foldl add x := by
    rw [he, List.foldl_append, List.foldl_cons]
    have : ∀ (post : List (Tid × FloatOp)) (deltas : List F64) (v : F64), post.map Prod.snd = deltas.map FloatOp.incBy →
        post.foldl (fun v u => FloatOp.on v u.2) v = deltas.foldl add v := by
      intro post
      induction post with
      | nil => intro deltas v h; cases deltas with
        | nil => rfl
        | cons => simp at h
      | cons u post ih => intro deltas v h; cases deltas with
        | nil => simp at h
        | cons d deltas =>
          simp only [List.map_cons, List.cons.injEq] at h
          rw [List.foldl_cons, List.foldl_cons, h.1]
          exact ih deltas _ h.2
    exact this post deltas _ hd
  rw [hv, hfold] at hf ⊢
  exact fold_error _ x ((finite_iff _).1 hf)

section examples

/-- Bounds 1, 3, 5, exactly. -/
example : linearBuckets 3 one (ofNat 2) = .ok [one, ofNat 3, ofNat 5] := by decide +kernel

/-- `0.1 + 2 * 0.1` is not `0.3`, but next to it. -/
example : ∃ le x, linearBuckets 3 ⟨0x3fb999999999999a, by decide⟩ ⟨0x3fb999999999999a, by decide⟩ = .ok le ∧ le[2]? = some x ∧
    x = ⟨0x3fd3333333333334, by decide⟩ := by
  refine ⟨_, _, by unfold linearBuckets; rw [if_pos (by decide +kernel)],
    by rw [List.getElem?_map, List.getElem?_range (by decide)]; exact Option.map_some _ _, by decide +kernel⟩

example : exponentialBuckets 4 one (ofNat 2) = .ok [one, ofNat 2, ofNat 4, ofNat 8] := by decide +kernel

/-- The conditions of `C69_exponential_partial`. -/
example : 1 / 2 ^ 1022 ≤ real one := by
  rw [real_one, div_le_one (by positivity)]
  exact one_le_pow₀ (by norm_num)

/-- A sum with a rounding: `2^53 + 1 + 1`, added one after the other, is `2^53`. -/
example : real ([ofNat (2 ^ 53), one, one].foldl add pzero) = 2 ^ 53 := by
  rw [show [ofNat (2 ^ 53), one, one].foldl add pzero = ofNat (2 ^ 53) by decide +kernel, real_ofNat (Nat.le_refl _)]
  norm_num

/-- C70 applies to it. -/
example : SumOf ([ofNat (2 ^ 53), one, one].foldl add pzero) [one, ofNat (2 ^ 53), one] :=
  sumOf_fold (by apply List.Perm.swap)

/-- A histogram that is sampled while two threads observe: C70 holds of the sum. -/
example : SumOf (ofNat 3) [ofNat 2, one] := by
  obtain ⟨s, h⟩ := exHist
  have := C70_histogram (tr' := []) h
  rw [completed] at this
  exact this

/-- A gauge that one thread sets while another increments it. -/
example : ∃ order, Linearises [(2, FloatOp.set one), (1, .incBy one)] order ∧
    ∀ (pre post : List (Tid × FloatOp)) (t : Tid) (x : F64) (deltas : List F64), order = pre ++ (t, .set x) :: post →
      post.map Prod.snd = deltas.map .incBy →
      |real (ofNat 2) - (real x + (deltas.map real).sum)| ≤
        ((1 + 1 / 2 ^ 53) ^ deltas.length - 1) * (|real x| + (deltas.map fun x => |real x|).sum) := by
  obtain ⟨s, h, _, hv⟩ := exFloatRun
  have := C70_float_set h (by rw [hv]; exact finite_ofNat (by norm_num))
  rw [hv] at this
  exact this

end examples

end Measured
