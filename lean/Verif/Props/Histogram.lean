import Verif.Model.Timer
import Verif.Spec.Histogram
import Verif.Proof.Histogram
import Verif.Props.MetricVec

/-! # Properties of thresholds and timers (C27, C28, C30) -/

namespace Measured
open Measured.Spec F64

theorem Spec.StrictlyIncreasing.iff_pairwise {b : List F64} :
    StrictlyIncreasing b ↔ b.Pairwise fun x y => flt x y = true := by
  rw [List.pairwise_iff_getElem]
  constructor
  · intro h i j hi hj hij
    exact h i j _ _ hij (List.getElem?_eq_getElem hi) (List.getElem?_eq_getElem hj)
  · intro h i j x y hij hx hy
    obtain ⟨h1, e1⟩ := List.getElem?_eq_some_iff.1 hx
    obtain ⟨h2, e2⟩ := List.getElem?_eq_some_iff.1 hy
    rw [← e1, ← e2]; exact h i j h1 h2 hij

theorem Spec.NonDecreasing.iff_pairwise {b : List F64} :
    NonDecreasing b ↔ b.Pairwise fun x y => fle x y = true := by
  rw [List.pairwise_iff_getElem]
  constructor
  · intro h i j hi hj hij
    exact h i j _ _ hij (List.getElem?_eq_getElem hi) (List.getElem?_eq_getElem hj)
  · intro h i j x y hij hx hy
    obtain ⟨h1, e1⟩ := List.getElem?_eq_some_iff.1 hx
    obtain ⟨h2, e2⟩ := List.getElem?_eq_some_iff.1 hy
    rw [← e1, ← e2]; exact h i j h1 h2 hij

theorem Spec.StrictlyIncreasing.nonDecreasing {b : List F64} (h : StrictlyIncreasing b) : NonDecreasing b :=
  fun i j x y hij hx hy => flt_fle (h i j x y hij hx hy)

/-! ## C27 -/

theorem withBucketsLoop_nil (i k : Nat) : withBucketsLoop [] i (k + 1) = .panic := rfl

/-- C27 fails for `N = 0`: the empty list is strictly increasing, and `with_buckets([])` panics in every build. -/
theorem C27_with_buckets_empty_refuted (m : Mode) : StrictlyIncreasing [] ∧ withBuckets m [] = .panic := by
  refine ⟨fun i j x y _ hx => by simp at hx, ?_⟩
  cases m with
  | debug => rfl
  | release =>
    have : W64 - 1 = 18446744073709551614 + 1 := by decide
    simp [withBuckets, this, withBucketsLoop_nil]

/-- C27 for `N ≥ 1` (missing: `N = 0`, where it is false). Strictly increasing arrays are accepted unchanged,
all others panic. -/
theorem C27_with_buckets_partial (m : Mode) (b : List F64) (hb : b ≠ []) :
    (StrictlyIncreasing b → withBuckets m b = .ok b) ∧ (¬ StrictlyIncreasing b → withBuckets m b = .panic) := by
  have hl : b.length ≠ 0 := by simpa using hb
  obtain ⟨h1, h2⟩ := withBucketsLoop_spec b (b.length - 1) 0 (by omega)
  have key : withBucketsLoop b 0 (b.length - 1) = .ok () ↔ StrictlyIncreasing b := by
    rw [h1, Spec.StrictlyIncreasing.iff_pairwise]
    constructor
    · intro h
      apply pairwise_of_consecutive (R := fun x y => flt x y = true) flt_trans
      intro j x y hx hy
      obtain ⟨hlt, _⟩ := List.getElem?_eq_some_iff.1 hy
      exact h j x y (by omega) (by omega) hx hy
    · intro h j x y _ _ hx hy
      exact consecutive_of_pairwise h hx hy
  constructor
  · intro h
    simp [withBuckets, hb, key.2 h]
  · intro h
    rcases h2 with h2 | h2
    · exact absurd (key.1 h2) h
    · simp [withBuckets, hb, h2]

/-! ## C28 -/

/-- C28, linear. -/
theorem C28_linear (n : Nat) (hn : n ≤ 2 ^ 64) (start width : F64) (hs : start.isFinite = true)
    (hw : width.isFinite = true) (le : List F64) (h : linearBuckets n start width = .ok le) :
    le.length = n ∧ NonDecreasing le ∧ ∀ t ∈ le, t.isNaN = false := by
  unfold linearBuckets at h
  split at h
  · rename_i hpos
    cases h
    obtain ⟨wn, w0⟩ := pos_iff.1 hpos
    have fw := isFinite_iff.1 hw
    have step : ∀ i, i < n → NonNeg (mul width (ofNat i)) := fun i hi =>
      (mul_nonneg wn (ofNat_nonneg i) fw (roundMag_ofNat_lt (by omega))).1
    refine ⟨by simp, ?_, ?_⟩
    · rw [Spec.NonDecreasing.iff_pairwise]
      apply pairwise_map_range
      intro i hi
      apply add_mono_nonneg hs (step i (by omega)) (step (i + 1) hi)
      exact mul_nonneg_mono wn (ofNat_nonneg _) (ofNat_nonneg _) fw (roundMag_ofNat_lt (by omega))
        (ofNat_mono (by omega))
    · intro t ht
      obtain ⟨i, hi, rfl⟩ := List.mem_map.1 ht
      have hi := step i (List.mem_range.1 hi)
      exact (fle_iff.1 (add_mono_nonneg hs hi hi (Nat.le_refl _))).1
  · cases h

/-- C28, exponential. -/
theorem C28_exponential (n : Nat) (hn : n ≤ 2 ^ 31) (start factor : F64)
    (le : List F64) (h : exponentialBuckets n start factor = .ok le) :
    le.length = n ∧ NonDecreasing le ∧ ∀ t ∈ le, t.isNaN = false := by
  unfold exponentialBuckets at h
  split at h
  · rename_i hpos
    split at h
    · rename_i hone
      cases h
      obtain ⟨sn, s0⟩ := pos_iff.1 hpos
      have hf := gt_one hone
      have step : ∀ i, NonNeg (mul start (powi factor i)) := fun i =>
        (mul_pos_mag sn (powi_ge hf i).1 s0 (powi_ge hf i).pos).1
      refine ⟨by simp, ?_, ?_⟩
      · rw [Spec.NonDecreasing.iff_pairwise]
        apply pairwise_map_range
        intro i hi
        rw [NonNeg.le_iff (step i) (step (i + 1))]
        exact mul_mono sn (powi_ge hf i).1 sn (powi_ge hf (i + 1)).1 s0 (powi_ge hf i).pos (Nat.le_refl _)
          (powi_mono hf (by omega))
      · intro t ht
        obtain ⟨i, _, rfl⟩ := List.mem_map.1 ht
        exact (step i).not_nan
    · cases h
  · cases h

/-- C28, consequence: with non-decreasing thresholds an observation that is not NaN is put in the first bucket
whose bound is not below it (bucket `N` is `+Inf`), and the search never leaves the array. -/
theorem C28_first_bucket (le : List F64) (hle : NonDecreasing le) (hnan : ∀ t ∈ le, t.isNaN = false) (x : F64)
    (hx : x.isNaN = false) :
    ∃ k, slicePartitionPoint le (fun t => flt t x) = .ok k ∧ k ≤ le.length ∧
      (∀ i t, le[i]? = some t → i < k → flt t x = true) ∧
      (∀ t, le[k]? = some t → fle x t = true) := by
  rw [Spec.NonDecreasing.iff_pairwise] at hle
  refine ⟨bucketOf le x, partition_bucketOf hle x, bucketOf_le le x, ?_, ?_⟩
  · intro i t ht hi
    by_contra hc
    have := (bucketOf_le_iff hle x ht).2 (by simpa using hc)
    omega
  · intro t ht
    have := (bucketOf_le_iff hle x ht).1 (Nat.le_refl _)
    exact (not_flt (hnan t (List.mem_of_getElem? ht)) hx).1 this

/-! ## C30 -/

/-- One observation adds one to exactly one counter, whatever the thresholds are (even NaN), and adds the value
to the sum. It never panics. -/
theorem C30_one_observation (le : List F64) (h : HistInner) (hlen : h.buckets.length = le.length) (x : F64) :
    ∃ h' k, histObserve le h x = .ok h' ∧ k ≤ le.length ∧ h'.sum = F64.add h.sum x ∧
      h'.buckets.length = le.length ∧
      (∀ (j c : Nat), h.buckets[j]? = some c → h'.buckets[j]? = some (if j = k then (c + 1) % 2 ^ 64 else c)) ∧
      h'.inf = if k = le.length then (h.inf + 1) % 2 ^ 64 else h.inf := by
  obtain ⟨k, e, hk⟩ := slicePartitionPoint_le le fun t => flt t x
  unfold histObserve
  rw [e]
  simp only [Out.ok_bind, HistInner.observe, hlen, if_pos hk]
  refine ⟨_, k, rfl, hk, ?_⟩
  clear e
  by_cases hlt : k < le.length
  · simp only [hlt, if_true]
    refine ⟨trivial, by simpa using hlen, ?_, by rw [if_neg (by omega)]⟩
    intro j c hc
    rw [List.getElem?_modify, hc]
    by_cases hjk : k = j
    · subst hjk; simp [incU64, W64]
    · simp only [hjk, if_false]; rw [if_neg (by omega)]; rfl
  · simp only [hlt, if_false]
    refine ⟨trivial, hlen, ?_, by rw [if_pos (by omega)]; simp [incU64, W64]⟩
    intro j c hc
    obtain ⟨hj, _⟩ := List.getElem?_eq_some_iff.1 hc
    rw [if_neg (by omega)]; exact hc

section
variable {S G U M : Type} [DecidableEq U] [DecidableEq G]
variable (m : Mode) (p : Nat) (h0 : 0 < p) (hp : p ≤ 2 ^ 55)
variable (hasher : U → Nat) (dflt : M) (t : GroupSet S G U)
variable (inv : S → Prop) (le : S → S → Prop) (valid : S → U → Prop) (L : GroupSetLaws t inv le valid)
variable (s : S) (hs : inv s) (dense : Bool) (v : MetricVec S U M) (hv : Created m p t s dense v)
variable (ops ops2 : List (VecOp G M)) (rec : Nat → M → M)

theorem VecTimer.observe_eq (τ : VecTimer U) (hτ : τ.vec = some ()) (now : Nat) :
    (τ.observe dflt hasher rec now : RS (MetricVec S U M) Nat) =
      (MetricVec.getMetric dflt hasher τ.id (rec (now - τ.start)) >>= fun _ => pure (now - τ.start)) := by
  funext w
  simp only [VecTimer.observe, hτ, expect, RS.lift_bind, VecTimer.record, VecTimer.drop, RS.bind_assoc',
    RS.pure_bind']

theorem VecTimer.drop_eq (τ : VecTimer U) (hτ : τ.vec = some ()) (now : Nat) :
    (τ.drop dflt hasher rec now : RS (MetricVec S U M) Unit) =
      (MetricVec.getMetric dflt hasher τ.id (rec (now - τ.start)) >>= fun _ => pure ()) := by
  funext w
  simp only [VecTimer.drop, hτ, VecTimer.record, RS.bind_assoc', RS.pure_bind']

include h0 hp L hs hv in
/-- C30. A timer is started for `g` after any program `ops`, then any program `ops2` runs, then the timer is
finished at time `now`. Observing it (which returns the elapsed time) or dropping it records the elapsed time
exactly once, in the state of `g` (a default state if the label is not live any more), and in no other label;
forgetting it changes nothing. -/
theorem C30_vec_timer (g : G) (start now : Nat) (τ : VecTimer U) (v1 : MetricVec S U M)
    (hτ : VecTimer.new m hasher t g start (ran m hasher dflt t v ops).vec = (.ok τ, v1)) :
    let w := (vecRun m hasher dflt t ⟨v1, (ran m hasher dflt t v ops).ids ++ [τ.id]⟩ ops2).2.vec
    let recorded (w' : MetricVec S U M) : Prop :=
      (∀ x, (g, x) ∈ samplesOf t w' ↔
        (∃ y, (g, y) ∈ samplesOf t w ∧ x = rec (now - start) y) ∨
        ((∀ y, (g, y) ∉ samplesOf t w) ∧ x = rec (now - start) dflt)) ∧
      ∀ g' x, g' ≠ g → ((g', x) ∈ samplesOf t w' ↔ (g', x) ∈ samplesOf t w)
    (∃ w', τ.observe dflt hasher rec now w = (.ok (now - start), w') ∧ recorded w') ∧
    (∃ w', τ.drop dflt hasher rec now w = (.ok (), w') ∧ recorded w') ∧
    τ.forget dflt hasher rec now w = (.ok (), w) := by
  intro w recorded
  -- the timer's id is the one a lookup issues
  have hstep : vecStep m hasher dflt t (ran m hasher dflt t v ops) (.lookup g) =
      (.found true, ⟨v1, (ran m hasher dflt t v ops).ids ++ [τ.id]⟩) ∧ τ.vec = some () ∧ τ.start = start := by
    simp only [VecTimer.new, RS.bind_run, MetricVec.withLabels] at hτ
    simp only [vecStep]
    cases hr : MetricVec.tryWithLabels m hasher t g (ran m hasher dflt t v ops).vec with
    | mk o v' =>
      rw [hr] at hτ
      rcases o with o | _ | _
      · cases o with
        | none => simp [expect] at hτ
        | some id =>
          simp only [expect, RS.pure_run, Prod.mk.injEq, Out.ok.injEq] at hτ
          obtain ⟨rfl, rfl⟩ := hτ
          exact ⟨rfl, rfl, rfl⟩
      · simp at hτ
      · simp at hτ
  obtain ⟨hstep, hvec, hstart⟩ := hstep
  have S1 := ran_sim m p h0 hp hasher dflt t inv le valid L s hs dense v hv ops
  obtain ⟨e2, S2⟩ := sim_step L m dflt S1 (.lookup g)
  rw [hstep] at e2 S2
  simp only [mapStep] at e2 S2
  split at e2
  case isFalse => cases e2
  rename_i henc
  rw [if_pos henc] at S2
  -- the program in between keeps the issued ids
  have S3 := (sim_run L m dflt S2 ops2).2
  have hkeep : ∀ (ops : List (VecOp G M)) (st : MapState S G M) (k : Nat) (g : G), st.issued[k]? = some g →
      (mapRun dense dflt t st ops).2.issued[k]? = some g := by
    intro ops
    induction ops with
    | nil => intro st k g h; exact h
    | cons op ops ih =>
      intro st k g h
      simp only [mapRun]
      apply ih
      cases op <;> simp only [mapStep] <;> repeat' split
      all_goals first
        | exact h
        | (simp only []; rw [List.getElem?_append_left (List.getElem?_eq_some_iff.1 h).1]; exact h)
  have hkeepId : ∀ (ops : List (VecOp G M)) (r : VecRun S U M) (k : Nat) (id : LabelId U), r.ids[k]? = some id →
      (vecRun m hasher dflt t r ops).2.ids[k]? = some id := by
    intro ops
    induction ops with
    | nil => intro r k id h; exact h
    | cons op ops ih =>
      intro r k id h
      simp only [vecRun]
      apply ih
      cases op <;> simp only [vecStep] <;> repeat' split
      all_goals first
        | exact h
        | (simp only []; rw [List.getElem?_append_left (List.getElem?_eq_some_iff.1 h).1]; exact h)
  have hlen := S1.ids.length_eq
  generalize hst3 : (mapRun dense dflt t
    { labels := afterLookup t (mapped dense dflt t s ops).labels g,
      issued := (mapped dense dflt t s ops).issued ++ [g], live := (mapped dense dflt t s ops).live } ops2).2 = st3 at S3
  have hk : st3.issued[(ran m hasher dflt t v ops).ids.length]? = some g := by
    rw [← hst3]
    apply hkeep
    rw [hlen]; simp
  have hkId := hkeepId ops2 ⟨v1, (ran m hasher dflt t v ops).ids ++ [τ.id]⟩ (ran m hasher dflt t v ops).ids.length τ.id
    (by simp)
  -- one access
  obtain ⟨e4, S4⟩ := sim_step L m dflt S3 (.access (ran m hasher dflt t v ops).ids.length (rec (now - start)))
  simp only [mapStep, hk] at e4 S4
  simp only [vecStep, hkId] at e4 S4
  have hacc : ∃ x w', MetricVec.getMetric dflt hasher τ.id (rec (now - start)) w = (.ok x, w') ∧ recorded w' := by
    cases hr : MetricVec.getMetric dflt hasher τ.id (rec (now - start)) w with
    | mk o w' =>
      have hr' := hr
      simp only [w] at hr'
      rw [hr'] at e4 S4
      cases o with
      | err => cases e4
      | panic => cases e4
      | ok x =>
        refine ⟨x, w', rfl, ?_, ?_⟩
        · intro x
          have c4 := (S4.collect L).2.1.2 g x
          rw [c4]
          simp only [MapState.setLive, if_true, Option.some.injEq]
          have c3 := fun y => (S3.collect L).2.1.2 g y
          simp only [w, c3]
          cases hl : st3.live g with
          | none => simp [eq_comm]
          | some y => simp [eq_comm]
        · intro g' x hne
          have c4 := (S4.collect L).2.1.2 g' x
          have c3 := (S3.collect L).2.1.2 g' x
          simp only [w]
          rw [c4, c3]
          simp [MapState.setLive, hne]
  obtain ⟨x, w', hg, hrec⟩ := hacc
  refine ⟨⟨w', ?_, hrec⟩, ⟨w', ?_, hrec⟩, rfl⟩
  · rw [VecTimer.observe_eq hasher dflt rec τ hvec, hstart, RS.bind_run, hg]; rfl
  · rw [VecTimer.drop_eq hasher dflt rec τ hvec, hstart, RS.bind_run, hg]; rfl

end

/-- C30 for a `Histogram` without labels. -/
theorem C30_timer {M : Type} (rec : Nat → M → M) (x : M) (start now : Nat) :
    (Timer.new start).observe rec now x = (.ok (now - start), rec (now - start) x) ∧
    (Timer.new start).drop rec now x = (.ok (), rec (now - start) x) ∧
    (Timer.new start).forget rec now x = (.ok (), x) := ⟨rfl, rfl, rfl⟩

/-! ## Concrete cases -/

section examples

/-- `0.5`, `2.0` -/
def exHalf : F64 := ⟨0x3fe0000000000000, by decide⟩
def exTwo : F64 := ⟨0x4000000000000000, by decide⟩

set_option exponentiation.threshold 3000

example : withBuckets .release [exHalf, F64.one, exTwo] = .ok [exHalf, F64.one, exTwo] := by decide +kernel
example : withBuckets .release [exHalf, exTwo, F64.one] = .panic := by decide
/-- Two equal bounds, and a NaN bound, are rejected; a single NaN bound is accepted. -/
example : withBuckets .release [exHalf, exHalf] = .panic := by decide +kernel
example : withBuckets .release [exHalf, F64.nan] = .panic := by decide +kernel
example : withBuckets .release [F64.nan] = .ok [F64.nan] := by decide

example : linearBuckets 3 F64.pzero F64.one = .ok [F64.pzero, F64.one, exTwo] := by decide +kernel
example : exponentialBuckets 3 exHalf exTwo = .ok [exHalf, F64.one, exTwo] := by decide +kernel
example : exHalf.isFinite = true ∧ exTwo.isFinite = true := by decide

/-- `2.0` is counted below the bound `2.0`; NaN is counted in the first bucket. -/
example : histObserveAll [exHalf, exTwo] (HistInner.default 2) [exTwo, F64.one, F64.nan] =
    .ok ⟨[1, 2], 0, F64.nan⟩ := by decide +kernel

/-- A timer for `Post` on a sparse vector: started at 10, finished at 17. -/
example : ∃ τ v1, VecTimer.new .release (fun _ => 77) (staticGroupSet ["Get", "Post"]) "Post" 10 exV = (.ok τ, v1) ∧
    (τ.observe 0 (fun _ => 77) (· + ·) 17 v1).1 = .ok 7 ∧
    samplesOf (staticGroupSet ["Get", "Post"]) (τ.observe 0 (fun _ => 77) (· + ·) 17 v1).2 = [("Post", 7)] :=
  ⟨_, _, rfl, by decide, by decide⟩

end examples

end Measured
