import Verif.Props.Accuracy
import Verif.Proof.Exponential

/-!
# Exponential bucket bounds for all starts and factors (C69)
-/

namespace Measured
open Measured.Spec F64

/-- C69, what the bounds of `exponential_buckets` are for all positive finite starts and all finite factors above 1, also
where the claim is false. Bound `i` is the rounding of `start * p`, where `p` is `factor^i` up to `i - 1` roundings. So a
finite bound is `start * factor^i` up to `i` roundings and half of the least positive number. If `factor^i` overflows,
then the bound is `+Inf`; this only happens if `factor^i`, with `i` roundings, exceeds all doubles. -/
theorem C69_exponential_exact (n : Nat) (hn : n ≤ 2 ^ 31) (start factor : F64) (hs : IsFinite start) (hf : IsFinite factor)
    (h0 : 0 < real start) (h1 : 1 < real factor) :
    ∃ le, exponentialBuckets n start factor = .ok le ∧ le.length = n ∧ (∀ x, le[0]? = some x → x = start) ∧
      ∀ (i : Nat) x, le[i]? = some x →
        (IsFinite x →
          (1 - 1 / 2 ^ 53) ^ i * (real start * real factor ^ i) - 1 / 2 ^ 1075 ≤ real x ∧
          real x ≤ (1 + 1 / 2 ^ 53) ^ i * (real start * real factor ^ i) + 1 / 2 ^ 1075) ∧
        ((∃ p, IsFinite p ∧ RoundsTo (real start * real p) x ∧
            (1 - 1 / 2 ^ 53) ^ (i - 1) * real factor ^ i ≤ real p ∧ real p ≤ (1 + 1 / 2 ^ 53) ^ (i - 1) * real factor ^ i) ∨
          (x = inf false ∧ overflowBound ≤ (1 + 1 / 2 ^ 53) ^ i * real factor ^ i)) := by
  have hpos : flt pzero start = true := by rw [flt_real isFinite_pzero hs, real_pzero]; exact h0
  have hone : flt one factor = true := by rw [flt_real isFinite_one hf, real_one]; exact h1
  obtain ⟨sn, s0⟩ := pos_iff.1 hpos
  have hg := gt_one hone
  refine ⟨_, by unfold exponentialBuckets; rw [if_pos hpos, if_pos hone], by simp, fun x hx => ?_, fun i x hx => ?_⟩
  · rw [List.getElem?_map, Option.map_eq_some_iff] at hx
    obtain ⟨j, hj, rfl⟩ := hx
    obtain ⟨hlt, rfl⟩ := List.getElem?_eq_some_iff.1 hj
    rw [List.getElem_range]
    have : powi factor 0 = one := by unfold powi; exact powiLoop_zero _ _ _
    rw [this]
    apply ext'
    · rw [(mul_pos_mag sn one_nonneg s0 one_mag_pos).1.1, sn.1]
    · rw [(mul_pos_mag sn one_nonneg s0 one_mag_pos).2]
      split
      · rename_i hc
        rcases hc with hc | hc
        · exact hc.symm
        · exact absurd hc (by decide)
      · rw [unit_one, roundMag_unit sn.2]
  · rw [List.getElem?_map, Option.map_eq_some_iff] at hx
    obtain ⟨j, hj, rfl⟩ := hx
    obtain ⟨hlt, rfl⟩ := List.getElem?_eq_some_iff.1 hj
    rw [List.getElem_range]
    rw [List.length_range] at hlt
    have gp := powi_ge hg i
    by_cases fp : (powi factor i).isFinite = true
    · have hap : (1 - 1 / 2 ^ 53) ^ (i - 1) * real factor ^ i ≤ real (powi factor i) ∧
          real (powi factor i) ≤ (1 + 1 / 2 ^ 53) ^ (i - 1) * real factor ^ i := by
        by_cases hi : i = 0
        · subst hi
          have : powi factor 0 = one := by unfold powi; exact powiLoop_zero _ _ _
          rw [this, real_one]; simp
        · exact powi_approx hg (by omega) (by omega) fp
      refine ⟨fun hx => ?_, .inl ⟨_, (finite_iff _).2 fp, mul_roundsTo hs ((finite_iff _).2 fp), hap⟩⟩
      rw [finite_iff] at hx hs
      have m0 : 0 ≤ real start * real (powi factor i) := _root_.mul_nonneg h0.le (real_nonneg gp.1)
      have hl : (0 : ℚ) ≤ 1 - 1 / 2 ^ 53 := by norm_num
      have hl1 : (1 - 1 / 2 ^ 53 : ℚ) ≤ 1 := by norm_num
      have hu : (1 : ℚ) ≤ 1 + 1 / 2 ^ 53 := by norm_num
      have he : |real (mul start (powi factor i)) - real start * real (powi factor i)| ≤
          (if i = 0 then 0 else real start * real (powi factor i) / 2 ^ 53) + 1 / 2 ^ 1075 := by
        by_cases hi : i = 0
        · subst hi
          have : powi factor 0 = one := by unfold powi; exact powiLoop_zero _ _ _
          rw [if_pos rfl, this, real_one, mul_one]
          have : mul start one = start := by
            apply ext'
            · rw [(mul_pos_mag sn one_nonneg s0 one_mag_pos).1.1, sn.1]
            · rw [(mul_pos_mag sn one_nonneg s0 one_mag_pos).2]
              split
              · rename_i hc
                rcases hc with hc | hc
                · exact hc.symm
                · exact absurd hc (by decide)
              · rw [unit_one, roundMag_unit sn.2]
          rw [this, sub_self, abs_zero, zero_add]
          positivity
        · rw [if_neg hi]
          rcases mul_error_all hs fp hx with h | h
          · rw [abs_of_nonneg m0] at h
            exact le_trans h (le_add_of_nonneg_right (by positivity))
          · exact le_trans h (le_add_of_nonneg_left (div_nonneg m0 (by positivity)))
      rw [abs_le] at he
      generalize real (mul start (powi factor i)) = z at *
      generalize (1 / 2 ^ 1075 : ℚ) = e at *
      by_cases hi : i = 0
      · subst hi
        rw [if_pos rfl] at he
        have hp1 : real (powi factor 0) = 1 := by
          have : powi factor 0 = one := by unfold powi; exact powiLoop_zero _ _ _
          rw [this, real_one]
        rw [hp1] at he
        simp only [pow_zero, one_mul, mul_one] at *
        constructor <;> linarith [he.1, he.2]
      · rw [if_neg hi] at he
        have e1 : ∀ c : ℚ, c ^ i = c ^ (i - 1) * c := fun c => by rw [← pow_succ]; congr 1; omega
        rw [e1 (1 - 1 / 2 ^ 53), e1 (1 + 1 / 2 ^ 53)]
        obtain ⟨p1, p2⟩ := hap
        have q1 := mul_le_mul_of_nonneg_left p1 h0.le
        have q2 := mul_le_mul_of_nonneg_left p2 h0.le
        have r1 := mul_le_mul_of_nonneg_right q1 hl
        have r2 := mul_le_mul_of_nonneg_right q2 (show (0 : ℚ) ≤ 1 + 1 / 2 ^ 53 by norm_num)
        have a1 : (1 - 1 / 2 ^ 53) ^ (i - 1) * (1 - 1 / 2 ^ 53) * (real start * real factor ^ i) =
            real start * ((1 - 1 / 2 ^ 53) ^ (i - 1) * real factor ^ i) * (1 - 1 / 2 ^ 53) := by ring
        have a2 : (1 + 1 / 2 ^ 53) ^ (i - 1) * (1 + 1 / 2 ^ 53) * (real start * real factor ^ i) =
            real start * ((1 + 1 / 2 ^ 53) ^ (i - 1) * real factor ^ i) * (1 + 1 / 2 ^ 53) := by ring
        rw [a1, a2]
        constructor
        · refine le_trans (sub_le_sub_right r1 e) ?_
          linarith [he.1]
        · refine le_trans ?_ (add_le_add_left r2 e)
          linarith [he.2]
    · have fp' : (powi factor i).isFinite = false := by simpa using fp
      have hinf : (powi factor i).mag = INF := by
        have := gp.1.2
        simp only [isFinite, decide_eq_true_eq] at fp
        omega
      have hm := mul_pos_mag sn gp.1 s0 gp.pos
      rw [if_pos (.inr hinf)] at hm
      have hxi : mul start (powi factor i) = inf false := ext' (by rw [hm.1.1]; decide) (by rw [hm.2]; decide)
      refine ⟨fun h => ?_, .inr ⟨hxi, powi_over hg ((finite_iff _).1 hf) (by omega) fp'⟩⟩
      rw [hxi] at h
      exact absurd h (by unfold IsFinite; decide)

/-- The hypotheses hold for the least positive double and factor 1.5, where the relative bound fails
(C69_subnormal_refuted), and for start `2^-1000` and factor `2^1000` (C69_overflow_refuted). -/
example : IsFinite ⟨1, by decide⟩ ∧ 0 < real ⟨1, by decide⟩ ∧ IsFinite ⟨0x3FF8000000000000, by decide⟩ ∧
    1 < real ⟨0x3FF8000000000000, by decide⟩ := by
  refine ⟨by unfold IsFinite; decide, ?_, by unfold IsFinite; decide, ?_⟩
  · rw [← real_pzero, ← flt_real isFinite_pzero (by unfold IsFinite; decide)]; decide
  · rw [← real_one, ← flt_real isFinite_one (by unfold IsFinite; decide)]; decide +kernel

end Measured
