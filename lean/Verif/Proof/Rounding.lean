import Verif.Proof.F64
import Verif.Spec.Rounding
import Mathlib.Tactic.Linarith
import Mathlib.Tactic.FieldSimp
import Mathlib.Tactic.NormNum
import Mathlib.Tactic.Positivity
import Mathlib.Tactic.Zify

/-! The operations on doubles round correctly. -/

set_option exponentiation.threshold 3000

namespace Measured
open Measured.Spec
namespace F64

/-- Rounding stays between two neighbours; the lower one is `L`. -/
theorem raw_between (n t : Nat) :
    ∃ L r sh, unit L * 2 ^ t + r = n ∧ unit (L + 1) * 2 ^ t = unit L * 2 ^ t + 2 ^ sh ∧ r < 2 ^ sh ∧
      t ≤ sh ∧ (t < sh → 2 ^ 52 * 2 ^ sh ≤ n) ∧
      rawRound n t = L + if 2 ^ sh < 2 * r ∨ (2 ^ sh = 2 * r ∧ L % 2 = 1) then 1 else 0 := by
  have key : ∀ sh, max (Nat.log2 n - 52) t = sh →
      unit ((sh - t) * 2 ^ 52 + n / 2 ^ sh) * 2 ^ t = n / 2 ^ sh * 2 ^ sh ∧
      unit ((sh - t) * 2 ^ 52 + n / 2 ^ sh + 1) * 2 ^ t = (n / 2 ^ sh + 1) * 2 ^ sh ∧
      (t < sh → 2 ^ 52 * 2 ^ sh ≤ n) := by
    intro sh hsh
    have hq := quot_lt n sh (by omega)
    by_cases hts : t < sh
    · have hn : n ≠ 0 := by rintro rfl; simp at hsh; omega
      have hlog : 2 ^ 52 * 2 ^ sh ≤ n := by
        rw [← Nat.pow_add]
        exact Nat.le_trans (Nat.pow_le_pow_right (by omega) (by omega)) (Nat.log2_self_le hn)
      have h2 : 2 ^ 52 ≤ n / 2 ^ sh := by
        rwa [Nat.le_div_iff_mul_le (Nat.pow_pos (by omega))]
      have hpow : (2 : Nat) ^ sh = 2 ^ (sh - t) * 2 ^ t := by rw [← Nat.pow_add]; congr 1; omega
      obtain ⟨d, hd⟩ : ∃ d, sh - t = d + 1 := ⟨sh - t - 1, by omega⟩
      generalize n / 2 ^ sh = q at *
      refine ⟨?_, ?_, fun _ => hlog⟩
      · rw [hpow, ← Nat.mul_assoc]
        congr 1
        rw [unit_big (by omega), hd]
        rw [show ((d + 1) * 2 ^ 52 + q) / 2 ^ 52 - 1 = d + 1 by omega,
          show 2 ^ 52 + ((d + 1) * 2 ^ 52 + q) % 2 ^ 52 = q by omega]
      · rw [hpow, ← Nat.mul_assoc]
        congr 1
        rw [unit_big (by omega), hd]
        by_cases hx : q + 1 = 2 ^ 53
        · rw [show ((d + 1) * 2 ^ 52 + q + 1) / 2 ^ 52 - 1 = d + 1 + 1 by omega,
            show 2 ^ 52 + ((d + 1) * 2 ^ 52 + q + 1) % 2 ^ 52 = 2 ^ 52 by omega, hx, Nat.pow_succ 2 (d + 1)]
          ring
        · rw [show ((d + 1) * 2 ^ 52 + q + 1) / 2 ^ 52 - 1 = d + 1 by omega,
            show 2 ^ 52 + ((d + 1) * 2 ^ 52 + q + 1) % 2 ^ 52 = q + 1 by omega]
    · obtain rfl : t = sh := by omega
      have hu : ∀ b, b ≤ 2 ^ 53 → unit b = b := by
        intro b hb
        by_cases h : b < 2 ^ 52
        · exact unit_small h
        · rw [unit_big h]
          rcases Nat.lt_or_eq_of_le hb with h' | rfl
          · rw [show b / 2 ^ 52 - 1 = 0 by omega, show 2 ^ 52 + b % 2 ^ 52 = b by omega]; simp
          · decide
      refine ⟨?_, ?_, fun h => absurd h hts⟩
      · rw [Nat.sub_self, Nat.zero_mul, Nat.zero_add, hu _ (by omega)]
      · rw [Nat.sub_self, Nat.zero_mul, Nat.zero_add, hu _ (by omega)]
  obtain ⟨k1, k2, k3⟩ := key _ rfl
  refine ⟨(max (Nat.log2 n - 52) t - t) * 2 ^ 52 + n / 2 ^ max (Nat.log2 n - 52) t,
    n % 2 ^ max (Nat.log2 n - 52) t, max (Nat.log2 n - 52) t, ?_, ?_, Nat.mod_lt _ (Nat.pow_pos (by omega)),
    by omega, k3, ?_⟩
  · rw [k1, Nat.mul_comm]; exact Nat.div_add_mod _ _
  · rw [k1, k2]; ring
  · unfold rawRound
    generalize max (Nat.log2 n - 52) t = sh
    have : ((sh - t) * 2 ^ 52 + n / 2 ^ sh) % 2 = n / 2 ^ sh % 2 := by omega
    rw [this, Nat.add_assoc]

/-- Rounding goes to the nearest, ties to even. -/
theorem raw_nearest (n t b : Nat) :
    |(unit (rawRound n t) * 2 ^ t : Int) - n| ≤ |(unit b * 2 ^ t : Int) - n| ∧
      (|(unit b * 2 ^ t : Int) - n| = |(unit (rawRound n t) * 2 ^ t : Int) - n| → b ≠ rawRound n t →
        rawRound n t % 2 = 0) := by
  obtain ⟨L, r, sh, h1, h2, h3, h4, h5, h6⟩ := raw_between n t
  have hb : b ≤ L ∨ L + 1 ≤ b := by omega
  have hle : ∀ a c, a ≤ c → (unit a * 2 ^ t : Int) ≤ unit c * 2 ^ t := by
    intro a c h
    exact_mod_cast Nat.mul_le_mul_right (2 ^ t) (unit_le_iff.2 h)
  have hlt : ∀ a c, a < c → (unit a * 2 ^ t : Int) < unit c * 2 ^ t := by
    intro a c h
    exact_mod_cast Nat.mul_lt_mul_of_pos_right (unit_lt_iff.2 h) (Nat.pow_pos (by omega))
  zify at h1 h2 h3
  have hB : ((b ≤ L ∧ (unit b * 2 ^ t : Int) ≤ unit L * 2 ^ t) ∨ (L + 1 ≤ b ∧ (unit (L + 1) * 2 ^ t : Int) ≤ unit b * 2 ^ t)) :=
    hb.imp (fun h => ⟨h, hle _ _ h⟩) (fun h => ⟨h, hle _ _ h⟩)
  have hN : (b < L → (unit b * 2 ^ t : Int) < unit L * 2 ^ t) ∧ (L + 1 < b → (unit (L + 1) * 2 ^ t : Int) < unit b * 2 ^ t) :=
    ⟨hlt _ _, hlt _ _⟩
  have hr0 : (0 : Int) ≤ r := Int.natCast_nonneg r
  rw [h6]
  generalize hP : (2 : Int) ^ sh = P at *
  have hP' : ((2 ^ sh : Nat) : Int) = P := by rw [← hP]; push_cast; rfl
  generalize (2 : Nat) ^ sh = Q at *
  generalize (unit b * 2 ^ t : Int) = B at *
  split
  · rename_i hc
    rw [h2]
    generalize (unit L * 2 ^ t : Int) = A at *
    generalize (unit (L + 1) * 2 ^ t : Int) = A' at *
    have hc' : P < 2 * r ∨ (P = 2 * r ∧ L % 2 = 1) := by omega
    rw [abs_of_nonneg (show (0 : Int) ≤ A + P - n by omega)]
    rcases abs_cases (B - (n : Int)) with ⟨e, _⟩ | ⟨e, _⟩ <;> rw [e] <;> constructor <;> intros <;> omega
  · rename_i hc
    simp only [Nat.add_zero]
    generalize (unit L * 2 ^ t : Int) = A at *
    generalize (unit (L + 1) * 2 ^ t : Int) = A' at *
    have hc' : ¬ (P < 2 * r ∨ (P = 2 * r ∧ L % 2 = 1)) := by omega
    rw [abs_of_nonpos (show A - (n : Int) ≤ 0 by omega)]
    rcases abs_cases (B - (n : Int)) with ⟨e, _⟩ | ⟨e, _⟩ <;> rw [e] <;> constructor <;> intros <;> omega

/-- The relative error of rounding is at most `2^-53`, except below the normal numbers. -/
theorem raw_error (n t : Nat) (h : 2 ^ 52 * 2 ^ t ≤ n ∨ 2 ^ t ∣ n) :
    |(unit (rawRound n t) * 2 ^ t : Int) - n| * 2 ^ 53 ≤ n := by
  obtain ⟨L, r, sh, h1, h2, h3, h4, h5, h6⟩ := raw_between n t
  have hsz : r = 0 ∨ 2 ^ 52 * 2 ^ sh ≤ n := by
    by_cases hts : t < sh
    · exact .inr (h5 hts)
    · obtain rfl : t = sh := by omega
      rcases h with h | h
      · exact .inr h
      · left
        have : 2 ^ t ∣ r := by
          rw [← h1] at h
          exact (Nat.dvd_add_right (Nat.dvd_mul_left _ _)).1 h
        exact Nat.eq_zero_of_dvd_of_lt this h3
  zify at h1 h2
  have hr0 : (0 : Int) ≤ r := Int.natCast_nonneg r
  rw [h6]
  have hP' : ((2 ^ sh : Nat) : Int) = 2 ^ sh := by push_cast; rfl
  generalize (2 : Int) ^ sh = P at *
  generalize (2 : Nat) ^ sh = Q at *
  split
  · rename_i hc
    rw [h2]
    generalize (unit L * 2 ^ t : Int) = A at *
    rw [abs_of_nonneg (show (0 : Int) ≤ A + P - n by omega)]
    omega
  · rename_i hc
    simp only [Nat.add_zero]
    generalize (unit L * 2 ^ t : Int) = A at *
    rw [abs_of_nonpos (show A - (n : Int) ≤ 0 by omega)]
    omega

/-! ## Doubles as rational numbers -/

set_option exponentiation.threshold 256

theorem expField_eq (x : F64) : expField x = x.mag / 2 ^ 52 := by
  have := x.lt
  unfold expField mag
  omega

theorem fracField_eq (x : F64) : fracField x = x.mag % 2 ^ 52 := by
  unfold fracField mag
  omega

theorem finite_iff (x : F64) : IsFinite x ↔ x.isFinite = true := by
  have := x.mag_lt
  unfold IsFinite isFinite INF
  rw [expField_eq, decide_eq_true_iff]
  omega

theorem sign_iff (x : F64) : x.bits < 2 ^ 63 ↔ x.sign = false := by
  unfold sign
  rw [decide_eq_false_iff_not]
  omega

/-- A double is a whole number of units of `2^-1074`. -/
theorem real_eq (x : F64) : real x = (x.val : ℚ) / 2 ^ 1074 := by
  have hunit : (unit x.mag : ℚ) / 2 ^ 1074 =
      if expField x = 0 then (fracField x / 2 ^ 52 : ℚ) * (2 : ℚ) ^ (-1022 : Int)
      else (1 + fracField x / 2 ^ 52 : ℚ) * (2 : ℚ) ^ ((expField x : Int) - 1023) := by
    by_cases h : x.mag < 2 ^ 52
    · rw [if_pos (by rw [expField_eq]; omega), unit_small h, fracField_eq, Nat.mod_eq_of_lt h, zpow_neg,
        show (1022 : Int) = (1022 : Nat) from rfl, zpow_natCast,
        show (2 : ℚ) ^ 1074 = 2 ^ 52 * 2 ^ 1022 by rw [← pow_add], div_mul_eq_div_div, div_eq_mul_inv _ ((2 : ℚ) ^ 1022)]
    · have he : 1 ≤ expField x := by rw [expField_eq]; omega
      rw [if_neg (by omega), unit_big h, ← expField_eq, ← fracField_eq]
      obtain ⟨e, he'⟩ : ∃ e, expField x = e + 1 := ⟨expField x - 1, by omega⟩
      rw [he', show ((e + 1 : Nat) : Int) - 1023 = (e : Int) - (1022 : Nat) by omega, zpow_sub₀ (by norm_num), zpow_natCast,
        zpow_natCast, Nat.add_sub_cancel]
      push_cast
      rw [show (2 : ℚ) ^ 1074 = 2 ^ 52 * 2 ^ 1022 by rw [← pow_add]]
      generalize (2 : ℚ) ^ 1022 = K
      generalize (2 : ℚ) ^ e = E
      have : (2 : ℚ) ^ 52 ≠ 0 := by positivity
      rw [div_mul_eq_div_div]
      field_simp
      norm_num
      ring
  unfold real
  rw [← hunit]
  unfold val
  generalize (2 : ℚ) ^ 1074 = K
  by_cases hs : x.sign = true
  · rw [if_neg (by rw [sign_iff, hs]; simp), if_pos hs]
    push_cast; ring
  · rw [if_pos (by rw [sign_iff]; simpa using hs), if_neg hs]
    push_cast; ring

theorem unit_INF : unit INF = 18014398509481984 * 2 ^ 2044 := by decide +kernel

theorem unit_maxFinite : unit (INF - 1) = 18014398509481982 * 2 ^ 2044 := by decide +kernel

/-- `roundMag` rounds correctly, in whole numbers. -/
theorem roundMag_near {n t : Nat} (h : n < 18014398509481983 * 2 ^ 2044 * 2 ^ t) : rawRound n t < INF := by
  by_contra hc
  have hU : 18014398509481984 * 2 ^ 2044 * 2 ^ t ≤ unit (rawRound n t) * 2 ^ t := by
    rw [← unit_INF]; exact Nat.mul_le_mul_right _ (unit_le_iff.2 (by omega))
  have hn := (raw_nearest n t (INF - 1)).1
  rw [unit_maxFinite] at hn
  have hKT : 0 < 2 ^ 2044 * 2 ^ t := Nat.mul_pos (Nat.two_pow_pos _) (Nat.two_pow_pos _)
  rw [Nat.mul_assoc] at h hU
  have e : ((18014398509481982 * 2 ^ 2044 : Nat) * 2 ^ t : Int) = 18014398509481982 * ((2 ^ 2044 * 2 ^ t : Nat) : Int) := by
    push_cast; ring
  rw [e] at hn
  zify at hU
  generalize (unit (rawRound n t) : Int) * 2 ^ t = A at *
  rw [show (18014398509481984 * (2 ^ 2044 * 2 ^ t) : Int) = 18014398509481984 * ((2 ^ 2044 * 2 ^ t : Nat) : Int) by
    push_cast; ring] at hU
  generalize 2 ^ 2044 * 2 ^ t = V at *
  rcases abs_cases (A - (n : Int)) with ⟨e, _⟩ | ⟨e, _⟩ <;>
    rcases abs_cases (18014398509481982 * (V : Int) - (n : Int)) with ⟨e', _⟩ | ⟨e', _⟩ <;> rw [e, e'] at hn <;> omega

theorem roundMag_over {n t : Nat} (h : 18014398509481983 * 2 ^ 2044 * 2 ^ t ≤ n) : INF ≤ rawRound n t := by
  by_contra hc
  have hU : unit (rawRound n t) * 2 ^ t ≤ 18014398509481982 * 2 ^ 2044 * 2 ^ t := by
    rw [← unit_maxFinite]; exact Nat.mul_le_mul_right _ (unit_le_iff.2 (by omega))
  obtain ⟨n1, n2⟩ := raw_nearest n t INF
  have hodd : rawRound n t % 2 = 0 → unit (rawRound n t) * 2 ^ t < 18014398509481982 * 2 ^ 2044 * 2 ^ t := by
    intro he
    rw [← unit_maxFinite]
    refine Nat.mul_lt_mul_of_pos_right (unit_lt_iff.2 ?_) (Nat.pow_pos (by omega))
    have : INF % 2 = 0 := by decide
    omega
  have hne : INF ≠ rawRound n t := by omega
  have hKT : 0 < 2 ^ 2044 * 2 ^ t := Nat.mul_pos (Nat.two_pow_pos _) (Nat.two_pow_pos _)
  rw [unit_INF] at n1 n2
  have e : ((18014398509481984 * 2 ^ 2044 : Nat) * 2 ^ t : Int) = 18014398509481984 * ((2 ^ 2044 * 2 ^ t : Nat) : Int) := by
    push_cast; ring
  have e' : (unit (rawRound n t) * 2 ^ t : Int) = ((unit (rawRound n t) * 2 ^ t : Nat) : Int) := by push_cast; rfl
  rw [e, e'] at n1 n2
  rw [Nat.mul_assoc] at h hU hodd
  generalize unit (rawRound n t) * 2 ^ t = A at *
  generalize 2 ^ 2044 * 2 ^ t = V at *
  rcases abs_cases ((A : Int) - (n : Int)) with ⟨e, _⟩ | ⟨e, _⟩ <;>
    rcases abs_cases (18014398509481984 * (V : Int) - (n : Int)) with ⟨e', _⟩ | ⟨e', _⟩ <;> rw [e, e'] at n1 n2
  · omega
  · omega
  · omega
  · have := hodd (n2 (by omega) hne)
    omega

/-- The sign as a factor. -/
def sgn (s : Bool) : Int := if s then -1 else 1

theorem val_sgn (x : F64) : x.val = sgn x.sign * unit x.mag := by
  unfold val sgn; split <;> simp

/-- Distances in units. -/
theorem dist_eq (y : F64) (s : Bool) (n t : Nat) :
    |real y - (sgn s : ℚ) * n / (2 ^ t * 2 ^ 1074)| = ((|y.val * 2 ^ t - sgn s * n| : Int) : ℚ) / (2 ^ t * 2 ^ 1074) := by
  rw [real_eq]
  have h1 : (0 : ℚ) < 2 ^ t := by positivity
  have h2 : (0 : ℚ) < 2 ^ 1074 := by positivity
  push_cast
  generalize (2 : ℚ) ^ t = T at *
  generalize (2 : ℚ) ^ 1074 = K at *
  have : (y.val : ℚ) / K - (sgn s : ℚ) * n / (T * K) = ((y.val : ℚ) * T - (sgn s : ℚ) * n) / (T * K) := by
    field_simp
  rw [this, abs_div, abs_of_pos (mul_pos h1 h2)]

theorem abs_sgn (s : Bool) (n : Nat) (D : ℚ) (hD : 0 < D) : |(sgn s : ℚ) * n / D| = n / D := by
  rw [abs_div, abs_mul, abs_of_pos hD, Nat.abs_cast]
  cases s <;> simp [sgn]

theorem overflow_iff (n t : Nat) :
    (n : ℚ) / (2 ^ t * 2 ^ 1074) < overflowBound ↔ n < 18014398509481983 * 2 ^ 2044 * 2 ^ t := by
  have h1 : (0 : ℚ) < 2 ^ t := by positivity
  have h2 : (0 : ℚ) < 2 ^ 1074 := by positivity
  rw [div_lt_iff₀ (mul_pos h1 h2)]
  have : overflowBound * (2 ^ t * 2 ^ 1074) = ((18014398509481983 * 2 ^ 2044 * 2 ^ t : Nat) : ℚ) := by
    unfold overflowBound
    push_cast
    rw [show (2 : ℚ) ^ 1024 = 18014398509481984 * 2 ^ 970 by
        rw [show (18014398509481984 : ℚ) = 2 ^ 54 by norm_num, ← pow_add],
      show (2 : ℚ) ^ 2044 = 2 ^ 970 * 2 ^ 1074 by rw [← pow_add]]
    generalize (2 : ℚ) ^ 970 = A
    generalize (2 : ℚ) ^ 1074 = B
    ring
  rw [this]
  exact_mod_cast Iff.rfl

theorem round_roundsTo (s : Bool) (n t : Nat) : RoundsTo ((sgn s : ℚ) * n / (2 ^ t * 2 ^ 1074)) (round s n t) := by
  have hD : (0 : ℚ) < 2 ^ t * 2 ^ 1074 := by positivity
  refine ⟨fun h => ?_, fun h => ?_, fun h => ?_⟩
  · rw [abs_sgn _ _ _ hD, overflow_iff] at h
    have hR := roundMag_near h
    have hm : roundMag n t = rawRound n t := by rw [roundMag_eq]; omega
    refine ⟨?_, fun y hy => ?_⟩
    · rw [finite_iff]; unfold isFinite; rw [round_mag, hm, decide_eq_true_iff]; exact hR
    · rw [dist_eq, dist_eq, fracField_eq, round_mag, hm]
      obtain ⟨h1, h2⟩ := raw_nearest n t y.mag
      have hr : |(round s n t).val * 2 ^ t - sgn s * n| = |(unit (rawRound n t) * 2 ^ t : Int) - n| := by
        rw [val_sgn, round_sign, round_mag, hm]
        cases s
        · simp [sgn]
        · rw [← abs_neg]; congr 1; simp [sgn]; ring
      have hy' : |(unit y.mag * 2 ^ t : Int) - n| ≤ |y.val * 2 ^ t - sgn s * n| ∧
          (y.sign ≠ s → |y.val * 2 ^ t - sgn s * n| = (unit y.mag * 2 ^ t : Int) + n) := by
        have ha : (0 : Int) ≤ unit y.mag * 2 ^ t := by positivity
        have hn0 : (0 : Int) ≤ n := by positivity
        rw [val_sgn, Int.mul_assoc]
        generalize (unit y.mag * 2 ^ t : Int) = a at *
        cases hs : y.sign <;> cases s <;> simp only [sgn, if_true, Bool.false_eq_true, if_false, Int.one_mul, Int.neg_mul,
          ne_eq, not_true_eq_false, false_imp_iff, and_true, not_false_eq_true, true_imp_iff, reduceCtorEq]
        · exact Int.le_refl _
        · rw [Int.sub_neg, abs_of_nonneg (by omega : 0 ≤ a + (n : Int))]
          exact ⟨abs_le.2 ⟨by omega, by omega⟩, rfl⟩
        · rw [show -a - (n : Int) = -(a + n) by ring, abs_neg, abs_of_nonneg (by omega : 0 ≤ a + (n : Int))]
          exact ⟨abs_le.2 ⟨by omega, by omega⟩, rfl⟩
        · rw [show -a - -(n : Int) = -(a - n) by ring, abs_neg]
      rw [hr]
      refine ⟨div_le_div_of_nonneg_right (by exact_mod_cast h1.trans hy'.1) hD.le, fun he hne => ?_⟩
      have he : |y.val * 2 ^ t - sgn s * n| = |(unit (rawRound n t) * 2 ^ t : Int) - n| := by
        have := (div_left_inj' hD.ne').1 he
        exact_mod_cast this
      have heq : |(unit y.mag * 2 ^ t : Int) - n| = |(unit (rawRound n t) * 2 ^ t : Int) - n| :=
        le_antisymm (he ▸ hy'.1) h1
      have heven : ∀ k, k % 2 = 0 → k % 2 ^ 52 % 2 = 0 := by intro k hk; omega
      by_cases hyR : y.mag = rawRound n t
      · by_cases hsg : y.sign = s
        · exfalso
          apply hne
          rw [real_eq, real_eq, val_sgn, val_sgn, round_sign, round_mag, hm, hyR, hsg]
        · have e := hy'.2 hsg
          rw [he, ← hyR] at e
          have hn0 : (0 : Int) ≤ n := by positivity
          have ha0 : (0 : Int) ≤ unit y.mag * 2 ^ t := by positivity
          have : (unit y.mag * 2 ^ t : Int) = 0 ∨ (n : Int) = 0 := by
            rcases abs_cases ((unit y.mag * 2 ^ t : Int) - n) with ⟨e', _⟩ | ⟨e', _⟩ <;> omega
          rcases this with h0 | h0
          · have : unit y.mag = 0 := by
              have := (mul_eq_zero.1 h0).resolve_right (by positivity)
              exact_mod_cast this
            rw [← hyR, unit_eq_zero.1 this]
            exact heven 0 rfl
          · have : n = 0 := by exact_mod_cast h0
            subst this
            simp [rawRound]
      · exact heven _ (h2 heq hyR)
  · rw [abs_sgn _ _ _ hD] at h
    have : 18014398509481983 * 2 ^ 2044 * 2 ^ t ≤ n := by
      by_contra hc
      exact absurd h (not_le.2 ((overflow_iff n t).2 (by omega)))
    have hR := roundMag_over this
    have hm : roundMag n t = INF := by rw [roundMag_eq]; omega
    rw [expField_eq, fracField_eq, round_mag, hm]
    decide
  · rw [sign_iff, round_sign]
    have hn : (0 : ℚ) < n := by
      rcases Nat.eq_zero_or_pos n with rfl | hn
      · simp at h
      · exact_mod_cast hn
    cases s
    · simp only [true_iff, sgn, Bool.false_eq_true, if_false, Int.cast_one, one_mul]
      positivity
    · simp only [reduceCtorEq, false_iff, sgn, if_true, not_lt]
      have : (0 : ℚ) ≤ n / (2 ^ t * 2 ^ 1074) := by positivity
      push_cast
      rw [neg_mul, one_mul, neg_div]
      linarith

theorem isFinite_split {x : F64} (h : x.isFinite = true) : x.isNaN = false ∧ x.isInf = false := by
  simp only [isFinite, decide_eq_true_eq] at h
  exact ⟨by simp [isNaN]; omega, by simp [isInf]; omega⟩

theorem sgn_natAbs (z : Int) : (z : ℚ) = (sgn (decide (z < 0)) : ℚ) * ((z.natAbs : Nat) : ℚ) := by
  rw [Nat.cast_natAbs, Int.cast_abs]
  by_cases h : z < 0
  · have : (z : ℚ) < 0 := by exact_mod_cast h
    simp [h, sgn, abs_of_neg this]
  · have : (0 : ℚ) ≤ z := by exact_mod_cast (not_lt.1 h)
    simp [h, sgn, abs_of_nonneg this]

/-- `x + y` of finite numbers is the rounding of the exact sum. -/
theorem add_round {x y : F64} (hx : x.isFinite = true) (hy : y.isFinite = true) :
    ∃ s n, add x y = round s n 0 ∧ real x + real y = (sgn s : ℚ) * n / (2 ^ 0 * 2 ^ 1074) := by
  obtain ⟨n1, i1⟩ := isFinite_split hx
  obtain ⟨n2, i2⟩ := isFinite_split hy
  unfold add
  simp only [n1, n2, i1, i2, Bool.or_false, Bool.false_eq_true, if_false, real_eq]
  generalize (2 : ℚ) ^ 1074 = K
  by_cases hs : x.val + y.val = 0
  · refine ⟨x.sign && y.sign, 0, ?_, ?_⟩
    · rw [if_pos hs]; apply ext'
      · rw [round_sign]; exact make_sign _ _ _
      · rw [round_mag, roundMag_zero]; exact make_mag _ _ _
    · have : (x.val : ℚ) + y.val = 0 := by exact_mod_cast hs
      rw [← add_div, this]; simp
  · refine ⟨_, _, by rw [if_neg hs], ?_⟩
    have : (x.val : ℚ) + y.val = (sgn (decide (x.val + y.val < 0)) : ℚ) * ((x.val + y.val).natAbs : Nat) := by
      rw [← sgn_natAbs]; push_cast; rfl
    rw [← add_div, this, pow_zero, one_mul]

theorem mul_round {x y : F64} (hx : x.isFinite = true) (hy : y.isFinite = true) :
    mul x y = round (x.sign != y.sign) (unit x.mag * unit y.mag) 1074 ∧
      real x * real y = (sgn (x.sign != y.sign) : ℚ) * (unit x.mag * unit y.mag : Nat) / (2 ^ 1074 * 2 ^ 1074) := by
  obtain ⟨n1, i1⟩ := isFinite_split hx
  obtain ⟨n2, i2⟩ := isFinite_split hy
  unfold mul
  simp only [n1, n2, i1, i2, Bool.or_false, Bool.false_eq_true, if_false, true_and, real_eq, val_sgn]
  push_cast
  generalize (2 : ℚ) ^ 1074 = K
  cases x.sign <;> cases y.sign <;> simp [sgn] <;> ring

theorem ofNat_round (n : Nat) :
    ofNat n = round false (n * 2 ^ 1074) 0 ∧ (n : ℚ) = (sgn false : ℚ) * (n * 2 ^ 1074 : Nat) / (2 ^ 0 * 2 ^ 1074) := by
  refine ⟨rfl, ?_⟩
  have : (2 : ℚ) ^ 1074 ≠ 0 := by positivity
  push_cast
  generalize (2 : ℚ) ^ 1074 = K at *
  simp only [sgn, Bool.false_eq_true, if_false, Int.cast_one, one_mul, pow_zero]
  field_simp

theorem ofInt_round (n : Int) :
    ofInt n = round (decide (n < 0)) (n.natAbs * 2 ^ 1074) 0 ∧
      (n : ℚ) = (sgn (decide (n < 0)) : ℚ) * (n.natAbs * 2 ^ 1074 : Nat) / (2 ^ 0 * 2 ^ 1074) := by
  refine ⟨rfl, ?_⟩
  have : (2 : ℚ) ^ 1074 ≠ 0 := by positivity
  rw [Nat.cast_mul, ← mul_assoc, ← sgn_natAbs, Nat.cast_pow, Nat.cast_ofNat]
  generalize (2 : ℚ) ^ 1074 = K at *
  simp only [one_mul, pow_zero]
  field_simp

/-- The relative error. -/
theorem round_error {s : Bool} {n t : Nat} {q : ℚ} (hq : q = (sgn s : ℚ) * n / (2 ^ t * 2 ^ 1074))
    (hf : (round s n t).isFinite = true) (h : 2 ^ 52 * 2 ^ t ≤ n ∨ 2 ^ t ∣ n) :
    |real (round s n t) - q| ≤ |q| / 2 ^ 53 := by
  have hD : (0 : ℚ) < 2 ^ t * 2 ^ 1074 := by positivity
  have hm : roundMag n t = rawRound n t := by
    simp only [isFinite, round_mag, decide_eq_true_eq] at hf
    rw [roundMag_eq] at hf ⊢; omega
  have he := raw_error n t h
  rw [hq, dist_eq, abs_sgn _ _ _ hD]
  have hr : |(round s n t).val * 2 ^ t - sgn s * n| = |(unit (rawRound n t) * 2 ^ t : Int) - n| := by
    rw [val_sgn, round_sign, round_mag, hm]
    cases s
    · simp [sgn]
    · rw [← abs_neg]; congr 1; simp [sgn]; ring
  rw [hr, div_right_comm]
  apply div_le_div_of_nonneg_right _ hD.le
  rw [le_div_iff₀ (by positivity)]
  exact_mod_cast he

/-- Sums have a relative error of at most `2^-53`. -/
theorem add_error {x y : F64} (hx : x.isFinite = true) (hy : y.isFinite = true) (hf : (add x y).isFinite = true) :
    |real (add x y) - (real x + real y)| ≤ |real x + real y| / 2 ^ 53 := by
  obtain ⟨s, n, h1, h2⟩ := add_round hx hy
  rw [h1] at hf ⊢
  exact round_error h2 hf (.inr (by simp))

/-- So do products that are not below the normal numbers. -/
theorem mul_error {x y : F64} (hx : x.isFinite = true) (hy : y.isFinite = true) (hf : (mul x y).isFinite = true)
    (h : 2 ^ 52 * 2 ^ 1074 ≤ unit x.mag * unit y.mag ∨ 2 ^ 1074 ∣ unit x.mag * unit y.mag) :
    |real (mul x y) - real x * real y| ≤ |real x * real y| / 2 ^ 53 := by
  obtain ⟨h1, h2⟩ := mul_round hx hy
  rw [h1] at hf ⊢
  exact round_error h2 hf h

/-! The arithmetic of the model is that of IEEE 754. -/

theorem add_roundsTo {x y : F64} (hx : IsFinite x) (hy : IsFinite y) : RoundsTo (real x + real y) (add x y) := by
  obtain ⟨s, n, h1, h2⟩ := add_round ((finite_iff _).1 hx) ((finite_iff _).1 hy)
  rw [h1, h2]; exact round_roundsTo _ _ _

theorem mul_roundsTo {x y : F64} (hx : IsFinite x) (hy : IsFinite y) : RoundsTo (real x * real y) (mul x y) := by
  obtain ⟨h1, h2⟩ := mul_round ((finite_iff _).1 hx) ((finite_iff _).1 hy)
  rw [h1, h2]; exact round_roundsTo _ _ _

theorem ofNat_roundsTo (n : Nat) : RoundsTo n (ofNat n) := by
  obtain ⟨h1, h2⟩ := ofNat_round n
  rw [h1, h2]; exact round_roundsTo _ _ _

theorem ofInt_roundsTo (n : Int) : RoundsTo n (ofInt n) := by
  obtain ⟨h1, h2⟩ := ofInt_round n
  rw [h1, h2]; exact round_roundsTo _ _ _

theorem real_neg (x : F64) : real (neg x) = -real x := by
  rw [real_eq, real_eq, val_sgn, val_sgn, show (neg x).sign = !x.sign from make_sign _ _ _, show (neg x).mag = x.mag from make_mag _ _ _]
  cases x.sign <;> simp [sgn, neg_div]

theorem sub_roundsTo {x y : F64} (hx : IsFinite x) (hy : IsFinite y) : RoundsTo (real x - real y) (sub x y) := by
  rw [sub_eq_add_neg, ← real_neg]
  refine add_roundsTo hx ?_
  rw [finite_iff] at hy ⊢
  have e : (neg y).mag = y.mag := make_mag _ _ _
  unfold isFinite at *
  rw [e]
  exact hy

/-- Comparison is that of the numbers. -/
theorem flt_real {x y : F64} (hx : IsFinite x) (hy : IsFinite y) : flt x y = true ↔ real x < real y := by
  obtain ⟨n1, _⟩ := isFinite_split ((finite_iff _).1 hx)
  obtain ⟨n2, _⟩ := isFinite_split ((finite_iff _).1 hy)
  rw [flt_iff, real_eq, real_eq, div_lt_div_iff_of_pos_right (by positivity), Int.cast_lt]
  simp [n1, n2]

theorem fle_real {x y : F64} (hx : IsFinite x) (hy : IsFinite y) : fle x y = true ↔ real x ≤ real y := by
  obtain ⟨n1, _⟩ := isFinite_split ((finite_iff _).1 hx)
  obtain ⟨n2, _⟩ := isFinite_split ((finite_iff _).1 hy)
  rw [fle_iff, real_eq, real_eq, div_le_div_iff_of_pos_right (by positivity), Int.cast_le]
  simp [n1, n2]

end F64
end Measured
