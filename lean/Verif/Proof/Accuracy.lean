import Verif.Proof.Rounding
import Verif.Proof.Histogram
import Mathlib.Algebra.BigOperators.Group.List.Basic

/-! How far computed doubles are from the exact numbers. -/

namespace Measured
open Measured.Spec
namespace F64

/-! ## Sums -/

/-- A sum is not finite if one of the numbers is not. -/
theorem add_finite {x y : F64} (h : (add x y).isFinite = true) : x.isFinite = true ∧ y.isFinite = true := by
  by_contra hc
  unfold add at h
  by_cases hn : x.isNaN || y.isNaN
  · rw [if_pos hn] at h; exact absurd h (by decide)
  · rw [if_neg hn] at h
    simp only [Bool.or_eq_true, not_or, Bool.not_eq_true] at hn
    have hi : x.isInf = true ∨ y.isInf = true := by
      simp only [isFinite, isNaN, isInf, decide_eq_true_eq, decide_eq_false_iff_not, beq_iff_eq] at hn hc ⊢
      omega
    have hinf : ∀ z : F64, z.isInf = true → z.isFinite = false := by
      intro z hz
      simp only [isInf, beq_iff_eq] at hz
      simp [isFinite, hz]
    by_cases hx : x.isInf = true
    · rw [if_pos hx] at h
      split at h
      · exact absurd h (by decide)
      · rw [hinf x hx] at h; cases h
    · rw [if_neg hx, if_pos (hi.resolve_left hx)] at h
      rw [hinf y (hi.resolve_left hx)] at h
      cases h

/-- Adding numbers one after the other. -/
theorem fold_error (xs : List F64) : ∀ a : F64, (xs.foldl add a).isFinite = true →
    |real (xs.foldl add a) - (real a + (xs.map real).sum)| ≤
      ((1 + 1 / 2 ^ 53) ^ xs.length - 1) * (|real a| + (xs.map fun x => |real x|).sum) := by
  induction xs with
  | nil => intro a _; simp
  | cons x xs ih =>
    intro a hf
    simp only [List.foldl_cons, List.map_cons, List.sum_cons, List.length_cons] at hf ⊢
    have hfa : (add a x).isFinite = true := by
      clear ih
      induction xs generalizing a x with
      | nil => exact hf
      | cons y ys ih =>
        exact (add_finite (ih (x := y) (a := add a x) hf)).1
    obtain ⟨ha, hx⟩ := add_finite hfa
    have h1 := add_error ha hx hfa
    have h2 := ih _ hf
    have hS : 0 ≤ (xs.map fun x => |real x|).sum := by
      apply List.sum_nonneg
      intro z hz
      obtain ⟨w, _, rfl⟩ := List.mem_map.1 hz
      exact abs_nonneg _
    have hE : (1 : ℚ) ≤ (1 + 1 / 2 ^ 53) ^ xs.length := one_le_pow₀ (by norm_num)
    have h3 : |real a + real x| ≤ |real a| + |real x| := abs_add_le _ _
    have h4 : |real (add a x)| ≤ (1 + 1 / 2 ^ 53) * (|real a| + |real x|) := by
      have : |real (add a x)| ≤ |real (add a x) - (real a + real x)| + |real a + real x| := by
        have := abs_add_le (real (add a x) - (real a + real x)) (real a + real x)
        simpa using this
      linarith
    have h5 : |real (xs.foldl add (add a x)) - (real a + (real x + (xs.map real).sum))| ≤
        |real (xs.foldl add (add a x)) - (real (add a x) + (xs.map real).sum)| + |real (add a x) - (real a + real x)| := by
      have := abs_add_le (real (xs.foldl add (add a x)) - (real (add a x) + (xs.map real).sum))
        (real (add a x) - (real a + real x))
      refine le_trans (le_of_eq ?_) this
      congr 1; ring
    rw [pow_succ]
    generalize (1 + 1 / 2 ^ 53 : ℚ) ^ xs.length = E at *
    generalize (xs.map fun x => |real x|).sum = S at *
    have h6 : (E - 1) * (|real (add a x)| + S) ≤ (E - 1) * ((1 + 1 / 2 ^ 53) * (|real a| + |real x|) + S) :=
      mul_le_mul_of_nonneg_left (by linarith) (by linarith)
    have h7 : (E - 1) * S ≤ (E * (1 + 1 / 2 ^ 53) - 1) * S := by
      apply mul_le_mul_of_nonneg_right _ hS
      have : E * (1 + 1 / 2 ^ 53) - 1 - (E - 1) = E / 2 ^ 53 := by ring
      have : 0 ≤ E / 2 ^ 53 := by positivity
      linarith
    nlinarith

/-! ## Powers -/

/-- `x` is `q` up to `k` roundings. -/
def Approx (k : Nat) (x : F64) (q : ℚ) : Prop :=
  (1 - 1 / 2 ^ 53) ^ k * q ≤ real x ∧ real x ≤ (1 + 1 / 2 ^ 53) ^ k * q

theorem real_nonneg {x : F64} (h : NonNeg x) : 0 ≤ real x := by
  rw [real_eq, h.val]; positivity

theorem real_one : real one = 1 := by
  rw [real_eq, one_nonneg.val, unit_one]
  push_cast
  exact div_self (by positivity)

/-- A product of finite numbers with a relative error of one rounding. -/
theorem Approx.mul {x y : F64} {i j : Nat} {p q : ℚ} (hx : Approx i x p) (hy : Approx j y q) (fx : x.isFinite = true)
    (fy : y.isFinite = true) (hf : (mul x y).isFinite = true) (px : NonNeg x) (py : NonNeg y) (hp : 0 ≤ p) (hq : 0 ≤ q)
    (h : 2 ^ 52 * 2 ^ 1074 ≤ unit x.mag * unit y.mag) : Approx (i + j + 1) (F64.mul x y) (p * q) := by
  have he := mul_error fx fy hf (.inl h)
  have rx := real_nonneg px
  have ry := real_nonneg py
  rw [abs_of_nonneg (_root_.mul_nonneg rx ry), abs_le] at he
  obtain ⟨x1, x2⟩ := hx
  obtain ⟨y1, y2⟩ := hy
  have hl : (0 : ℚ) ≤ 1 - 1 / 2 ^ 53 := by norm_num
  have hu : (0 : ℚ) ≤ 1 + 1 / 2 ^ 53 := by norm_num
  have a1 : (0 : ℚ) ≤ (1 - 1 / 2 ^ 53) ^ i * p := _root_.mul_nonneg (pow_nonneg hl _) hp
  have b1 : (0 : ℚ) ≤ (1 - 1 / 2 ^ 53) ^ j * q := _root_.mul_nonneg (pow_nonneg hl _) hq
  have a2 : (0 : ℚ) ≤ (1 + 1 / 2 ^ 53) ^ i * p := _root_.mul_nonneg (pow_nonneg hu _) hp
  have m1 : (1 - 1 / 2 ^ 53) ^ i * p * ((1 - 1 / 2 ^ 53) ^ j * q) ≤ real x * real y := mul_le_mul x1 y1 b1 rx
  have m2 : real x * real y ≤ (1 + 1 / 2 ^ 53) ^ i * p * ((1 + 1 / 2 ^ 53) ^ j * q) := mul_le_mul x2 y2 ry a2
  constructor
  · rw [pow_succ, pow_add]
    have := mul_le_mul_of_nonneg_right m1 hl
    calc (1 - 1 / 2 ^ 53) ^ i * (1 - 1 / 2 ^ 53) ^ j * (1 - 1 / 2 ^ 53) * (p * q)
        = (1 - 1 / 2 ^ 53) ^ i * p * ((1 - 1 / 2 ^ 53) ^ j * q) * (1 - 1 / 2 ^ 53) := by ring
      _ ≤ real x * real y * (1 - 1 / 2 ^ 53) := this
      _ ≤ real (F64.mul x y) := by linarith [he.1]
  · rw [pow_succ, pow_add]
    have := mul_le_mul_of_nonneg_right m2 hu
    calc real (F64.mul x y) ≤ real x * real y * (1 + 1 / 2 ^ 53) := by linarith [he.2]
      _ ≤ (1 + 1 / 2 ^ 53) ^ i * p * ((1 + 1 / 2 ^ 53) ^ j * q) * (1 + 1 / 2 ^ 53) := this
      _ = (1 + 1 / 2 ^ 53) ^ i * (1 + 1 / 2 ^ 53) ^ j * (1 + 1 / 2 ^ 53) * (p * q) := by ring

theorem finite_mono {x y : F64} (h : x.mag ≤ y.mag) (hy : y.isFinite = true) : x.isFinite = true := by
  simp only [isFinite, decide_eq_true_eq] at *
  omega

theorem le_mul' {x y : F64} (hx : GeOne x) (hy : GeOne y) : y.mag ≤ (mul x y).mag := by
  rw [← one_mul_mag hy.1 hy.pos]
  exact mul_mono one_nonneg hy.1 hx.1 hy.1 one_mag_pos hy.pos hx.2 (Nat.le_refl _)

theorem powiLoop_above (fuel : Nat) : ∀ (a : F64) (b : Nat) (r : F64), GeOne a → GeOne r →
    r.mag ≤ (powiLoop fuel a b r).mag ∧ (1 ≤ b → b < 2 ^ fuel → a.mag ≤ (powiLoop fuel a b r).mag) := by
  induction fuel with
  | zero => intro a b r _ _; exact ⟨Nat.le_refl _, fun h1 h2 => by simp at h2; omega⟩
  | succ fuel ih =>
    intro a b r ha hr
    rw [powiLoop_succ]
    have haa := ha.mul ha
    have hr' : GeOne (if b % 2 = 1 then mul r a else r) := by split; exacts [hr.mul ha, hr]
    obtain ⟨i1, i2⟩ := ih _ (b / 2) _ haa hr'
    have hle : r.mag ≤ (if b % 2 = 1 then mul r a else r).mag := by
      split
      · exact le_mul hr.1 ha.1 hr.pos ha.2
      · exact Nat.le_refl _
    refine ⟨Nat.le_trans hle i1, fun h1 h2 => ?_⟩
    rw [Nat.pow_succ] at h2
    by_cases hb : 1 ≤ b / 2
    · exact Nat.le_trans (le_mul ha.1 ha.1 ha.pos ha.2) (i2 hb (by omega))
    · have : b % 2 = 1 := by omega
      rw [if_pos this] at i1 ⊢
      exact Nat.le_trans (le_mul' hr ha) i1

theorem unit_geOne {x : F64} (h : GeOne x) : 2 ^ 1074 ≤ unit x.mag := by
  rw [← unit_one]; exact unit_le_iff.2 h.2

theorem units_geOne {x y : F64} (hx : GeOne x) (hy : GeOne y) : 2 ^ 52 * 2 ^ 1074 ≤ unit x.mag * unit y.mag := by
  refine Nat.mul_le_mul ?_ (unit_geOne hy)
  exact Nat.le_trans (Nat.pow_le_pow_right (by omega) (show 52 ≤ 1074 by omega)) (unit_geOne hx)

theorem powiLoop_approx (fuel : Nat) : ∀ (a : F64) (b : Nat) (r : F64) (i j : Nat) (p q : ℚ), GeOne a → GeOne r →
    Approx i a p → Approx j r q → 0 ≤ p → 0 ≤ q → b < 2 ^ fuel → (powiLoop fuel a b r).isFinite = true →
    Approx (j + b * (i + 1)) (powiLoop fuel a b r) (p ^ b * q) := by
  induction fuel with
  | zero =>
    intro a b r i j p q _ _ _ hr _ _ hb _
    obtain rfl : b = 0 := by simp at hb; exact hb
    simpa [powiLoop] using hr
  | succ fuel ih =>
    intro a b r i j p q ga gr ha hr hp hq hb hf
    by_cases hb0 : b = 0
    · subst hb0
      rw [powiLoop_zero]
      simpa using hr
    have fa : a.isFinite = true := finite_mono ((powiLoop_above (fuel + 1) a b r ga gr).2 (by omega) hb) hf
    have fr : r.isFinite = true := finite_mono ((powiLoop_above (fuel + 1) a b r ga gr).1) hf
    rw [powiLoop_succ] at hf ⊢
    have gaa := ga.mul ga
    by_cases hb1 : b / 2 = 0
    · rw [hb1, powiLoop_zero] at hf ⊢
      obtain rfl : b = 1 := by omega
      simp only [Nat.reduceMod, if_true] at hf ⊢
      have := hr.mul ha fr fa hf gr.1 ga.1 hq hp (units_geOne gr ga)
      rw [pow_one, mul_comm p q, Nat.one_mul]
      exact this
    · have gr' : GeOne (if b % 2 = 1 then F64.mul r a else r) := by split; exacts [gr.mul ga, gr]
      obtain ⟨u1, u2⟩ := powiLoop_above fuel _ (b / 2) _ gaa gr'
      have hb2 : b / 2 < 2 ^ fuel := by rw [Nat.pow_succ] at hb; omega
      have faa := finite_mono (u2 (by omega) hb2) hf
      have fr' := finite_mono u1 hf
      have haa := ha.mul ha fa fa faa ga.1 ga.1 hp hp (units_geOne ga ga)
      by_cases hodd : b % 2 = 1
      · rw [if_pos hodd] at hf gr' fr' ⊢
        have hra := hr.mul ha fr fa fr' gr.1 ga.1 hq hp (units_geOne gr ga)
        have := ih _ _ _ _ _ _ _ gaa gr' haa hra (_root_.mul_nonneg hp hp) (_root_.mul_nonneg hq hp) hb2 hf
        obtain ⟨c, hc⟩ : ∃ c, b = 2 * c + 1 := ⟨b / 2, by omega⟩
        rw [show b / 2 = c by omega] at this ⊢
        subst hc
        rw [show j + (2 * c + 1) * (i + 1) = j + i + 1 + c * (i + i + 1 + 1) by ring,
          show p ^ (2 * c + 1) * q = (p * p) ^ c * (q * p) by rw [mul_pow, pow_succ, two_mul, pow_add]; ring]
        exact this
      · rw [if_neg hodd] at hf gr' fr' ⊢
        have := ih _ _ _ _ _ _ _ gaa gr haa hr (_root_.mul_nonneg hp hp) hq hb2 hf
        obtain ⟨c, hc⟩ : ∃ c, b = 2 * c := ⟨b / 2, by omega⟩
        rw [show b / 2 = c by omega] at this ⊢
        subst hc
        rw [show j + (2 * c) * (i + 1) = j + c * (i + i + 1 + 1) by ring,
          show p ^ (2 * c) * q = (p * p) ^ c * q by rw [mul_pow, two_mul, pow_add]]
        exact this

theorem one_mul_eq {x : F64} (hx : NonNeg x) (hx0 : 0 < x.mag) : mul one x = x :=
  ext' (by rw [(mul_pos_mag one_nonneg hx one_mag_pos hx0).1.1, hx.1]) (one_mul_mag hx hx0)

/-- Starting from `1.0`, the first product is exact. -/
theorem powiLoop_one (fuel : Nat) : ∀ (a : F64) (b : Nat) (i : Nat) (p : ℚ), GeOne a →
    Approx i a p → 0 ≤ p → b < 2 ^ fuel → 1 ≤ b → (powiLoop fuel a b one).isFinite = true →
    Approx (b * (i + 1) - 1) (powiLoop fuel a b one) (p ^ b) := by
  have g1 : GeOne one := ⟨one_nonneg, Nat.le_refl _⟩
  induction fuel with
  | zero => intro a b i p _ _ _ hb h1 _; simp at hb; omega
  | succ fuel ih =>
    intro a b i p ga ha hp hb h1 hf
    have fa : a.isFinite = true := finite_mono ((powiLoop_above (fuel + 1) a b one ga g1).2 h1 hb) hf
    rw [powiLoop_succ] at hf ⊢
    have gaa := ga.mul ga
    rw [one_mul_eq ga.1 ga.pos] at hf ⊢
    by_cases hb1 : b / 2 = 0
    · rw [hb1, powiLoop_zero] at hf ⊢
      obtain rfl : b = 1 := by omega
      simpa using ha
    · have gr' : GeOne (if b % 2 = 1 then a else one) := by split; exacts [ga, g1]
      obtain ⟨u1, u2⟩ := powiLoop_above fuel _ (b / 2) _ gaa gr'
      have hb2 : b / 2 < 2 ^ fuel := by rw [Nat.pow_succ] at hb; omega
      have faa := finite_mono (u2 (by omega) hb2) hf
      have haa := ha.mul ha fa fa faa ga.1 ga.1 hp hp (units_geOne ga ga)
      by_cases hodd : b % 2 = 1
      · rw [if_pos hodd] at hf ⊢
        have := powiLoop_approx fuel _ _ _ _ _ _ _ gaa ga haa ha (_root_.mul_nonneg hp hp) hp hb2 hf
        obtain ⟨c, hc⟩ : ∃ c, b = 2 * c + 1 := ⟨b / 2, by omega⟩
        rw [show b / 2 = c by omega] at this ⊢
        subst hc
        rw [show (2 * c + 1) * (i + 1) = i + c * (i + i + 1 + 1) + 1 by ring, Nat.add_sub_cancel,
          show p ^ (2 * c + 1) = (p * p) ^ c * p by rw [mul_pow, pow_succ, two_mul, pow_add]]
        exact this
      · rw [if_neg hodd] at hf ⊢
        have := ih _ _ _ _ gaa haa (_root_.mul_nonneg hp hp) hb2 (by omega) hf
        obtain ⟨c, hc⟩ : ∃ c, b = 2 * c := ⟨b / 2, by omega⟩
        rw [show b / 2 = c by omega] at this ⊢
        subst hc
        rw [show (2 * c) * (i + 1) = c * (i + i + 1 + 1) by ring,
          show p ^ (2 * c) = (p * p) ^ c by rw [mul_pow, two_mul, pow_add]]
        exact this

theorem approx_self (x : F64) : Approx 0 x (real x) := by simp [Approx]

theorem powi_approx {a : F64} (ga : GeOne a) {b : Nat} (hb : b < 2 ^ 32) (h1 : 1 ≤ b) (hf : (powi a b).isFinite = true) :
    Approx (b - 1) (powi a b) (real a ^ b) := by
  have := powiLoop_one 32 a b 0 (real a) ga (approx_self a) (real_nonneg ga.1) hb h1 hf
  unfold powi
  simpa using this

/-! ## Small integers -/

theorem ofNat_unit {n : Nat} (h : n ≤ 2 ^ 53) : unit (ofNat n).mag = n * 2 ^ 1074 := by
  rw [ofNat, round_mag]
  exact (round_exact_iff (by omega)).2 (small_exact h)

theorem real_ofNat {n : Nat} (h : n ≤ 2 ^ 53) : real (ofNat n) = n := by
  rw [real_eq, (ofNat_nonneg n).val, ofNat_unit h]
  have : (2 : ℚ) ^ 1074 ≠ 0 := by positivity
  push_cast
  generalize (2 : ℚ) ^ 1074 = K at *
  field_simp

theorem finite_bound {y : F64} (h : IsFinite y) : |real y| < overflowBound := by
  have hm : y.mag ≤ INF - 1 := by
    have := (finite_iff y).1 h
    simp only [isFinite, decide_eq_true_eq] at this
    omega
  have hu : unit y.mag < 18014398509481983 * 2 ^ 2044 * 2 ^ 0 := by
    have := unit_le_iff.2 hm
    rw [unit_maxFinite] at this
    rw [Nat.pow_zero, Nat.mul_one]
    exact Nat.lt_of_le_of_lt this (Nat.mul_lt_mul_of_pos_right (by decide) (Nat.two_pow_pos _))
  have := (overflow_iff _ 0).2 hu
  have hD : (0 : ℚ) < 2 ^ 0 * 2 ^ 1074 := by positivity
  rw [← abs_sgn y.sign _ _ hD] at this
  rw [real_eq, val_sgn]
  rw [pow_zero, one_mul] at this
  push_cast
  exact this

/-- What can be represented is not changed. -/
theorem roundsTo_exact {y r : F64} {q : ℚ} (hy : IsFinite y) (hq : real y = q) (h : RoundsTo q r) :
    IsFinite r ∧ real r = q := by
  subst hq
  obtain ⟨h1, h2⟩ := h.near (finite_bound hy)
  have := (h2 y hy).1
  rw [sub_self, abs_zero] at this
  exact ⟨h1, sub_eq_zero.1 (abs_eq_zero.1 (le_antisymm this (abs_nonneg _)))⟩

theorem isFinite_pzero : IsFinite pzero := by unfold IsFinite; decide
theorem isFinite_one : IsFinite one := by unfold IsFinite; decide

theorem real_pzero : real pzero = 0 := by rw [real_eq, pzero_val]; simp

theorem finite_ofNat {n : Nat} (h : n ≤ 2 ^ 53) : IsFinite (ofNat n) := by
  rw [finite_iff]
  have : (ofNat n).mag ≤ (ofNat (2 ^ 53)).mag := ofNat_mono h
  have h2 : (ofNat (2 ^ 53)).mag < INF := by decide +kernel
  simp only [isFinite, decide_eq_true_eq]
  omega

end F64
end Measured
