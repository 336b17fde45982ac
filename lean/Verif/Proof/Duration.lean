import Verif.Model.Duration
import Verif.Proof.F64
import Mathlib.Tactic.Linarith
import Mathlib.Tactic.Ring
import Mathlib.Algebra.Order.Ring.Abs

/-! Rounding errors, division, and seconds of durations. -/

set_option exponentiation.threshold 3000

namespace Measured
namespace F64

/-! ## The error of one rounding -/

/-- The shift of a rounding. -/
def shiftOf (n t : Nat) : Nat := max (Nat.log2 n - 52) t

/-- The rounded quotient. -/
def quotOf (n t : Nat) : Nat :=
  n / 2 ^ shiftOf n t +
    if 2 ^ shiftOf n t < 2 * (n % 2 ^ shiftOf n t) ∨
      (2 ^ shiftOf n t = 2 * (n % 2 ^ shiftOf n t) ∧ n / 2 ^ shiftOf n t % 2 = 1) then 1 else 0

theorem rawRound_def (n t : Nat) : rawRound n t = (shiftOf n t - t) * 2 ^ 52 + quotOf n t := rfl

theorem unit_of_quot {q k : Nat} (h1 : q ≤ 2 ^ 53) (h2 : k = 0 ∨ 2 ^ 52 ≤ q) : unit (k * 2 ^ 52 + q) = q * 2 ^ k := by
  by_cases hq : q < 2 ^ 52
  · have hk : k = 0 := by omega
    subst hk
    rw [Nat.zero_mul, Nat.zero_add, unit_small hq]; simp
  · rw [unit_big (by omega)]
    by_cases hq' : q = 2 ^ 53
    · subst hq'
      have e1 : (k * 2 ^ 52 + 2 ^ 53) % 2 ^ 52 = 0 := by omega
      have e2 : (k * 2 ^ 52 + 2 ^ 53) / 2 ^ 52 - 1 = k + 1 := by omega
      rw [e1, e2, Nat.pow_succ]
      ring
    · have e1 : (k * 2 ^ 52 + q) % 2 ^ 52 = q - 2 ^ 52 := by omega
      have e2 : (k * 2 ^ 52 + q) / 2 ^ 52 - 1 = k := by omega
      rw [e1, e2, show 2 ^ 52 + (q - 2 ^ 52) = q by omega]

theorem quotOf_le (n t : Nat) : quotOf n t ≤ 2 ^ 53 := by
  unfold quotOf
  have := quot_lt n (shiftOf n t) (by unfold shiftOf; omega)
  split <;> omega

theorem quot_ge {n t : Nat} (h : t < shiftOf n t) : 2 ^ 52 ≤ n / 2 ^ shiftOf n t := by
  have hs : shiftOf n t = Nat.log2 n - 52 := by unfold shiftOf at h ⊢; omega
  have hl : 52 < Nat.log2 n := by omega
  have hn : n ≠ 0 := by rintro rfl; simp at hl
  rw [Nat.le_div_iff_mul_le (Nat.pow_pos (by omega)), hs, ← Nat.pow_add, show 52 + (Nat.log2 n - 52) = Nat.log2 n by omega]
  exact Nat.log2_self_le hn

theorem unit_rawRound (n t : Nat) : unit (rawRound n t) * 2 ^ t = quotOf n t * 2 ^ shiftOf n t := by
  have ht : t ≤ shiftOf n t := by unfold shiftOf; omega
  rw [rawRound_def, unit_of_quot (quotOf_le n t), Nat.mul_assoc, ← Nat.pow_add]
  · congr 2; omega
  · by_cases h : t < shiftOf n t
    · right
      have := quot_ge h
      unfold quotOf
      omega
    · left; omega

/-- A rounding is off by at most half a spacing. -/
theorem round_half (n t : Nat) :
    2 * (unit (rawRound n t) * 2 ^ t) ≤ 2 * n + 2 ^ shiftOf n t ∧
    2 * n ≤ 2 * (unit (rawRound n t) * 2 ^ t) + 2 ^ shiftOf n t := by
  rw [unit_rawRound]
  have hp : 0 < 2 ^ shiftOf n t := Nat.pow_pos (by omega)
  have hdm := Nat.div_add_mod n (2 ^ shiftOf n t)
  have hr := Nat.mod_lt n hp
  unfold quotOf
  generalize 2 ^ shiftOf n t = P at *
  generalize n / P = q at *
  generalize n % P = r at *
  rw [Nat.mul_comm P q] at hdm
  split
  · rename_i h
    rw [Nat.add_mul]
    generalize q * P = X at *
    omega
  · rename_i h
    rw [Nat.add_mul]
    generalize q * P = X at *
    omega

theorem pow_shift_le {n t : Nat} (h : 2 ^ (52 + t) ≤ n) : 2 ^ shiftOf n t * 2 ^ 52 ≤ n := by
  have hn : n ≠ 0 := by
    rintro rfl
    have : 0 < 2 ^ (52 + t) := Nat.pow_pos (by omega)
    omega
  have hl : 52 + t ≤ Nat.log2 n := (Nat.le_log2 hn).2 h
  have hs : shiftOf n t = Nat.log2 n - 52 := by unfold shiftOf; omega
  rw [hs, ← Nat.pow_add, show Nat.log2 n - 52 + 52 = Nat.log2 n by omega]
  exact Nat.log2_self_le hn

/-- The relative error of a rounding in the normal range is at most `2^-53`. -/
theorem round_rel {n t : Nat} (h : 2 ^ (52 + t) ≤ n) :
    2 ^ 53 * (unit (rawRound n t) * 2 ^ t) ≤ 2 ^ 53 * n + n ∧
    2 ^ 53 * n ≤ 2 ^ 53 * (unit (rawRound n t) * 2 ^ t) + n := by
  have h1 := round_half n t
  have h2 := pow_shift_le h
  generalize unit (rawRound n t) * 2 ^ t = u at *
  generalize 2 ^ shiftOf n t = P at *
  omega

theorem rawRound_small {n t k : Nat} (h : n < 2 ^ (k + t + 53)) (hk : k < 2044) : rawRound n t < INF := by
  have hs : shiftOf n t ≤ k + t := by
    unfold shiftOf
    by_cases h0 : n = 0
    · subst h0; simp
    · have := (Nat.log2_lt h0).2 h
      omega
  have := quotOf_le n t
  have h2 : (shiftOf n t - t) * 2 ^ 52 ≤ 2043 * 2 ^ 52 := Nat.mul_le_mul_right _ (by omega)
  rw [rawRound_def]
  unfold INF
  omega

theorem roundMag_raw {n t : Nat} (h : rawRound n t < INF) : roundMag n t = rawRound n t := by
  rw [roundMag_eq]; omega

/-! ## Conversion of integers -/

theorem ofNat_nonneg' (n : Nat) : NonNeg (ofNat n) := by
  refine ⟨round_sign _ _ _, ?_⟩
  unfold ofNat; rw [round_mag]; exact roundMag_le_INF _ _

theorem ofNat_lt_INF {n : Nat} (h : n < 2 ^ 64) : rawRound (n * 2 ^ 1074) 0 < INF := by
  apply rawRound_small (k := 1085)
  · rw [show 1085 + 0 + 53 = 64 + 1074 by rfl, Nat.pow_add]
    exact Nat.mul_lt_mul_of_pos_right h (Nat.pow_pos (by omega))
  · omega

theorem ofNat_val (n : Nat) : (ofNat n).val = unit (roundMag (n * 2 ^ 1074) 0) := by
  rw [(ofNat_nonneg' n).val]; unfold ofNat; rw [round_mag]

theorem ofNat_finite {n : Nat} (h : n < 2 ^ 64) : (ofNat n).isFinite = true := by
  unfold isFinite ofNat
  rw [round_mag, roundMag_raw (ofNat_lt_INF h)]
  simpa using ofNat_lt_INF h

theorem ofNat_exact {n : Nat} (h : n ≤ 2 ^ 53) : (ofNat n).val = ((n * 2 ^ 1074 : Nat) : Int) := by
  rw [ofNat_val, (round_exact_iff (by omega)).2 (small_exact h)]

theorem ofNat_val_mono {n m : Nat} (h : n ≤ m) : (ofNat n).val ≤ (ofNat m).val := by
  rw [ofNat_val, ofNat_val]
  exact Int.ofNat_le.2 (unit_le_iff.2 (roundMag_mono 0 (Nat.mul_le_mul_right _ h)))

/-! ## Division -/

theorem quarters_mono {a a' b : Nat} (_hb : 0 < b) (h : a ≤ a') : quarters a b ≤ quarters a' b := by
  unfold quarters
  generalize (2 : Nat) ^ 1075 = K
  have h1 : a * K ≤ a' * K := Nat.mul_le_mul_right _ h
  generalize a * K = x at *
  generalize a' * K = y at *
  have hd : x / b ≤ y / b := Nat.div_le_div_right h1
  by_cases he : x / b = y / b
  · have e1 := Nat.div_add_mod x b
    have e2 := Nat.div_add_mod y b
    rw [he] at e1 ⊢
    generalize b * (y / b) = z at *
    have : x % b ≤ y % b := by omega
    split <;> split <;> omega
  · split <;> split <;> omega

theorem quarters_err (a b : Nat) (hb : 0 < b) :
    quarters a b * b ≤ 4 * (a * 2 ^ 1074) + b ∧ 4 * (a * 2 ^ 1074) ≤ quarters a b * b + b := by
  unfold quarters
  have e : 4 * (a * 2 ^ 1074) = 2 * (a * 2 ^ 1075) := by
    rw [show (2 : Nat) ^ 1075 = 2 ^ 1074 * 2 by rw [← Nat.pow_succ]]
    generalize (2 : Nat) ^ 1074 = U
    ring
  rw [e]
  generalize a * 2 ^ 1075 = x
  have e1 := Nat.div_add_mod x b
  have hr := Nat.mod_lt x hb
  generalize x / b = k at *
  generalize x % b = r at *
  rw [Nat.mul_comm b k] at e1
  split
  · rw [Nat.add_zero, Nat.mul_assoc]
    generalize k * b = z at *
    omega
  · rw [Nat.add_mul, Nat.mul_assoc]
    generalize k * b = z at *
    omega

/-! ## The fraction of a second -/

/-- `nanos as f64 / 1e9` -/
def frac (f : Nat) : F64 := div (ofNat f) (ofNat 1000000000)

def fracQuarters (f : Nat) : Nat := quarters (f * 2 ^ 1074) (1000000000 * 2 ^ 1074)

theorem billion_pos : 0 < 1000000000 * 2 ^ 1074 := Nat.mul_pos (by omega) (Nat.pow_pos (by omega))

theorem frac_eq {f : Nat} (h : f ≤ 1000000000) : frac f = round false (fracQuarters f) 2 := by
  have uf : ∀ f, f ≤ 1000000000 → unit (ofNat f).mag = f * 2 ^ 1074 := by
    intro f hf
    unfold ofNat
    rw [round_mag]
    exact (round_exact_iff (by omega)).2 (small_exact (by omega))
  have fin : ∀ f, f ≤ 1000000000 → (ofNat f).mag < INF := by
    intro f hf
    have := ofNat_finite (n := f) (by omega)
    simpa [isFinite] using this
  have s : ∀ f, (ofNat f).sign = false := fun f => (ofNat_nonneg' f).1
  have nn : ∀ f, (ofNat f).isNaN = false := fun f => (ofNat_nonneg' f).not_nan
  have ni : ∀ f, f ≤ 1000000000 → (ofNat f).isInf = false := by
    intro f hf
    have := fin f hf
    simp [isInf]; omega
  have hne : (ofNat 1000000000).mag ≠ 0 := by
    intro h0
    have := uf 1000000000 (by omega)
    rw [h0, unit_zero] at this
    have := billion_pos
    omega
  unfold frac div
  rw [s, s, nn, nn, ni f h, ni _ (Nat.le_refl _), uf f h, uf _ (Nat.le_refl _)]
  simp only [Bool.or_self, Bool.false_eq_true, if_false, hne, bne_self_eq_false]
  rfl

theorem fracQuarters_err (f : Nat) :
    fracQuarters f * 1000000000 ≤ 4 * (f * 2 ^ 1074) + 1000000000 ∧
    4 * (f * 2 ^ 1074) ≤ fracQuarters f * 1000000000 + 1000000000 := by
  have h := quarters_err (f * 2 ^ 1074) (1000000000 * 2 ^ 1074) billion_pos
  unfold fracQuarters
  have hU : 0 < 2 ^ 1074 := Nat.pow_pos (by omega)
  generalize quarters (f * 2 ^ 1074) (1000000000 * 2 ^ 1074) = q at *
  generalize (2 : Nat) ^ 1074 = U at *
  constructor
  · apply Nat.le_of_mul_le_mul_right _ hU
    calc q * 1000000000 * U = q * (1000000000 * U) := by ring
      _ ≤ _ := h.1
      _ = _ := by ring
  · apply Nat.le_of_mul_le_mul_right _ hU
    calc 4 * (f * U) * U = 4 * (f * U * U) := by ring
      _ ≤ _ := h.2
      _ = _ := by ring

theorem frac_nonneg {f : Nat} (h : f ≤ 1000000000) : NonNeg (frac f) := by
  rw [frac_eq h]
  exact ⟨round_sign _ _ _, by rw [round_mag]; exact roundMag_le_INF _ _⟩

theorem two_pow_90 : 2 ^ 90 ≤ 2 ^ 1074 := Nat.pow_le_pow_right (by omega) (by omega)

theorem frac_lt_INF {f : Nat} (h : f ≤ 1000000000) : rawRound (fracQuarters f) 2 < INF := by
  apply rawRound_small (k := 1085) _ (by omega)
  have h1 := (fracQuarters_err f).1
  have h2 : f * 2 ^ 1074 ≤ 1000000000 * 2 ^ 1074 := Nat.mul_le_mul_right _ h
  have h3 : (2 : Nat) ^ (1085 + 2 + 53) = 2 ^ 1074 * 2 ^ 66 := by rw [← Nat.pow_add]
  have hU := two_pow_90
  rw [h3]
  generalize (2 : Nat) ^ 1074 = U at *
  generalize fracQuarters f = q at *
  omega

theorem frac_val {f : Nat} (h : f ≤ 1000000000) : (frac f).val = unit (rawRound (fracQuarters f) 2) := by
  rw [(frac_nonneg h).val, frac_eq h, round_mag, roundMag_raw (frac_lt_INF h)]

theorem frac_finite {f : Nat} (h : f ≤ 1000000000) : (frac f).isFinite = true := by
  unfold isFinite
  rw [frac_eq h, round_mag, roundMag_raw (frac_lt_INF h)]
  simpa using frac_lt_INF h

theorem frac_mono {f g : Nat} (h : f ≤ g) (hg : g ≤ 1000000000) : (frac f).val ≤ (frac g).val := by
  rw [frac_val (Nat.le_trans h hg), frac_val hg]
  exact Int.ofNat_le.2 (unit_le_iff.2 (rawRound_mono 2 (quarters_mono billion_pos (Nat.mul_le_mul_right _ h))))

theorem frac_zero : (frac 0).val = 0 := by
  rw [frac_val (by omega)]
  unfold fracQuarters quarters
  simp [rawRound, unit_zero]

theorem frac_one : (frac 1000000000).val = ((2 ^ 1074 : Nat) : Int) := by
  rw [frac_val (Nat.le_refl _)]
  have hq : fracQuarters 1000000000 = 2 ^ 1074 * 2 ^ 2 := by
    unfold fracQuarters quarters
    have e : 1000000000 * 2 ^ 1074 * 2 ^ 1075 = 2 ^ 1075 * (1000000000 * 2 ^ 1074) := Nat.mul_comm _ _
    rw [e, Nat.mul_div_cancel _ billion_pos, Nat.mul_mod_left, if_pos rfl, Nat.add_zero,
      show (2 : Nat) ^ 1075 = 2 ^ 1074 * 2 by rw [← Nat.pow_succ]]
    generalize (2 : Nat) ^ 1074 = U
    ring
  rw [hq]
  have h1 : (2 : Nat) ^ 1074 = unit one.mag := unit_one.symm
  rw [h1, rawRound_unit]

/-- The fraction is off by at most twice `2^-53` of it. -/
theorem frac_err {f : Nat} (h : f ≤ 1000000000) :
    ∃ v : Nat, (frac f).val = v ∧ 2 ^ 53 * (v * 1000000000) ≤ 2 ^ 53 * (f * 2 ^ 1074) + 2 * (f * 2 ^ 1074) ∧
      2 ^ 53 * (f * 2 ^ 1074) ≤ 2 ^ 53 * (v * 1000000000) + 2 * (f * 2 ^ 1074) := by
  by_cases h0 : f = 0
  · subst h0
    exact ⟨0, by rw [frac_zero]; rfl, by omega, by omega⟩
  refine ⟨_, frac_val h, ?_⟩
  have he := fracQuarters_err f
  have hU := two_pow_90
  have hf : 2 ^ 1074 ≤ f * 2 ^ 1074 := Nat.le_mul_of_pos_left _ (by omega)
  have hbig : 2 ^ (52 + 2) ≤ fracQuarters f := by
    generalize (2 : Nat) ^ 1074 = U at *
    generalize f * U = x at *
    omega
  have hr := round_rel hbig
  generalize unit (rawRound (fracQuarters f) 2) = u at *
  generalize (2 : Nat) ^ 1074 = U at *
  generalize f * U = x at *
  generalize fracQuarters f = q at *
  omega

/-- Less than half a spacing above a number rounds back to it. -/
theorem rawRound_above {q k r : Nat} (h1 : 2 ^ 52 ≤ q) (h2 : q < 2 ^ 53) (hr : 2 * r < 2 ^ k) :
    rawRound (q * 2 ^ k + r) 0 = k * 2 ^ 52 + q := by
  have hp : 0 < 2 ^ k := Nat.pow_pos (by omega)
  have hlow : 2 ^ (52 + k) ≤ q * 2 ^ k + r := by
    rw [Nat.pow_add]; exact Nat.le_trans (Nat.mul_le_mul_right _ h1) (Nat.le_add_right _ _)
  have hhigh : q * 2 ^ k + r < 2 ^ (53 + k) := by
    rw [Nat.pow_add]
    have : (q + 1) * 2 ^ k ≤ 2 ^ 53 * 2 ^ k := Nat.mul_le_mul_right _ h2
    rw [Nat.add_mul, Nat.one_mul] at this
    omega
  have hn : q * 2 ^ k + r ≠ 0 := by
    have : 0 < 2 ^ (52 + k) := Nat.pow_pos (by omega)
    omega
  have hl1 : 52 + k ≤ Nat.log2 (q * 2 ^ k + r) := (Nat.le_log2 hn).2 hlow
  have hl2 : Nat.log2 (q * 2 ^ k + r) < 53 + k := (Nat.log2_lt hn).2 hhigh
  have hs : shiftOf (q * 2 ^ k + r) 0 = k := by unfold shiftOf; omega
  have hd : (q * 2 ^ k + r) / 2 ^ k = q := by
    rw [Nat.add_comm, Nat.add_mul_div_right _ _ hp, Nat.div_eq_of_lt (by omega)]; omega
  have hm : (q * 2 ^ k + r) % 2 ^ k = r := by
    rw [Nat.add_comm, Nat.add_mul_mod_self_right, Nat.mod_eq_of_lt (by omega)]
  rw [rawRound_def]
  unfold quotOf
  rw [hs, hd, hm, if_neg (by omega)]
  omega

/-- From `2^53` on, adding less than one to an integer has no effect. -/
theorem rawRound_large {b r : Nat} (h : 2 ^ 53 * 2 ^ 1074 ≤ unit b) (hr : r < 2 ^ 1074) : rawRound (unit b + r) 0 = b := by
  have hb : ¬ b < 2 ^ 52 := by
    intro hb
    rw [unit_small hb] at h
    have hU := two_pow_90
    generalize (2 : Nat) ^ 1074 = U at *
    omega
  rw [unit_big hb] at h ⊢
  have hq : 2 ^ 52 + b % 2 ^ 52 < 2 ^ 53 := by omega
  have hk : 1075 ≤ b / 2 ^ 52 - 1 := by
    by_contra hc
    have h1 : (2 : Nat) ^ (b / 2 ^ 52 - 1) ≤ 2 ^ 1074 := Nat.pow_le_pow_right (by omega) (by omega)
    have h2 : (2 ^ 52 + b % 2 ^ 52) * 2 ^ (b / 2 ^ 52 - 1) ≤ (2 ^ 52 + b % 2 ^ 52) * 2 ^ 1074 := Nat.mul_le_mul_left _ h1
    have h3 : (2 ^ 52 + b % 2 ^ 52) * 2 ^ 1074 < 2 ^ 53 * 2 ^ 1074 := Nat.mul_lt_mul_of_pos_right hq (Nat.pow_pos (by omega))
    exact absurd (Nat.lt_of_le_of_lt (Nat.le_trans h h2) h3) (Nat.lt_irrefl _)
  have h5 : (2 : Nat) ^ 1075 ≤ 2 ^ (b / 2 ^ 52 - 1) := Nat.pow_le_pow_right (by omega) hk
  have h6 : (2 : Nat) ^ 1075 = 2 * 2 ^ 1074 := by rw [Nat.pow_succ, Nat.mul_comm]
  rw [rawRound_above (by omega) hq (Nat.lt_of_lt_of_le (by rw [h6]; exact Nat.mul_lt_mul_of_pos_left hr (by omega)) h5)]
  omega

theorem frac_lt_one {f : Nat} (h : f < 1000000000) : (frac f).val < ((2 ^ 1074 : Nat) : Int) := by
  refine Int.lt_of_le_of_lt (frac_mono (g := 999999999) (by omega) (by omega)) ?_
  have e : frac 999999999 = ⟨4607182418791010209, by decide⟩ := by decide +kernel
  have m : (frac 999999999).mag < one.mag := by rw [e]; decide
  rw [(frac_nonneg (by omega)).val, ← unit_one]
  exact Int.ofNat_lt.2 (unit_lt_iff.2 m)

/-! ## Seconds -/

end F64
open F64

theorem asSecsF64_eq (d : Nat) : asSecsF64 d = add (ofNat (d / 1000000000)) (frac (d % 1000000000)) := rfl

theorem frac_mod (d : Nat) : d % 1000000000 ≤ 1000000000 := Nat.le_of_lt (Nat.mod_lt _ (by omega))

/-- Seconds are monotone in the duration below `2^53` seconds. -/
theorem asSecsF64_mono_small {d d' : Nat} (h : d ≤ d') (hd : d' / 1000000000 < 2 ^ 53) :
    fle (asSecsF64 d) (asSecsF64 d') = true := by
  have hs : d / 1000000000 ≤ d' / 1000000000 := Nat.div_le_div_right h
  rw [asSecsF64_eq, asSecsF64_eq]
  by_cases he : d / 1000000000 = d' / 1000000000
  · rw [he]
    apply add_mono (ofNat_finite (by omega)) (frac_finite (frac_mod _)) (frac_finite (frac_mod _))
    exact frac_mono (by omega) (frac_mod _)
  · obtain ⟨n1, v1⟩ := add_val (ofNat_finite (n := d / 1000000000) (by omega)) (frac_finite (frac_mod d))
    obtain ⟨n2, v2⟩ := add_val (ofNat_finite (n := d' / 1000000000) (by omega)) (frac_finite (frac_mod d'))
    rw [fle_iff, v1, v2]
    refine ⟨n1, n2, signed_round_mono ?_⟩
    rw [ofNat_exact (by omega), ofNat_exact (by omega)]
    have h1 := frac_mono (frac_mod d) (Nat.le_refl _)
    rw [frac_one] at h1
    have h2 := frac_mono (Nat.zero_le (d' % 1000000000)) (frac_mod d')
    rw [frac_zero] at h2
    have h3 : (d / 1000000000 + 1) * 2 ^ 1074 ≤ d' / 1000000000 * 2 ^ 1074 := Nat.mul_le_mul_right _ (by omega)
    rw [Nat.add_mul, Nat.one_mul] at h3
    have h4 : ((d / 1000000000 * 2 ^ 1074 : Nat) : Int) + ((2 ^ 1074 : Nat) : Int) ≤ ((d' / 1000000000 * 2 ^ 1074 : Nat) : Int) := by
      rw [← Int.natCast_add]
      exact Int.ofNat_le.2 h3
    exact Int.le_trans (Int.add_le_add_left h1 _) (Int.le_trans h4 (Int.le_add_of_nonneg_right h2))

theorem signed_large {b r : Nat} (h : 2 ^ 53 * 2 ^ 1074 ≤ unit b) (hr : r < 2 ^ 1074) :
    (if (unit b : Int) + (r : Int) < 0 then -(unit (roundMag ((unit b : Int) + (r : Int)).natAbs 0) : Int)
      else unit (roundMag ((unit b : Int) + (r : Int)).natAbs 0)) ≤
    (if (unit b : Int) + 0 < 0 then -(unit (roundMag ((unit b : Int) + 0).natAbs 0) : Int)
      else unit (roundMag ((unit b : Int) + 0).natAbs 0)) := by
  have e1 := rawRound_large h hr
  have e2 := rawRound_unit b 0
  simp only [Nat.pow_zero, Nat.mul_one] at e2
  clear h hr
  generalize unit b = u at *
  have n1 : ¬ (u : Int) + (r : Int) < 0 := by omega
  have n2 : ¬ (u : Int) + 0 < 0 := by omega
  have a1 : ((u : Int) + (r : Int)).natAbs = u + r := by omega
  have a2 : ((u : Int) + 0).natAbs = u := by omega
  rw [if_neg n1, if_neg n2, a1, a2, roundMag_eq, roundMag_eq, e1, e2]

/-- Seconds are monotone in the duration. -/
theorem asSecsF64_mono {d d' : Nat} (h : d ≤ d') (hd : d' / 1000000000 < 2 ^ 64) :
    fle (asSecsF64 d) (asSecsF64 d') = true := by
  by_cases hb : d' / 1000000000 < 2 ^ 53
  · exact asSecsF64_mono_small h hb
  have hs : d / 1000000000 ≤ d' / 1000000000 := Nat.div_le_div_right h
  rw [asSecsF64_eq, asSecsF64_eq]
  by_cases he : d / 1000000000 = d' / 1000000000
  · rw [he]
    apply add_mono (ofNat_finite (by omega)) (frac_finite (frac_mod _)) (frac_finite (frac_mod _))
    exact frac_mono (by omega) (frac_mod _)
  · obtain ⟨n1, v1⟩ := add_val (ofNat_finite (n := d / 1000000000) (by omega)) (frac_finite (frac_mod d))
    obtain ⟨n2, v2⟩ := add_val (ofNat_finite (n := d' / 1000000000) (by omega)) (frac_finite (frac_mod d'))
    have hS : (ofNat (d / 1000000000)).val ≤ (ofNat (d' / 1000000000)).val := by
      rw [ofNat_val, ofNat_val]
      exact Int.ofNat_le.2 (unit_le_iff.2 (roundMag_mono 0 (Nat.mul_le_mul_right _ hs)))
    have hraw := roundMag_raw (ofNat_lt_INF hd)
    have hbig : 2 ^ 53 * 2 ^ 1074 ≤ unit (rawRound (d' / 1000000000 * 2 ^ 1074) 0) := by
      have h1 := ofNat_val_mono (n := 2 ^ 53) (m := d' / 1000000000) (by omega)
      rw [ofNat_exact (Nat.le_refl _), ofNat_val, hraw] at h1
      exact Int.ofNat_le.1 h1
    have hV : (ofNat (d' / 1000000000)).val = ((unit (rawRound (d' / 1000000000 * 2 ^ 1074) 0) : Nat) : Int) := by
      rw [ofNat_val, hraw]
    have f0 : 0 ≤ (frac (d' % 1000000000)).val := by
      have := frac_mono (Nat.zero_le (d' % 1000000000)) (frac_mod d')
      rwa [frac_zero] at this
    have f1 : 0 ≤ (frac (d % 1000000000)).val := by
      have := frac_mono (Nat.zero_le (d % 1000000000)) (frac_mod d)
      rwa [frac_zero] at this
    have f2 := frac_lt_one (Nat.mod_lt d (show 1000000000 > 0 by omega))
    rw [fle_iff, v1, v2]
    refine ⟨n1, n2, ?_⟩
    obtain ⟨r, hr⟩ := Int.eq_ofNat_of_zero_le f1
    have hr' : r < 2 ^ 1074 := by rw [hr] at f2; exact Int.ofNat_lt.1 f2
    refine Int.le_trans (signed_round_mono (Int.add_le_add_right hS _)) ?_
    have hmid := signed_round_mono (Int.add_le_add_left f0 (ofNat (d' / 1000000000)).val)
    refine Int.le_trans ?_ hmid
    rw [hV, hr]
    exact signed_large hbig hr'

theorem ofNat_err {n : Nat} (h : n < 2 ^ 64) :
    ∃ v : Nat, (ofNat n).val = v ∧ 2 ^ 53 * v ≤ 2 ^ 53 * (n * 2 ^ 1074) + n * 2 ^ 1074 ∧
      2 ^ 53 * (n * 2 ^ 1074) ≤ 2 ^ 53 * v + n * 2 ^ 1074 := by
  by_cases h0 : n = 0
  · subst h0
    exact ⟨0, by rw [ofNat_exact (by omega), Nat.zero_mul], by omega, by omega⟩
  refine ⟨_, ofNat_val n, ?_⟩
  rw [roundMag_raw (ofNat_lt_INF h)]
  have hU := two_pow_90
  have hf : 2 ^ 1074 ≤ n * 2 ^ 1074 := Nat.le_mul_of_pos_left _ (by omega)
  have hr := round_rel (n := n * 2 ^ 1074) (t := 0) (by
    generalize (2 : Nat) ^ 1074 = U at *
    omega)
  rw [Nat.pow_zero, Nat.mul_one] at hr
  exact hr

/-- Seconds are off by at most `2^-51` of the duration, for every `Duration`. -/
theorem asSecsF64_err {d : Nat} (hd : d / 1000000000 < 2 ^ 64) :
    ∃ v : Nat, (asSecsF64 d).isFinite = true ∧ (asSecsF64 d).val = v ∧
      2 ^ 51 * (v * 1000000000) ≤ 2 ^ 51 * (d * 2 ^ 1074) + d * 2 ^ 1074 ∧
      2 ^ 51 * (d * 2 ^ 1074) ≤ 2 ^ 51 * (v * 1000000000) + d * 2 ^ 1074 := by
  obtain ⟨v1, e1, a1, b1⟩ := ofNat_err hd
  obtain ⟨v2, e2, a2, b2⟩ := frac_err (frac_mod d)
  obtain ⟨n, hv⟩ := add_val (ofNat_finite hd) (frac_finite (frac_mod d))
  rw [← asSecsF64_eq, e1, e2] at hv
  rw [← asSecsF64_eq] at n
  have hnn : ¬ ((v1 : Int) + v2 < 0) := by omega
  rw [if_neg hnn, show ((v1 : Int) + v2).natAbs = v1 + v2 by omega] at hv
  have hU := two_pow_90
  have hsplit : d * 2 ^ 1074 = 1000000000 * (d / 1000000000 * 2 ^ 1074) + d % 1000000000 * 2 ^ 1074 := by
    conv_lhs => rw [← Nat.div_add_mod d 1000000000, Nat.add_mul, Nat.mul_assoc]
  have hs64 : d / 1000000000 * 2 ^ 1074 ≤ 2 ^ 64 * 2 ^ 1074 := Nat.mul_le_mul_right _ (by omega)
  have hf64 : d % 1000000000 * 2 ^ 1074 ≤ 1000000000 * 2 ^ 1074 := Nat.mul_le_mul_right _ (frac_mod d)
  have hlt : rawRound (v1 + v2) 0 < INF := by
    apply rawRound_small (k := 1100) _ (by omega)
    have h3 : (2 : Nat) ^ (1100 + 0 + 53) = 2 ^ 1074 * 2 ^ 79 := by rw [← Nat.pow_add]
    rw [h3]
    clear hsplit e1 e2 n hv hnn
    generalize (2 : Nat) ^ 1074 = U at *
    generalize d / 1000000000 * U = S at *
    generalize d % 1000000000 * U = T at *
    omega
  rw [roundMag_raw hlt] at hv
  refine ⟨unit (rawRound (v1 + v2) 0), ?_, hv, ?_⟩
  · have hi : (asSecsF64 d).isInf = false := by
      by_contra hc
      simp only [isInf, beq_iff_eq, Bool.not_eq_false] at hc
      have h1 : unit (asSecsF64 d).mag = unit (rawRound (v1 + v2) 0) := by
        unfold F64.val at hv
        split at hv
        · have h0 := unit_strictMono (a := 0) (b := (asSecsF64 d).mag) (by rw [hc]; unfold INF; omega)
          rw [unit_zero] at h0
          omega
        · exact Int.ofNat.inj hv
      have h2 := unit_strictMono hlt
      rw [← h1, hc] at h2
      omega
    simp only [isNaN, isInf, decide_eq_false_iff_not, Nat.not_lt, beq_eq_false_iff_ne, ne_eq] at n hi
    simp only [isFinite, decide_eq_true_eq]
    omega
  · by_cases hd0 : d = 0
    · subst hd0
      simp only [Nat.zero_div, Nat.zero_mod, Nat.zero_mul, Nat.mul_zero, Nat.add_zero] at a1 a2
      clear e1 e2 n hv hnn hlt b1 b2 hs64 hf64 hsplit hU
      have h1 : v1 = 0 := by omega
      have h2 : v2 = 0 := by omega
      subst h1 h2
      simp [rawRound, unit_zero]
    · have hdU : 2 ^ 1074 ≤ d * 2 ^ 1074 := Nat.le_mul_of_pos_left _ (by omega)
      have hr := round_rel (n := v1 + v2) (t := 0) (by
        clear e1 e2 n hv hnn hlt
        generalize (2 : Nat) ^ 1074 = U at *
        generalize d / 1000000000 * U = S at *
        generalize d % 1000000000 * U = T at *
        generalize d * U = D at *
        omega)
      rw [Nat.pow_zero, Nat.mul_one] at hr
      clear e1 e2 n hv hnn hlt
      generalize unit (rawRound (v1 + v2) 0) = u at *
      generalize (2 : Nat) ^ 1074 = U at *
      generalize d / 1000000000 * U = S at *
      generalize d % 1000000000 * U = T at *
      generalize d * U = D at *
      omega

/-- Different durations below 13 days differ as seconds. -/
theorem asSecsF64_strict {d d' : Nat} (h : d < d') (hd : d' ≤ 2 ^ 50) : flt (asSecsF64 d) (asSecsF64 d') = true := by
  obtain ⟨v, f1, e1, a1, b1⟩ := asSecsF64_err (d := d) (by omega)
  obtain ⟨v', f2, e2, a2, b2⟩ := asSecsF64_err (d := d') (by omega)
  rw [flt_iff, e1, e2]
  have nn : ∀ x : F64, x.isFinite = true → x.isNaN = false := by
    intro x hx
    simp only [isFinite, isNaN, decide_eq_true_eq, decide_eq_false_iff_not] at hx ⊢
    omega
  refine ⟨nn _ f1, nn _ f2, Int.ofNat_lt.2 ?_⟩
  have hU := two_pow_90
  clear e1 e2 f1 f2 nn
  generalize (2 : Nat) ^ 1074 = U at *
  by_contra hc
  have hc' : v' ≤ v := by omega
  have h1 : (d + 1) * U ≤ d' * U := Nat.mul_le_mul_right _ h
  have h2 : d' * U ≤ 2 ^ 50 * U := Nat.mul_le_mul_right _ hd
  have h3 : d * U ≤ 2 ^ 50 * U := Nat.mul_le_mul_right _ (by omega)
  rw [Nat.add_mul, Nat.one_mul] at h1
  generalize d * U = D at *
  generalize d' * U = D' at *
  omega

/-- Durations that differ by at least one part in `2^49` differ as seconds. -/
theorem asSecsF64_gap {d d' : Nat} (h : d < d') (hg : d' ≤ 2 ^ 49 * (d' - d)) (hd : d' / 1000000000 < 2 ^ 64) :
    flt (asSecsF64 d) (asSecsF64 d') = true := by
  obtain ⟨v, f1, e1, a1, b1⟩ := asSecsF64_err (d := d) (by omega)
  obtain ⟨v', f2, e2, a2, b2⟩ := asSecsF64_err (d := d') (by omega)
  rw [flt_iff, e1, e2]
  have nn : ∀ x : F64, x.isFinite = true → x.isNaN = false := by
    intro x hx
    simp only [isFinite, isNaN, decide_eq_true_eq, decide_eq_false_iff_not] at hx ⊢
    omega
  refine ⟨nn _ f1, nn _ f2, Int.ofNat_lt.2 ?_⟩
  have hU := two_pow_90
  clear e1 e2 f1 f2 nn
  generalize (2 : Nat) ^ 1074 = U at *
  by_contra hc
  have hc' : v' ≤ v := by omega
  have h1 : (d + 1) * U ≤ d' * U := Nat.mul_le_mul_right _ h
  have h2 : d' * U ≤ 2 ^ 49 * (d' - d) * U := Nat.mul_le_mul_right _ hg
  rw [Nat.mul_assoc, Nat.sub_mul] at h2
  rw [Nat.add_mul, Nat.one_mul] at h1
  generalize d * U = D at *
  generalize d' * U = D' at *
  omega

end Measured
