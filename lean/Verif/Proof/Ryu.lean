import Verif.Proof.Quarters
import Verif.Proof.Duration
import Verif.Model.Ryu
import Verif.Spec.Decimal
import Mathlib.Algebra.Order.Field.Power
import Mathlib.Tactic.FieldSimp

/-! # The shortest decimal that is read back -/

set_option exponentiation.threshold 3000

namespace Measured
open Measured.Spec F64

/-! ## Rounding of quotients of natural numbers -/

theorem F64.quarters_scale (a b c : Nat) (hc : 0 < c) : quarters (a * c) (b * c) = quarters a b := by
  unfold quarters
  rw [show a * c * 2 ^ 1075 = a * 2 ^ 1075 * c by ring, Nat.mul_div_mul_right _ _ hc, Nat.mul_mod_mul_right]
  congr 1
  by_cases h : a * 2 ^ 1075 % b = 0
  · rw [if_pos h, if_pos (by rw [h, Nat.zero_mul])]
  · rw [if_neg h, if_neg]
    intro h'
    rcases Nat.mul_eq_zero.1 h' with h' | h'
    · exact h h'
    · omega

/-- The next double is one step further, and not more than `2^53` steps from zero. -/
theorem F64.unit_step (c : Nat) : ∃ step, unit (c + 1) = unit c + step ∧ unit (c + 1) ≤ 2 ^ 53 * step := by
  by_cases h : c + 1 < 2 ^ 52
  · refine ⟨1, ?_, ?_⟩
    · rw [unit_small h, unit_small (by omega)]
    · rw [unit_small h]; omega
  · by_cases h' : c < 2 ^ 52
    · have : c + 1 = 2 ^ 52 := by omega
      have hu : unit (2 ^ 52) = 2 ^ 52 := by decide
      refine ⟨1, ?_, ?_⟩
      · rw [this, hu, unit_small h', ← this]
      · rw [this, hu]; omega
    · refine ⟨2 ^ (c / 2 ^ 52 - 1), ?_, ?_⟩
      · rw [unit_big h, unit_big h']
        have he : 1 ≤ c / 2 ^ 52 := by omega
        by_cases hc : c % 2 ^ 52 = 2 ^ 52 - 1
        · have h1 : (c + 1) % 2 ^ 52 = 0 := by omega
          have h2 : (c + 1) / 2 ^ 52 = c / 2 ^ 52 + 1 := by omega
          rw [h1, h2, hc]
          obtain ⟨e, he'⟩ : ∃ e, c / 2 ^ 52 = e + 1 := ⟨c / 2 ^ 52 - 1, by omega⟩
          rw [he']
          simp only [Nat.add_sub_cancel, Nat.add_zero]
          rw [Nat.pow_succ 2 e, show 2 ^ 52 + (2 ^ 52 - 1) = 9007199254740991 by rfl]
          ring
        · have h1 : (c + 1) % 2 ^ 52 = c % 2 ^ 52 + 1 := by omega
          have h2 : (c + 1) / 2 ^ 52 = c / 2 ^ 52 := by omega
          rw [h1, h2]
          ring
      · rw [unit_big h]
        have he : 1 ≤ c / 2 ^ 52 := by omega
        by_cases hc : c % 2 ^ 52 = 2 ^ 52 - 1
        · have h1 : (c + 1) % 2 ^ 52 = 0 := by omega
          have h2 : (c + 1) / 2 ^ 52 = c / 2 ^ 52 + 1 := by omega
          rw [h1, h2]
          obtain ⟨e, he'⟩ : ∃ e, c / 2 ^ 52 = e + 1 := ⟨c / 2 ^ 52 - 1, by omega⟩
          rw [he']
          simp only [Nat.add_sub_cancel, Nat.add_zero]
          rw [Nat.pow_succ]
          exact Nat.le_of_eq (by ring)
        · have h1 : (c + 1) % 2 ^ 52 = c % 2 ^ 52 + 1 := by omega
          have h2 : (c + 1) / 2 ^ 52 = c / 2 ^ 52 := by omega
          rw [h1, h2]
          apply Nat.mul_le_mul_right
          have := Nat.mod_lt c (show 0 < 2 ^ 52 by decide)
          omega

/-- Other doubles are away by at least one part in `2^53`. -/
theorem F64.unit_gap {b c : Nat} (h : c ≠ b) :
    (c < b → unit b + 2 ^ 53 * unit c ≤ 2 ^ 53 * unit b) ∧ (b < c → unit b + 2 ^ 53 * unit b ≤ 2 ^ 53 * unit c) := by
  constructor
  · intro hlt
    obtain ⟨b', rfl⟩ : ∃ b', b = b' + 1 := ⟨b - 1, by omega⟩
    obtain ⟨s, h1, h2⟩ := unit_step b'
    have := (unit_le_iff (a := c) (b := b')).2 (by omega)
    omega
  · intro hlt
    obtain ⟨s, h1, h2⟩ := unit_step b
    have := (unit_le_iff (a := b + 1) (b := c)).2 (by omega)
    omega

/-- Correct rounding has one result, but for the sign of zero. -/
theorem Spec.RoundsTo.unique {q : ℚ} {x y : F64} (hx : RoundsTo q x) (hy : RoundsTo q y) (hs : x.sign = y.sign) : x = y := by
  by_cases hb : |q| < overflowBound
  · obtain ⟨fx, nx⟩ := hx.near hb
    obtain ⟨fy, ny⟩ := hy.near hb
    have he : |real x - q| = |real y - q| := le_antisymm (nx y fy).1 (ny x fx).1
    by_contra hne
    have hm : x.mag ≠ y.mag := fun h => hne (F64.ext' hs h)
    have key : ∀ {x y : F64}, IsFinite x → IsFinite y → x.sign = y.sign → x.mag < y.mag →
        (∀ z, IsFinite z → |real x - q| ≤ |real z - q|) → |real x - q| = |real y - q| → y.mag = x.mag + 1 := by
      intro x y fx fy hs hlt hn he
      by_contra hc
      have hzM : x.mag + 1 < 2 ^ 63 := by have := y.mag_lt; omega
      have hzs : (make x.sign (x.mag + 1) hzM).sign = x.sign := make_sign _ _ _
      have hzm : (make x.sign (x.mag + 1) hzM).mag = x.mag + 1 := make_mag _ _ _
      have hzf : IsFinite (make x.sign (x.mag + 1) hzM) := by
        rw [finite_iff] at fy ⊢
        simp only [isFinite, hzm, decide_eq_true_eq] at fy ⊢
        omega
      have hz := hn _ hzf
      have u1 := unit_strictMono (show x.mag < x.mag + 1 by omega)
      have u2 := unit_strictMono (show x.mag + 1 < y.mag by omega)
      have rx : real x = (sgn x.sign : ℚ) * unit x.mag / 2 ^ 1074 := by rw [real_eq, val_sgn]; push_cast; rfl
      have ry : real y = (sgn x.sign : ℚ) * unit y.mag / 2 ^ 1074 := by rw [real_eq, val_sgn, hs]; push_cast; rfl
      have rz : real (make x.sign (x.mag + 1) hzM) = (sgn x.sign : ℚ) * unit (x.mag + 1) / 2 ^ 1074 := by
        rw [real_eq, val_sgn, hzs, hzm]; push_cast; rfl
      have hK : (0 : ℚ) < 2 ^ 1074 := by positivity
      have v1 : (unit x.mag : ℚ) / 2 ^ 1074 < (unit (x.mag + 1) : ℚ) / 2 ^ 1074 :=
        div_lt_div_of_pos_right (by exact_mod_cast u1) hK
      have v2 : (unit (x.mag + 1) : ℚ) / 2 ^ 1074 < (unit y.mag : ℚ) / 2 ^ 1074 :=
        div_lt_div_of_pos_right (by exact_mod_cast u2) hK
      rw [mul_div_assoc] at rx ry rz
      have le1 : |real y - q| ≤ |real x - q| := he.ge
      have le2 : |real x - q| ≤ |real y - q| := he.le
      cases hsx : x.sign
      · simp only [hsx, sgn, Bool.false_eq_true, if_false, Int.cast_one, one_mul] at rx ry rz
        simp only [hsx] at hz
        have a1 := (abs_le_iff_of_gt (R := real y) (Y := real x) (N := q) (by rw [rx, ry]; linarith)).1 le1
        have a2 := (abs_le_iff_of_lt (R := real x) (Y := real y) (N := q) (by rw [rx, ry]; linarith)).1 le2
        have a3 := (abs_le_iff_of_lt (N := q) (by rw [rx, rz]; linarith)).1 hz
        rw [rx] at a1 a3
        rw [ry] at a1
        rw [rz] at a3
        linarith
      · simp only [hsx, sgn, if_true, Int.cast_neg, Int.cast_one, neg_mul, one_mul] at rx ry rz
        simp only [hsx] at hz
        have a1 := (abs_le_iff_of_lt (R := real y) (Y := real x) (N := q) (by rw [rx, ry]; linarith)).1 le1
        have a3 := (abs_le_iff_of_gt (N := q) (by rw [rx, rz]; linarith)).1 hz
        rw [rx] at a1 a3
        rw [ry] at a1
        rw [rz] at a3
        linarith
    have hr : real x ≠ real y := by
      rw [real_eq, real_eq, val_sgn, val_sgn, hs]
      intro h
      have hK : (2 : ℚ) ^ 1074 ≠ 0 := by positivity
      have h := (div_left_inj' hK).1 h
      have h : sgn y.sign * (unit x.mag : Int) = sgn y.sign * unit y.mag := by exact_mod_cast h
      have h0 : sgn y.sign ≠ 0 := by cases y.sign <;> decide
      have h := Int.eq_of_mul_eq_mul_left h0 h
      have h : unit x.mag = unit y.mag := by exact_mod_cast h
      rcases Nat.lt_or_gt_of_ne hm with hl | hl
      · have := unit_strictMono hl; omega
      · have := unit_strictMono hl; omega
    have e1 := (nx y fy).2 he.symm hr.symm
    have e2 := (ny x fx).2 he hr
    rw [fracField_eq] at e1 e2
    rcases Nat.lt_or_gt_of_ne hm with hl | hl
    · have := key fx fy hs hl (fun z hz => (nx z hz).1) he
      omega
    · have := key fy fx hs.symm hl (fun z hz => (ny z hz).1) he.symm
      omega
  · obtain ⟨e1, f1⟩ := hx.over (not_lt.1 hb)
    obtain ⟨e2, f2⟩ := hy.over (not_lt.1 hb)
    rw [expField_eq] at e1 e2
    rw [fracField_eq] at f1 f2
    exact F64.ext' hs (by omega)

namespace Ryu

theorem ratMag_mono {a b a' b' : Nat} (hb : 0 < b) (hb' : 0 < b') (h : a * b' ≤ a' * b) : ratMag a b ≤ ratMag a' b' := by
  unfold ratMag
  apply roundMag_mono
  rw [← quarters_scale a b b' hb', ← quarters_scale a' b' b hb, Nat.mul_comm b' b]
  exact quarters_mono (Nat.mul_pos hb hb') h

theorem ratMag_exact {b : Nat} (hb : b ≤ INF) : ratMag (unit b) (2 ^ 1074) = b := by
  unfold ratMag quarters
  rw [show (2 : Nat) ^ 1075 = 2 * 2 ^ 1074 by rw [← Nat.pow_succ'], ← Nat.mul_assoc,
    Nat.mul_div_cancel _ (Nat.pow_pos (by omega)), Nat.mul_mod_left, if_pos rfl, Nat.add_zero,
    show 2 * (unit b * 2) = unit b * 2 ^ 2 by ring]
  exact roundMag_unit hb 2

/-- The double with magnitude bits `b`. -/
theorem real_make {b : Nat} (h : b < 2 ^ 63) : real (make false b h) = (unit b : ℚ) / 2 ^ 1074 := by
  rw [real_eq, val_sgn, make_sign, make_mag]; simp [sgn]

theorem finite_make {b : Nat} (h : b < 2 ^ 63) (hb : b < INF) : IsFinite (make false b h) := by
  rw [finite_iff]; simp only [isFinite, make_mag, decide_eq_true_eq]; exact hb

/-- What is nearer to a double than one part in `2^54` is rounded to it. -/
theorem ratMag_close {b a d : Nat} (hb : b < INF) (hd : 0 < d)
    (h : |(a : ℚ) / d - unit b / 2 ^ 1074| < (unit b : ℚ) / 2 ^ 1074 / 2 ^ 54) : ratMag a d = b := by
  have hb63 : b < 2 ^ 63 := Nat.lt_trans hb (by decide)
  have hr := round_quarters false a d hd
  simp only [sgn, Bool.false_eq_true, if_false, Int.cast_one, one_mul] at hr
  have hmag : (round false (quarters a d) 2).mag = ratMag a d := round_mag _ _ _
  generalize hR : round false (quarters a d) 2 = r at *
  have hrs : r.sign = false := by rw [← hR, round_sign]
  have hK : (0 : ℚ) < 2 ^ 1074 := by positivity
  have hX : (unit b : ℚ) / 2 ^ 1074 ≤ 2 ^ 1024 - 2 ^ 971 := by
    have h1 : unit b ≤ unit (INF - 1) := unit_le_iff.2 (by omega)
    rw [unit_maxFinite] at h1
    rw [div_le_iff₀ hK]
    have h2 : (unit b : ℚ) ≤ ((18014398509481982 * 2 ^ 2044 : Nat) : ℚ) := by exact_mod_cast h1
    refine h2.trans (le_of_eq ?_)
    rw [Nat.cast_mul, Nat.cast_pow, show ((2 : Nat) : ℚ) = 2 by norm_num,
      show (2 : ℚ) ^ 2044 = 2 ^ 970 * 2 ^ 1074 by rw [← pow_add], show (2 : ℚ) ^ 1024 = 2 ^ 54 * 2 ^ 970 by rw [← pow_add],
      show (2 : ℚ) ^ 971 = 2 * 2 ^ 970 by rw [← pow_succ']]
    generalize (2 : ℚ) ^ 970 = A
    generalize (2 : ℚ) ^ 1074 = B
    norm_num
    ring
  have hq0 : (0 : ℚ) ≤ (a : ℚ) / d := by positivity
  have hX0 : (0 : ℚ) ≤ (unit b : ℚ) / 2 ^ 1074 := by positivity
  have hov : |(a : ℚ) / d| < overflowBound := by
    rw [abs_of_nonneg hq0]
    have h1 := (abs_lt.1 h).2
    unfold overflowBound
    have e1 : (2 : ℚ) ^ 1024 = 2 ^ 54 * 2 ^ 970 := by rw [← pow_add]
    have e2 : (2 : ℚ) ^ 971 = 2 * 2 ^ 970 := by rw [← pow_succ']
    have hA : (0 : ℚ) < 2 ^ 970 := by positivity
    rw [e1, e2] at hX
    rw [e1]
    generalize (2 : ℚ) ^ 970 = A at *
    generalize (unit b : ℚ) / 2 ^ 1074 = X at *
    norm_num at *
    linarith
  obtain ⟨hf, hn⟩ := hr.near hov
  have hn := (hn _ (finite_make hb63 hb)).1
  rw [real_make] at hn
  by_contra hne
  rw [← hmag] at hne
  have hgap := unit_gap (b := b) (c := r.mag) hne
  have rr : real r = (unit r.mag : ℚ) / 2 ^ 1074 := by rw [real_eq, val_sgn, hrs]; simp [sgn]
  have hg : (unit b : ℚ) / 2 ^ 1074 / 2 ^ 53 ≤ |real r - (unit b : ℚ) / 2 ^ 1074| := by
    rw [rr, ← sub_div, abs_div, abs_of_pos hK, div_right_comm]
    refine div_le_div_of_nonneg_right ?_ hK.le
    rw [div_le_iff₀ (by positivity)]
    rcases Nat.lt_or_gt_of_ne hne with hl | hl
    · have h1 := hgap.1 hl
      have h1 : (unit b : ℚ) + 2 ^ 53 * unit r.mag ≤ 2 ^ 53 * unit b := by exact_mod_cast h1
      rw [abs_sub_comm]
      have := le_abs_self ((unit b : ℚ) - unit r.mag)
      nlinarith
    · have h1 := hgap.2 hl
      have h1 : (unit b : ℚ) + 2 ^ 53 * unit b ≤ 2 ^ 53 * unit r.mag := by exact_mod_cast h1
      have := le_abs_self ((unit r.mag : ℚ) - unit b)
      nlinarith
  have h3 := abs_sub_le (real r) ((a : ℚ) / d) ((unit b : ℚ) / 2 ^ 1074)
  have h4 := abs_sub_comm ((a : ℚ) / d) ((unit b : ℚ) / 2 ^ 1074)
  generalize (unit b : ℚ) / 2 ^ 1074 = X at *
  generalize (a : ℚ) / d = q at *
  rw [h4] at h3 h
  have : X / 2 ^ 53 = 2 * (X / 2 ^ 54) := by rw [show (2 : ℚ) ^ 54 = 2 * 2 ^ 53 by rw [← pow_succ']]; field_simp
  linarith

/-! ## Decimal numbers -/

theorem decDen_pos (e : Int) : 0 < decDen e := by unfold decDen; split <;> positivity

theorem decNum_mul (m : Nat) (e : Int) : decNum m e = m * decNum 1 e := by unfold decNum; split <;> simp

theorem decNum_pos (e : Int) : 0 < decNum 1 e := by unfold decNum; split <;> positivity

theorem dec_value (m : Nat) (e : Int) : (decNum m e : ℚ) / decDen e = m * (10 : ℚ) ^ e := by
  unfold decNum decDen
  split
  · rename_i h
    obtain ⟨k, rfl⟩ := Int.eq_ofNat_of_zero_le h
    simp
  · rename_i h
    obtain ⟨k, hk⟩ := Int.eq_ofNat_of_zero_le (show 0 ≤ -e by omega)
    have : e = -(k : Int) := by omega
    subst this
    simp [div_eq_mul_inv]

theorem decMag_mono {m m' : Nat} {e e' : Int} (h : (m : ℚ) * (10 : ℚ) ^ e ≤ m' * (10 : ℚ) ^ e') : decMag m e ≤ decMag m' e' := by
  apply ratMag_mono (decDen_pos e) (decDen_pos e')
  rw [← dec_value, ← dec_value, div_le_div_iff₀ (by exact_mod_cast decDen_pos e) (by exact_mod_cast decDen_pos e')] at h
  exact_mod_cast h

theorem le_decMag {b m : Nat} {e : Int} (hb : b ≤ INF) (h : (unit b : ℚ) / 2 ^ 1074 ≤ m * (10 : ℚ) ^ e) : b ≤ decMag m e := by
  refine Nat.le_trans (Nat.le_of_eq (ratMag_exact hb).symm) (ratMag_mono (Nat.pow_pos (by omega)) (decDen_pos e) ?_)
  rw [← dec_value, div_le_div_iff₀ (by positivity) (by exact_mod_cast decDen_pos e)] at h
  exact_mod_cast h

theorem decMag_le {b m : Nat} {e : Int} (hb : b ≤ INF) (h : m * (10 : ℚ) ^ e ≤ (unit b : ℚ) / 2 ^ 1074) : decMag m e ≤ b := by
  refine Nat.le_trans (ratMag_mono (decDen_pos e) (Nat.pow_pos (by omega)) ?_) (Nat.le_of_eq (ratMag_exact hb))
  rw [← dec_value, div_le_div_iff₀ (by exact_mod_cast decDen_pos e) (by positivity)] at h
  exact_mod_cast h

theorem decMag_zero (e : Int) : decMag 0 e = 0 := by
  have : decNum 0 e = 0 := by unfold decNum; split <;> simp
  unfold decMag ratMag quarters
  rw [this]
  simp [roundMag_zero]

/-! ## The multiples of a power of ten -/

/-- The multiple of `10^e` at or below a double, and the rest. -/
def lower (b : Nat) (e : Int) : Nat := unit b * decDen e / (2 ^ 1074 * decNum 1 e)

theorem lower_le (b : Nat) (e : Int) : (lower b e : ℚ) * (10 : ℚ) ^ e ≤ (unit b : ℚ) / 2 ^ 1074 := by
  rw [← dec_value, div_le_div_iff₀ (by exact_mod_cast decDen_pos e) (by positivity), decNum_mul]
  have := Nat.div_mul_le_self (unit b * decDen e) (2 ^ 1074 * decNum 1 e)
  have h : lower b e * decNum 1 e * 2 ^ 1074 ≤ unit b * decDen e := by
    unfold lower
    refine Nat.le_trans (Nat.le_of_eq ?_) this
    ring
  exact_mod_cast h

theorem lt_upper (b : Nat) (e : Int) : (unit b : ℚ) / 2 ^ 1074 < ((lower b e + 1 : Nat) : ℚ) * (10 : ℚ) ^ e := by
  rw [← dec_value, div_lt_div_iff₀ (by positivity) (by exact_mod_cast decDen_pos e), decNum_mul]
  have hd : 0 < 2 ^ 1074 * decNum 1 e := Nat.mul_pos (Nat.pow_pos (by omega)) (decNum_pos e)
  have := Nat.lt_mul_div_succ (unit b * decDen e) hd
  have h : unit b * decDen e < (lower b e + 1) * decNum 1 e * 2 ^ 1074 := by
    unfold lower
    refine Nat.lt_of_lt_of_eq this ?_
    ring
  exact_mod_cast h

/-- Twice the rest compares to the divisor like the distances to the two multiples. -/
theorem rest_iff (b : Nat) (e : Int) :
    2 * (unit b * decDen e % (2 ^ 1074 * decNum 1 e)) ≤ 2 ^ 1074 * decNum 1 e ↔
      (unit b : ℚ) / 2 ^ 1074 - lower b e * (10 : ℚ) ^ e ≤ ((lower b e + 1 : Nat) : ℚ) * (10 : ℚ) ^ e - (unit b : ℚ) / 2 ^ 1074 := by
  have hP : (10 : ℚ) ^ e = (decNum 1 e : ℚ) / decDen e := by rw [dec_value]; simp
  have h := Nat.div_add_mod (unit b * decDen e) (2 ^ 1074 * decNum 1 e)
  have h : (2 ^ 1074 * decNum 1 e) * lower b e + unit b * decDen e % (2 ^ 1074 * decNum 1 e) = unit b * decDen e := h
  have hq : ((2 : ℚ) ^ 1074 * decNum 1 e) * lower b e + (unit b * decDen e % (2 ^ 1074 * decNum 1 e) : Nat) = unit b * decDen e := by
    exact_mod_cast h
  have hD : (0 : ℚ) < decDen e := by exact_mod_cast decDen_pos e
  have hN : (0 : ℚ) < decNum 1 e := by exact_mod_cast decNum_pos e
  have hK : (0 : ℚ) < 2 ^ 1074 := by positivity
  have hiff : 2 * (unit b * decDen e % (2 ^ 1074 * decNum 1 e)) ≤ 2 ^ 1074 * decNum 1 e ↔
      2 * ((unit b * decDen e % (2 ^ 1074 * decNum 1 e) : Nat) : ℚ) ≤ 2 ^ 1074 * decNum 1 e := by exact_mod_cast Iff.rfl
  rw [hiff, hP]
  generalize ((unit b * decDen e % (2 ^ 1074 * decNum 1 e) : Nat) : ℚ) = r at *
  generalize (unit b : ℚ) = U at *
  push_cast
  generalize (lower b e : ℚ) = l at *
  generalize (decNum 1 e : ℚ) = N at *
  generalize (decDen e : ℚ) = D at *
  generalize (2 : ℚ) ^ 1074 = K at *
  have e1 : U / K - l * (N / D) = r / (K * D) := by
    field_simp
    linarith
  have e2 : (l + 1) * (N / D) - U / K = (K * N - r) / (K * D) := by
    field_simp
    linarith
  rw [e1, e2, div_le_div_iff_of_pos_right (by positivity)]
  constructor <;> intro h <;> linarith

theorem rest_eq (b : Nat) (e : Int)
    (h : 2 * (unit b * decDen e % (2 ^ 1074 * decNum 1 e)) = 2 ^ 1074 * decNum 1 e) :
    ((lower b e + 1 : Nat) : ℚ) * (10 : ℚ) ^ e - (unit b : ℚ) / 2 ^ 1074 ≤ (unit b : ℚ) / 2 ^ 1074 - lower b e * (10 : ℚ) ^ e := by
  have hP : (10 : ℚ) ^ e = (decNum 1 e : ℚ) / decDen e := by rw [dec_value]; simp
  have h' := Nat.div_add_mod (unit b * decDen e) (2 ^ 1074 * decNum 1 e)
  have h' : (2 ^ 1074 * decNum 1 e) * lower b e + unit b * decDen e % (2 ^ 1074 * decNum 1 e) = unit b * decDen e := h'
  have hq : ((2 : ℚ) ^ 1074 * decNum 1 e) * lower b e + (unit b * decDen e % (2 ^ 1074 * decNum 1 e) : Nat) = unit b * decDen e := by
    exact_mod_cast h'
  have hD : (0 : ℚ) < decDen e := by exact_mod_cast decDen_pos e
  have hK : (0 : ℚ) < 2 ^ 1074 := by positivity
  have hr : 2 * ((unit b * decDen e % (2 ^ 1074 * decNum 1 e) : Nat) : ℚ) = 2 ^ 1074 * decNum 1 e := by exact_mod_cast h
  rw [hP]
  generalize ((unit b * decDen e % (2 ^ 1074 * decNum 1 e) : Nat) : ℚ) = r at *
  generalize (unit b : ℚ) = U at *
  push_cast
  generalize (lower b e : ℚ) = l at *
  generalize (decNum 1 e : ℚ) = N at *
  generalize (decDen e : ℚ) = D at *
  generalize (2 : ℚ) ^ 1074 = K at *
  have e1 : U / K - l * (N / D) = r / (K * D) := by
    field_simp
    linarith
  have e2 : (l + 1) * (N / D) - U / K = (K * N - r) / (K * D) := by
    field_simp
    linarith
  rw [e1, e2]
  exact div_le_div_of_nonneg_right (by linarith) (by positivity)

theorem candidate_eq (b : Nat) (e : Int) : candidate b e =
    if decMag (lower b e) e = b then
      if decMag (lower b e + 1) e = b then
        some (if 2 * (unit b * decDen e % (2 ^ 1074 * decNum 1 e)) < 2 ^ 1074 * decNum 1 e ∨
          (2 * (unit b * decDen e % (2 ^ 1074 * decNum 1 e)) = 2 ^ 1074 * decNum 1 e ∧ lower b e % 2 = 0)
          then lower b e else lower b e + 1)
      else some (lower b e)
    else if decMag (lower b e + 1) e = b then some (lower b e + 1)
    else none := rfl

/-- If any multiple is rounded to the double, one of those next to it is. -/
theorem lower_or_upper {b m : Nat} {e : Int} (hb : b < INF) (h : decMag m e = b) :
    (m ≤ lower b e → decMag (lower b e) e = b) ∧ (lower b e < m → decMag (lower b e + 1) e = b) := by
  have hP : (0 : ℚ) < (10 : ℚ) ^ e := zpow_pos (by norm_num) e
  constructor
  · intro hm
    refine Nat.le_antisymm (decMag_le (by omega) (lower_le b e)) ?_
    rw [← h]
    rw [h]
    have : (m : ℚ) * (10 : ℚ) ^ e ≤ lower b e * (10 : ℚ) ^ e :=
      mul_le_mul_of_nonneg_right (by exact_mod_cast hm) hP.le
    have := decMag_mono this
    omega
  · intro hm
    refine Nat.le_antisymm ?_ (le_decMag (by omega) (lt_upper b e).le)
    have : ((lower b e + 1 : Nat) : ℚ) * (10 : ℚ) ^ e ≤ m * (10 : ℚ) ^ e :=
      mul_le_mul_of_nonneg_right (by exact_mod_cast hm) hP.le
    have := decMag_mono this
    omega

theorem candidate_none {b : Nat} {e : Int} (hb : b < INF) (h : candidate b e = none) (m : Nat) : decMag m e ≠ b := by
  intro hm
  obtain ⟨h1, h2⟩ := lower_or_upper hb hm
  rw [candidate_eq] at h
  rcases Nat.lt_or_ge (lower b e) m with hlt | hle
  · have := h2 hlt
    simp only [this, if_true] at h
    split at h <;> simp at h
  · have := h1 hle
    simp only [this, if_true] at h
    split at h <;> simp at h

/-- A double as a rational number. -/
def num (b : Nat) : ℚ := (unit b : ℚ) / 2 ^ 1074

theorem candidate_some {b m : Nat} {e : Int} (hb : b < INF) (h : candidate b e = some m) :
    decMag m e = b ∧ m ≤ lower b e + 1 ∧
      ∀ m', decMag m' e = b → |(m : ℚ) * (10 : ℚ) ^ e - num b| ≤ |(m' : ℚ) * (10 : ℚ) ^ e - num b| := by
  have hP : (0 : ℚ) < (10 : ℚ) ^ e := zpow_pos (by norm_num) e
  have hl := lower_le b e
  have hu := lt_upper b e
  have hr := rest_iff b e
  rw [candidate_eq] at h
  change (lower b e : ℚ) * (10 : ℚ) ^ e ≤ num b at hl
  change num b < ((lower b e + 1 : Nat) : ℚ) * (10 : ℚ) ^ e at hu
  change _ ↔ num b - lower b e * (10 : ℚ) ^ e ≤ ((lower b e + 1 : Nat) : ℚ) * (10 : ℚ) ^ e - num b at hr
  -- distances of all multiples
  have far1 : ∀ m', m' ≤ lower b e → |(lower b e : ℚ) * (10 : ℚ) ^ e - num b| ≤ |(m' : ℚ) * (10 : ℚ) ^ e - num b| := by
    intro m' hm'
    have : (m' : ℚ) * (10 : ℚ) ^ e ≤ lower b e * (10 : ℚ) ^ e :=
      mul_le_mul_of_nonneg_right (by exact_mod_cast hm') hP.le
    rw [abs_of_nonpos (by linarith), abs_of_nonpos (by linarith)]
    linarith
  have far2 : ∀ m', lower b e < m' →
      |((lower b e + 1 : Nat) : ℚ) * (10 : ℚ) ^ e - num b| ≤ |(m' : ℚ) * (10 : ℚ) ^ e - num b| := by
    intro m' hm'
    have : ((lower b e + 1 : Nat) : ℚ) * (10 : ℚ) ^ e ≤ m' * (10 : ℚ) ^ e :=
      mul_le_mul_of_nonneg_right (by exact_mod_cast hm') hP.le
    rw [abs_of_nonneg (by linarith), abs_of_nonneg (by linarith)]
    linarith
  have dl : |(lower b e : ℚ) * (10 : ℚ) ^ e - num b| = num b - lower b e * (10 : ℚ) ^ e := by
    rw [abs_of_nonpos (by linarith)]; ring
  have du : |((lower b e + 1 : Nat) : ℚ) * (10 : ℚ) ^ e - num b| = ((lower b e + 1 : Nat) : ℚ) * (10 : ℚ) ^ e - num b :=
    abs_of_nonneg (by linarith)
  by_cases h1 : decMag (lower b e) e = b
  · rw [if_pos h1] at h
    by_cases h2 : decMag (lower b e + 1) e = b
    · rw [if_pos h2] at h
      split at h
      · rename_i hc
        cases h
        refine ⟨h1, by omega, fun m' hm' => ?_⟩
        rcases Nat.lt_or_ge (lower b e) m' with hlt | hle
        · refine le_trans ?_ (far2 m' hlt)
          rw [dl, du]
          exact hr.1 (hc.elim Nat.le_of_lt fun h => Nat.le_of_eq h.1)
        · exact far1 m' hle
      · rename_i hc
        cases h
        refine ⟨h2, by omega, fun m' hm' => ?_⟩
        rcases Nat.lt_or_ge (lower b e) m' with hlt | hle
        · exact far2 m' hlt
        · refine le_trans ?_ (far1 m' hle)
          rw [dl, du]
          by_cases hlt : 2 * (unit b * decDen e % (2 ^ 1074 * decNum 1 e)) ≤ 2 ^ 1074 * decNum 1 e
          · have heq : 2 * (unit b * decDen e % (2 ^ 1074 * decNum 1 e)) = 2 ^ 1074 * decNum 1 e :=
              Nat.le_antisymm hlt (Nat.le_of_not_lt fun h' => hc (Or.inl h'))
            exact rest_eq b e heq
          · exact le_of_lt (not_le.1 fun hc' => hlt (hr.2 hc'))
    · rw [if_neg h2] at h
      cases h
      refine ⟨h1, by omega, fun m' hm' => ?_⟩
      rcases Nat.lt_or_ge (lower b e) m' with hlt | hle
      · exact absurd ((lower_or_upper hb hm').2 hlt) h2
      · exact far1 m' hle
  · rw [if_neg h1] at h
    by_cases h2 : decMag (lower b e + 1) e = b
    · rw [if_pos h2] at h
      cases h
      refine ⟨h2, by omega, fun m' hm' => ?_⟩
      rcases Nat.lt_or_ge (lower b e) m' with hlt | hle
      · exact far2 m' hlt
      · exact absurd ((lower_or_upper hb hm').1 hle) h1
    · rw [if_neg h2] at h
      cases h

/-- With 17 digits one of the two multiples is read back. -/
theorem candidate_found {b : Nat} {e : Int} (hb : b < INF) (hb0 : 0 < b) (h : (10 : ℚ) ^ 16 * (10 : ℚ) ^ e ≤ num b) :
    candidate b e ≠ none := by
  intro hn
  have hP : (0 : ℚ) < (10 : ℚ) ^ e := zpow_pos (by norm_num) e
  have hl : (lower b e : ℚ) * (10 : ℚ) ^ e ≤ num b := lower_le b e
  have hu : num b < ((lower b e + 1 : Nat) : ℚ) * (10 : ℚ) ^ e := lt_upper b e
  have key : ∀ m : Nat, |(m : ℚ) * (10 : ℚ) ^ e - num b| ≤ (10 : ℚ) ^ e / 2 → decMag m e = b := by
    intro m hm
    unfold decMag
    apply ratMag_close hb (decDen_pos e)
    rw [dec_value]
    refine lt_of_le_of_lt hm ?_
    change _ < num b / 2 ^ 54
    rw [lt_div_iff₀ (by positivity)]
    norm_num at h ⊢
    linarith
  by_cases hc : num b - lower b e * (10 : ℚ) ^ e ≤ (10 : ℚ) ^ e / 2
  · exact candidate_none hb hn _ (key (lower b e) (by rw [abs_of_nonpos (by linarith)]; linarith))
  · refine candidate_none hb hn _ (key (lower b e + 1) ?_)
    rw [abs_of_nonneg (by linarith)]
    push_cast at hu ⊢
    linarith

end Ryu
end Measured
