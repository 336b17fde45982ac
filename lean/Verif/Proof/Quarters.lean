import Verif.Proof.Rounding
import Verif.Model.Duration

/-! # Rounding of quotients

All doubles and all numbers in the middle of two doubles are multiples of `2^-1075`. So two numbers that compare alike to
all such multiples are rounded alike. -/

set_option exponentiation.threshold 3000

namespace Measured
open Measured.Spec F64

namespace F64

theorem abs_le_iff_of_lt {R Y N : ℚ} (h : R < Y) : |R - N| ≤ |Y - N| ↔ 2 * N ≤ R + Y := by
  rw [← sq_le_sq]
  constructor
  · intro h'
    by_contra hc
    nlinarith
  · intro h'
    nlinarith

theorem abs_le_iff_of_gt {R Y N : ℚ} (h : Y < R) : |R - N| ≤ |Y - N| ↔ R + Y ≤ 2 * N := by
  rw [← sq_le_sq]
  constructor
  · intro h'
    by_contra hc
    nlinarith
  · intro h'
    nlinarith

/-- Two numbers on the same side of all multiples of `2^-1075`. -/
def SameHalves (q q' : ℚ) : Prop :=
  ∀ k : Int, ((k : ℚ) / 2 ^ 1075 < q ↔ (k : ℚ) / 2 ^ 1075 < q') ∧ (q < (k : ℚ) / 2 ^ 1075 ↔ q' < (k : ℚ) / 2 ^ 1075)

theorem SameHalves.neg {q q' : ℚ} (h : SameHalves q q') : SameHalves (-q) (-q') := by
  intro k
  have := h (-k)
  push_cast at this
  rw [neg_div] at this
  constructor
  · exact ⟨fun h' => by have := this.2.1 (by linarith); linarith, fun h' => by have := this.2.2 (by linarith); linarith⟩
  · exact ⟨fun h' => by have := this.1.1 (by linarith); linarith, fun h' => by have := this.1.2 (by linarith); linarith⟩

theorem SameHalves.middle {q q' : ℚ} (h : SameHalves q q') (x y : F64) :
    (real x + real y < 2 * q ↔ real x + real y < 2 * q') ∧ (2 * q < real x + real y ↔ 2 * q' < real x + real y) := by
  have e : ∀ p : ℚ, (real x + real y < 2 * p ↔ ((x.val + y.val : Int) : ℚ) / 2 ^ 1075 < p) ∧
      (2 * p < real x + real y ↔ p < ((x.val + y.val : Int) : ℚ) / 2 ^ 1075) := by
    intro p
    rw [real_eq, real_eq, show (2 : ℚ) ^ 1075 = 2 ^ 1074 * 2 by rw [← pow_succ]]
    have hK : (0 : ℚ) < 2 ^ 1074 := by positivity
    generalize (2 : ℚ) ^ 1074 = K at *
    push_cast
    rw [← add_div, div_lt_iff₀ hK, div_lt_iff₀ (by positivity), lt_div_iff₀ hK, lt_div_iff₀ (by positivity)]
    constructor <;> constructor <;> intro h <;> linarith
  rw [(e q).1, (e q).2, (e q').1, (e q').2]
  exact h _

theorem SameHalves.nearer {q q' : ℚ} (h : SameHalves q q') (x y : F64) :
    |real x - q| ≤ |real y - q| ↔ |real x - q'| ≤ |real y - q'| := by
  obtain ⟨h1, h2⟩ := h.middle x y
  rcases lt_trichotomy (real x) (real y) with hxy | hxy | hxy
  · rw [abs_le_iff_of_lt hxy, abs_le_iff_of_lt hxy, ← not_lt, ← not_lt, h1]
  · rw [hxy]; simp
  · rw [abs_le_iff_of_gt hxy, abs_le_iff_of_gt hxy, ← not_lt, ← not_lt, h2]

theorem overflowBound_half : overflowBound = (((2 ^ 1024 - 2 ^ 970) * 2 ^ 1075 : Int) : ℚ) / 2 ^ 1075 := by
  unfold overflowBound
  rw [Int.cast_mul, Int.cast_sub, Int.cast_pow, Int.cast_pow, Int.cast_pow, Int.cast_ofNat, mul_div_cancel_right₀]
  positivity

theorem SameHalves.bounded {q q' : ℚ} (h : SameHalves q q') : |q| < overflowBound ↔ |q'| < overflowBound := by
  rw [abs_lt, abs_lt, overflowBound_half]
  generalize ((2 ^ 1024 - 2 ^ 970) * 2 ^ 1075 : Int) = k
  have h1 := h k
  have h2 := h (-k)
  push_cast at h2
  rw [neg_div] at h2
  rw [h1.2, h2.1]

theorem SameHalves.roundsTo {q q' : ℚ} (h : SameHalves q q') {r : F64} (hr : RoundsTo q r) : RoundsTo q' r := by
  have h0 := h 0
  simp only [Int.cast_zero, zero_div] at h0
  refine ⟨fun hb => ?_, fun hb => ?_, fun hne => ?_⟩
  · obtain ⟨h1, h2⟩ := hr.near (h.bounded.2 hb)
    refine ⟨h1, fun y hy => ?_⟩
    obtain ⟨h3, h4⟩ := h2 y hy
    refine ⟨(h.nearer r y).1 h3, fun he hn => h4 ?_ hn⟩
    exact le_antisymm ((h.nearer y r).2 he.le) h3
  · apply hr.over
    rw [← not_lt, h.bounded, not_lt]
    exact hb
  · have : q ≠ 0 := by
      intro hq
      rcases lt_trichotomy q' 0 with h' | h' | h'
      · have := h0.2.2 h'; linarith
      · exact hne h'
      · have := h0.1.2 h'; linarith
    rw [hr.sign this, h0.1]

/-- The quarters of a quotient are on the same side as the quotient. -/
theorem quarters_same (a b : Nat) (hb : 0 < b) :
    SameHalves ((quarters a b : ℚ) / (2 ^ 2 * 2 ^ 1074)) ((a : ℚ) / b) := by
  intro k
  unfold quarters
  have hbq : (0 : ℚ) < b := by exact_mod_cast hb
  have hD : (2 : ℚ) ^ 2 * 2 ^ 1074 = 2 * 2 ^ 1075 := by
    rw [show (2 : ℚ) ^ 1075 = 2 ^ 1074 * 2 by rw [← pow_succ]]; ring
  have hK : (0 : ℚ) < 2 ^ 1075 := by positivity
  have e1 := Nat.div_add_mod (a * 2 ^ 1075) b
  have hr := Nat.mod_lt (a * 2 ^ 1075) hb
  have hx : (a : ℚ) * 2 ^ 1075 = (((a * 2 ^ 1075 : Nat) : Int) : ℚ) := by push_cast; rfl
  rw [hD, div_lt_div_iff₀ hK hbq, div_lt_div_iff₀ hbq hK, hx]
  have e2 : ∀ n : Nat, (((k : ℚ) / 2 ^ 1075 < (n : ℚ) / (2 * 2 ^ 1075) ↔ 2 * k < (n : Int))) ∧
      ((n : ℚ) / (2 * 2 ^ 1075) < (k : ℚ) / 2 ^ 1075 ↔ (n : Int) < 2 * k) := by
    intro n
    have : (n : ℚ) / (2 * 2 ^ 1075) = (n / 2 : ℚ) / 2 ^ 1075 := by rw [div_div]
    rw [this, div_lt_div_iff_of_pos_right hK, div_lt_div_iff_of_pos_right hK, lt_div_iff₀ two_pos, div_lt_iff₀ two_pos,
      mul_comm]
    constructor
    · exact_mod_cast Iff.rfl
    · exact_mod_cast Iff.rfl
  rw [(e2 _).1, (e2 _).2]
  generalize a * 2 ^ 1075 = x at *
  generalize x / b = f at *
  generalize x % b = r at *
  have hxi : (x : Int) = b * f + r := by exact_mod_cast e1.symm
  have hbi : (0 : Int) < b := by exact_mod_cast hb
  have hri : (r : Int) < b := by exact_mod_cast hr
  have hr0 : (0 : Int) ≤ r := by positivity
  have c1 : ((k : ℚ) * b < ((x : Int) : ℚ) ↔ k * b < (x : Int)) ∧ (((x : Int) : ℚ) < (k : ℚ) * b ↔ (x : Int) < k * b) := by
    constructor
    · exact_mod_cast Iff.rfl
    · exact_mod_cast Iff.rfl
  rw [c1.1, c1.2, hxi]
  push_cast
  have lo : (f : Int) < k → b * (f : Int) + b ≤ k * b := by intro h; nlinarith
  have hi : k ≤ (f : Int) → k * b ≤ b * (f : Int) := by intro h; nlinarith
  have hi' : k < (f : Int) → k * b + b ≤ b * (f : Int) := by intro h; nlinarith
  split
  · rename_i h0
    subst h0
    constructor
    · constructor
      · intro h; have := hi' (by omega); omega
      · intro h
        by_contra hc
        have : (f : Int) = k ∨ (f : Int) < k := by omega
        rcases this with h' | h'
        · rw [← h'] at h; rw [mul_comm] at h; omega
        · have := lo h'; omega
    · constructor
      · intro h; have := lo (by omega); omega
      · intro h
        by_contra hc
        have := hi (by omega)
        omega
  · rename_i h0
    have h0' : 0 < (r : Int) := by omega
    constructor
    · constructor
      · intro h; have := hi (by omega); omega
      · intro h
        by_contra hc
        have := lo (by omega)
        omega
    · constructor
      · intro h; have := lo (by omega); omega
      · intro h
        by_contra hc
        have := hi (by omega)
        omega

/-- Rounding the quarters of a quotient rounds the quotient. -/
theorem round_quarters (s : Bool) (a b : Nat) (hb : 0 < b) :
    RoundsTo ((sgn s : ℚ) * (a / b)) (round s (quarters a b) 2) := by
  have h := round_roundsTo s (quarters a b) 2
  have hs := quarters_same a b hb
  rw [mul_div_assoc] at h
  cases s with
  | false =>
    simp only [sgn, Bool.false_eq_true, if_false, Int.cast_one, one_mul] at h ⊢
    exact hs.roundsTo h
  | true =>
    simp only [sgn, if_true, Int.cast_neg, Int.cast_one, neg_mul, one_mul] at h ⊢
    exact hs.neg.roundsTo h

end F64

/-- Division of doubles is correctly rounded. -/
theorem F64.div_roundsTo {x y : F64} (hx : IsFinite x) (hy : IsFinite y) (h0 : real y ≠ 0) :
    RoundsTo (real x / real y) (F64.div x y) := by
  have hy0 : y.mag ≠ 0 := by
    intro h
    apply h0
    rw [real_eq, val_sgn, h, unit_zero]
    simp
  have hb : 0 < unit y.mag := Nat.pos_of_ne_zero fun h => hy0 (unit_eq_zero.1 h)
  obtain ⟨a1, a2⟩ := isFinite_split ((finite_iff x).1 hx)
  obtain ⟨b1, b2⟩ := isFinite_split ((finite_iff y).1 hy)
  unfold F64.div
  simp only [a1, a2, b1, b2, hy0, Bool.or_false, Bool.false_eq_true, if_false]
  have h := round_quarters (x.sign != y.sign) (unit x.mag) (unit y.mag) hb
  have e : real x / real y = (sgn (x.sign != y.sign) : ℚ) * (unit x.mag / unit y.mag) := by
    rw [real_eq, real_eq, val_sgn, val_sgn]
    have hK : (0 : ℚ) < 2 ^ 1074 := by positivity
    generalize (2 : ℚ) ^ 1074 = K at *
    rw [div_div_div_cancel_right₀ hK.ne']
    push_cast
    cases x.sign <;> cases y.sign <;> simp [sgn] <;> ring
  rw [e]
  exact h

end Measured
