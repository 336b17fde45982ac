import Verif.Proof.Accuracy

/-!
# Powers that overflow, and products below the normal numbers
-/

namespace Measured
open Measured.Spec
namespace F64

/-- Below the normal numbers the error of rounding is at most half of the least positive number. -/
theorem raw_error_small (n t : Nat) (h : n < 2 ^ 52 * 2 ^ t) :
    |(unit (rawRound n t) * 2 ^ t : Int) - n| * 2 ≤ 2 ^ t := by
  obtain ⟨L, r, sh, h1, h2, h3, h4, h5, h6⟩ := raw_between n t
  obtain rfl : t = sh := by
    by_contra hc
    have hlt : t < sh := by omega
    have := h5 hlt
    have h7 : 2 ^ 52 * 2 ^ t ≤ 2 ^ 52 * 2 ^ sh := Nat.mul_le_mul_left _ (Nat.pow_le_pow_right (by omega) h4)
    omega
  zify at h1 h2
  have hr0 : (0 : Int) ≤ r := Int.natCast_nonneg r
  rw [h6]
  have hP' : ((2 ^ t : Nat) : Int) = 2 ^ t := by push_cast; rfl
  have hA : ∀ L, ((unit L * 2 ^ t : Nat) : Int) = (unit L : Int) * 2 ^ t := by intro L; push_cast; rfl
  split
  · rename_i hc
    rw [h2]
    generalize (unit L * 2 ^ t : Int) = A at *
    generalize (2 : Int) ^ t = P at *
    generalize (2 : Nat) ^ t = Q at *
    rw [abs_of_nonneg (show (0 : Int) ≤ A + P - n by omega)]
    omega
  · rename_i hc
    simp only [Nat.add_zero]
    generalize (unit L * 2 ^ t : Int) = A at *
    generalize (2 : Int) ^ t = P at *
    generalize (2 : Nat) ^ t = Q at *
    rw [abs_of_nonpos (show A - (n : Int) ≤ 0 by omega)]
    omega

theorem round_error_small {s : Bool} {n t : Nat} {q : ℚ} (hq : q = (sgn s : ℚ) * n / (2 ^ t * 2 ^ 1074))
    (hf : (round s n t).isFinite = true) (h : n < 2 ^ 52 * 2 ^ t) :
    |real (round s n t) - q| ≤ 1 / 2 ^ 1075 := by
  have hD : (0 : ℚ) < 2 ^ t * 2 ^ 1074 := by positivity
  have hm : roundMag n t = rawRound n t := by
    simp only [isFinite, round_mag, decide_eq_true_eq] at hf
    rw [roundMag_eq] at hf ⊢; omega
  have he := raw_error_small n t h
  rw [hq, dist_eq]
  have hr : |(round s n t).val * 2 ^ t - sgn s * n| = |(unit (rawRound n t) * 2 ^ t : Int) - n| := by
    rw [val_sgn, round_sign, round_mag, hm]
    cases s
    · simp [sgn]
    · rw [← abs_neg]; congr 1; simp [sgn]; ring
  rw [hr, show (2 : ℚ) ^ 1075 = 2 ^ 1074 * 2 from pow_succ _ _]
  have hK : (0 : ℚ) < 2 ^ 1074 := by positivity
  have hT : (0 : ℚ) < 2 ^ t := by positivity
  generalize (2 : ℚ) ^ 1074 = K at *
  rw [div_le_div_iff₀ hD (by positivity)]
  have : ((|(unit (rawRound n t) * 2 ^ t : Int) - n| : Int) : ℚ) * 2 ≤ 2 ^ t := by exact_mod_cast he
  generalize ((|(unit (rawRound n t) * 2 ^ t : Int) - n| : Int) : ℚ) = e at *
  nlinarith

/-- The error of a product: relative, or half of the least positive number. -/
theorem mul_error_all {x y : F64} (hx : x.isFinite = true) (hy : y.isFinite = true) (hf : (mul x y).isFinite = true) :
    |real (mul x y) - real x * real y| ≤ |real x * real y| / 2 ^ 53 ∨
      |real (mul x y) - real x * real y| ≤ 1 / 2 ^ 1075 := by
  by_cases h : 2 ^ 52 * 2 ^ 1074 ≤ unit x.mag * unit y.mag
  · exact .inl (mul_error hx hy hf (.inl h))
  · obtain ⟨h1, h2⟩ := mul_round hx hy
    rw [h1] at hf ⊢
    exact .inr (round_error_small h2 hf (by omega))

/-- `x` is at most `q` up to `k` roundings; if it is infinite, so large is `q`. -/
def Below (k : Nat) (x : F64) (q : ℚ) : Prop :=
  (x.isFinite = true → real x ≤ (1 + 1 / 2 ^ 53) ^ k * q) ∧ (x.isFinite = false → overflowBound ≤ (1 + 1 / 2 ^ 53) ^ k * q)

theorem Below.mul {x y : F64} {i j : Nat} {p q : ℚ} (hx : Below i x p) (hy : Below j y q) (gx : GeOne x) (gy : GeOne y)
    (hp : 1 ≤ p) (hq : 1 ≤ q) : Below (i + j + 1) (F64.mul x y) (p * q) := by
  have hu : (1 : ℚ) ≤ 1 + 1 / 2 ^ 53 := by norm_num
  have ui : (1 : ℚ) ≤ (1 + 1 / 2 ^ 53) ^ i := one_le_pow₀ hu
  have uj : (1 : ℚ) ≤ (1 + 1 / 2 ^ 53) ^ j := one_le_pow₀ hu
  have e : ((1 : ℚ) + 1 / 2 ^ 53) ^ (i + j + 1) * (p * q) =
      ((1 + 1 / 2 ^ 53) ^ i * p) * ((1 + 1 / 2 ^ 53) ^ j * q) * (1 + 1 / 2 ^ 53) := by rw [pow_succ, pow_add]; ring
  unfold Below
  rw [e]
  unfold Below at hx hy
  have P1 : 1 ≤ (1 + 1 / 2 ^ 53) ^ i * p := one_le_mul_of_one_le_of_one_le ui hp
  have Q1 : 1 ≤ (1 + 1 / 2 ^ 53) ^ j * q := one_le_mul_of_one_le_of_one_le uj hq
  generalize (1 + 1 / 2 ^ 53) ^ i * p = P at *
  generalize (1 + 1 / 2 ^ 53) ^ j * q = Q at *
  have hob : (0 : ℚ) ≤ overflowBound := by
    unfold overflowBound
    exact sub_nonneg.2 (pow_le_pow_right₀ (by norm_num) (by norm_num))
  have lx := le_mul gx.1 gy.1 gx.pos gy.2
  have ly := le_mul' gx gy
  have up : P * Q ≤ P * Q * (1 + 1 / 2 ^ 53) := le_mul_of_one_le_right (by positivity) hu
  by_cases fx : x.isFinite = true
  · by_cases fy : y.isFinite = true
    · have m : real x * real y ≤ P * Q := mul_le_mul (hx.1 fx) (hy.1 fy) (real_nonneg gy.1) (by linarith)
      have m0 : 0 ≤ real x * real y := _root_.mul_nonneg (real_nonneg gx.1) (real_nonneg gy.1)
      constructor
      · intro hf
        have he := mul_error fx fy hf (.inl (units_geOne gx gy))
        rw [abs_of_nonneg m0, abs_le] at he
        calc real (F64.mul x y) ≤ real x * real y * (1 + 1 / 2 ^ 53) := by linarith [he.2]
          _ ≤ P * Q * (1 + 1 / 2 ^ 53) := mul_le_mul_of_nonneg_right m (by norm_num)
      · intro hf
        refine le_trans ?_ (le_trans m up)
        by_contra hc
        have := (mul_roundsTo ((finite_iff x).2 fx) ((finite_iff y).2 fy)).near (by rw [abs_of_nonneg m0]; exact not_le.1 hc)
        have := (finite_iff _).1 this.1
        rw [hf] at this; cases this
    · have fy' : y.isFinite = false := by simpa using fy
      constructor
      · intro hf; exact absurd (finite_mono ly hf) fy
      · intro _
        have := hy.2 fy'
        exact le_trans this (le_trans (le_mul_of_one_le_left (by linarith) P1) up)
  · have fx' : x.isFinite = false := by simpa using fx
    constructor
    · intro hf; exact absurd (finite_mono lx hf) fx
    · intro _
      have := hx.2 fx'
      exact le_trans this (le_trans (le_mul_of_one_le_right (by linarith) Q1) up)

theorem Below.mono {x : F64} {i j : Nat} {p q : ℚ} (h : Below i x p) (hij : i ≤ j) (hpq : p ≤ q) (hp : 0 ≤ p) : Below j x q := by
  have hu : (1 : ℚ) ≤ 1 + 1 / 2 ^ 53 := by norm_num
  have : ((1 : ℚ) + 1 / 2 ^ 53) ^ i * p ≤ (1 + 1 / 2 ^ 53) ^ j * q :=
    mul_le_mul (pow_le_pow_right₀ hu hij) hpq hp (pow_nonneg (by norm_num) _)
  exact ⟨fun h' => le_trans (h.1 h') this, fun h' => le_trans (h.2 h') this⟩

theorem powiLoop_below (fuel : Nat) : ∀ (a : F64) (b : Nat) (r : F64) (i j : Nat) (p q : ℚ), GeOne a → GeOne r →
    Below i a p → Below j r q → 1 ≤ p → 1 ≤ q → b < 2 ^ fuel →
    Below (j + b * (i + 1)) (powiLoop fuel a b r) (p ^ b * q) := by
  induction fuel with
  | zero =>
    intro a b r i j p q _ _ _ hr _ _ hb
    obtain rfl : b = 0 := by simp at hb; exact hb
    simpa [powiLoop] using hr
  | succ fuel ih =>
    intro a b r i j p q ga gr ha hr hp hq hb
    rw [powiLoop_succ]
    have gaa := ga.mul ga
    have haa := ha.mul ha ga ga hp hp
    have hb2 : b / 2 < 2 ^ fuel := by rw [Nat.pow_succ] at hb; omega
    by_cases hodd : b % 2 = 1
    · rw [if_pos hodd]
      have hra := hr.mul ha gr ga hq hp
      have := ih _ _ _ _ _ _ _ gaa (gr.mul ga) haa hra (one_le_mul_of_one_le_of_one_le hp hp)
        (one_le_mul_of_one_le_of_one_le hq hp) hb2
      obtain ⟨c, hc⟩ : ∃ c, b = 2 * c + 1 := ⟨b / 2, by omega⟩
      rw [show b / 2 = c by omega] at this ⊢
      subst hc
      rw [show j + (2 * c + 1) * (i + 1) = j + i + 1 + c * (i + i + 1 + 1) by ring,
        show p ^ (2 * c + 1) * q = (p * p) ^ c * (q * p) by rw [mul_pow, pow_succ, two_mul, pow_add]; ring]
      exact this
    · rw [if_neg hodd]
      have := ih _ _ _ _ _ _ _ gaa gr haa hr (one_le_mul_of_one_le_of_one_le hp hp) hq hb2
      obtain ⟨c, hc⟩ : ∃ c, b = 2 * c := ⟨b / 2, by omega⟩
      rw [show b / 2 = c by omega] at this ⊢
      subst hc
      rw [show j + (2 * c) * (i + 1) = j + c * (i + i + 1 + 1) by ring,
        show p ^ (2 * c) * q = (p * p) ^ c * q by rw [mul_pow, two_mul, pow_add]]
      exact this

/-- A power that overflows is a power of a number whose power, with the roundings, is at least the overflow bound. -/
theorem powi_over {a : F64} (ga : GeOne a) (fa : a.isFinite = true) {b : Nat} (hb : b < 2 ^ 32)
    (hf : (powi a b).isFinite = false) : overflowBound ≤ (1 + 1 / 2 ^ 53) ^ b * real a ^ b := by
  have g1 : GeOne one := ⟨one_nonneg, Nat.le_refl _⟩
  have h1 : (1 : ℚ) ≤ real a := by
    rw [← real_one]
    exact (fle_real isFinite_one ((finite_iff _).2 fa)).1 ((NonNeg.le_iff one_nonneg ga.1).2 ga.2)
  have f1 : (one : F64).isFinite = true := (finite_iff _).1 isFinite_one
  have := (powiLoop_below 32 a b one 0 0 (real a) 1 ga g1 ⟨fun _ => by simp, fun h => by rw [fa] at h; cases h⟩
    ⟨fun _ => by simp [real_one], fun h => by rw [f1] at h; cases h⟩ h1 le_rfl hb).2 hf
  simpa using this

end F64
end Measured
