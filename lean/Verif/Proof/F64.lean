import Verif.Model.F64
import Mathlib.Data.Nat.Log
import Mathlib.Tactic.Ring

/-! Order and rounding lemmas for the binary64 model. -/

set_option exponentiation.threshold 3000

namespace Measured
namespace F64

/-! ## Units -/

theorem unit_small {b : Nat} (h : b < 2 ^ 52) : unit b = b := by unfold unit; rw [if_pos h]

theorem unit_big {b : Nat} (h : ¬ b < 2 ^ 52) :
    unit b = (2 ^ 52 + b % 2 ^ 52) * 2 ^ (b / 2 ^ 52 - 1) := by unfold unit; rw [if_neg h]

theorem unit_lt_succ (b : Nat) : unit b < unit (b + 1) := by
  by_cases h : b + 1 < 2 ^ 52
  · rw [unit_small h, unit_small (by omega)]; omega
  · by_cases h' : b < 2 ^ 52
    · have : b + 1 = 2 ^ 52 := by omega
      rw [unit_small h', this]
      have : unit (2 ^ 52) = 2 ^ 52 := by decide
      omega
    · rw [unit_big h, unit_big h']
      have he : 1 ≤ b / 2 ^ 52 := by omega
      by_cases hc : b % 2 ^ 52 = 2 ^ 52 - 1
      · have h1 : (b + 1) % 2 ^ 52 = 0 := by omega
        have h2 : (b + 1) / 2 ^ 52 = b / 2 ^ 52 + 1 := by omega
        rw [h1, h2, hc]
        obtain ⟨e, he'⟩ : ∃ e, b / 2 ^ 52 = e + 1 := ⟨b / 2 ^ 52 - 1, by omega⟩
        rw [he']
        simp only [Nat.add_sub_cancel, Nat.add_zero]
        rw [Nat.pow_succ]
        have : 0 < 2 ^ e := Nat.pow_pos (by omega)
        calc (2 ^ 52 + (2 ^ 52 - 1)) * 2 ^ e < (2 ^ 52 * 2) * 2 ^ e := Nat.mul_lt_mul_of_pos_right (by decide) this
          _ = 2 ^ 52 * (2 ^ e * 2) := by ring
      · have h1 : (b + 1) % 2 ^ 52 = b % 2 ^ 52 + 1 := by omega
        have h2 : (b + 1) / 2 ^ 52 = b / 2 ^ 52 := by omega
        rw [h1, h2]
        exact Nat.mul_lt_mul_of_pos_right (by omega) (Nat.pow_pos (by omega))

theorem unit_strictMono {a b : Nat} (h : a < b) : unit a < unit b := by
  induction b with
  | zero => omega
  | succ b ih =>
    rcases Nat.lt_succ_iff_lt_or_eq.1 h with h | h
    · exact Nat.lt_trans (ih h) (unit_lt_succ b)
    · rw [h]; exact unit_lt_succ b

theorem unit_le_iff {a b : Nat} : unit a ≤ unit b ↔ a ≤ b := by
  constructor
  · intro h
    by_contra hc
    have := unit_strictMono (Nat.lt_of_not_le hc)
    omega
  · intro h
    rcases Nat.lt_or_eq_of_le h with h | h
    · exact Nat.le_of_lt (unit_strictMono h)
    · rw [h]

theorem unit_lt_iff {a b : Nat} : unit a < unit b ↔ a < b := by
  rw [← Nat.not_le, ← Nat.not_le, unit_le_iff]

theorem unit_zero : unit 0 = 0 := by decide

theorem unit_eq_zero {b : Nat} : unit b = 0 ↔ b = 0 := by
  constructor
  · intro h
    by_contra hb
    have := unit_strictMono (Nat.pos_of_ne_zero hb)
    omega
  · rintro rfl; exact unit_zero

/-! ## Rounding -/

/-- Rounding without the cut at infinity. -/
def rawRound (n t : Nat) : Nat :=
  (max (Nat.log2 n - 52) t - t) * 2 ^ 52 + (n / 2 ^ max (Nat.log2 n - 52) t +
    if 2 ^ max (Nat.log2 n - 52) t < 2 * (n % 2 ^ max (Nat.log2 n - 52) t) ∨
      (2 ^ max (Nat.log2 n - 52) t = 2 * (n % 2 ^ max (Nat.log2 n - 52) t) ∧
        n / 2 ^ max (Nat.log2 n - 52) t % 2 = 1) then 1 else 0)

theorem roundMag_eq (n t : Nat) : roundMag n t = min (rawRound n t) INF := rfl

theorem quot_lt (n sh : Nat) (hsh : Nat.log2 n - 52 ≤ sh) : n / 2 ^ sh < 2 ^ 53 := by
  rw [Nat.div_lt_iff_lt_mul (Nat.pow_pos (by omega)), ← Nat.pow_add]
  exact Nat.lt_of_lt_of_le Nat.lt_log2_self (Nat.pow_le_pow_right (by omega) (by omega))

theorem rawRound_mono {n m : Nat} (t : Nat) (h : n ≤ m) : rawRound n t ≤ rawRound m t := by
  by_cases hn : n = 0
  · subst hn
    have : rawRound 0 t = 0 := by
      simp [rawRound]
    rw [this]; exact Nat.zero_le _
  have hm : m ≠ 0 := by omega
  have hlog : Nat.log2 n ≤ Nat.log2 m := by
    rw [Nat.le_log2 hm]
    exact Nat.le_trans (Nat.log2_self_le hn) h
  unfold rawRound
  by_cases hsh : max (Nat.log2 n - 52) t = max (Nat.log2 m - 52) t
  · rw [hsh]
    generalize max (Nat.log2 m - 52) t = sh
    apply Nat.add_le_add_left
    have hp : 0 < 2 ^ sh := Nat.pow_pos (by omega)
    have hq : n / 2 ^ sh ≤ m / 2 ^ sh := Nat.div_le_div_right h
    rcases Nat.lt_or_eq_of_le hq with hlt | heq
    · split <;> split <;> omega
    · have e1 := Nat.div_add_mod n (2 ^ sh)
      have e2 := Nat.div_add_mod m (2 ^ sh)
      rw [heq] at e1 ⊢
      have hr : n % 2 ^ sh ≤ m % 2 ^ sh := by omega
      split
      · rename_i hc
        have : 2 ^ sh < 2 * (m % 2 ^ sh) ∨ 2 ^ sh = 2 * (m % 2 ^ sh) ∧ m / 2 ^ sh % 2 = 1 := by
          rcases hc with hc | ⟨hc, hc'⟩
          · left; omega
          · by_cases hx : 2 ^ sh = 2 * (m % 2 ^ sh)
            · right; exact ⟨hx, hc'⟩
            · left; omega
        rw [if_pos this]
      · omega
  · have hlt : max (Nat.log2 n - 52) t < Nat.log2 m - 52 := by omega
    have hmax : max (Nat.log2 m - 52) t = Nat.log2 m - 52 := by omega
    rw [hmax]
    have h1 := quot_lt n (max (Nat.log2 n - 52) t) (by omega)
    have h2 : 2 ^ 52 ≤ m / 2 ^ (Nat.log2 m - 52) := by
      rw [Nat.le_div_iff_mul_le (Nat.pow_pos (by omega)), ← Nat.pow_add]
      exact Nat.le_trans (Nat.pow_le_pow_right (by omega) (by omega)) (Nat.log2_self_le hm)
    have h3 : max (Nat.log2 n - 52) t - t + 1 ≤ Nat.log2 m - 52 - t := by omega
    have h4 := Nat.mul_le_mul_right (2 ^ 52) h3
    generalize n / 2 ^ max (Nat.log2 n - 52) t = qn at *
    generalize m / 2 ^ (Nat.log2 m - 52) = qm at *
    split <;> split <;> omega

theorem roundMag_mono {n m : Nat} (t : Nat) (h : n ≤ m) : roundMag n t ≤ roundMag m t := by
  rw [roundMag_eq, roundMag_eq]
  have := rawRound_mono t h
  omega

theorem log2_mul_pow (a k : Nat) (ha : a ≠ 0) : Nat.log2 (a * 2 ^ k) = Nat.log2 a + k := by
  rw [Nat.log2_eq_iff (by simp [ha])]
  constructor
  · rw [Nat.pow_add]; exact Nat.mul_le_mul_right _ (Nat.log2_self_le ha)
  · rw [show Nat.log2 a + k + 1 = (Nat.log2 a + 1) + k by omega, Nat.pow_add]
    exact Nat.mul_lt_mul_of_pos_right Nat.lt_log2_self (Nat.pow_pos (by omega))

theorem rawRound_shift (q sh t : Nat) (hsh : max (Nat.log2 (q * 2 ^ sh) - 52) t = sh) :
    rawRound (q * 2 ^ sh) t = (sh - t) * 2 ^ 52 + q := by
  have hp : 0 < 2 ^ sh := Nat.pow_pos (by omega)
  unfold rawRound
  rw [hsh, Nat.mul_div_cancel _ hp, Nat.mul_mod_left]
  have : ¬ (2 ^ sh < 2 * 0 ∨ 2 ^ sh = 2 * 0 ∧ q % 2 = 1) := by omega
  rw [if_neg this, Nat.add_zero]

/-- Representable numbers are left alone. -/
theorem rawRound_unit (b t : Nat) : rawRound (unit b * 2 ^ t) t = b := by
  by_cases h0 : b = 0
  · subst h0; simp [unit_zero, rawRound]
  by_cases h : b < 2 ^ 52
  · rw [unit_small h, rawRound_shift b t t]
    · omega
    · rw [log2_mul_pow b t h0]
      have : Nat.log2 b < 52 := (Nat.log2_lt h0).2 h
      omega
  · rw [unit_big h]
    have he : 1 ≤ b / 2 ^ 52 := by omega
    have hl : Nat.log2 (2 ^ 52 + b % 2 ^ 52) = 52 := by
      rw [Nat.log2_eq_iff (by omega)]
      omega
    rw [Nat.mul_assoc, ← Nat.pow_add, rawRound_shift]
    · rw [Nat.add_sub_cancel]; omega
    · rw [log2_mul_pow _ _ (by omega), hl]; omega

theorem roundMag_unit {b : Nat} (hb : b ≤ INF) (t : Nat) : roundMag (unit b * 2 ^ t) t = b := by
  rw [roundMag_eq, rawRound_unit]; omega

/-! ## Fields of assembled numbers -/

theorem make_sign (s : Bool) (b : Nat) (h : b < 2 ^ 63) : (make s b h).sign = s := by
  cases s <;> simp [make, sign] <;> omega

theorem make_mag (s : Bool) (b : Nat) (h : b < 2 ^ 63) : (make s b h).mag = b := by
  cases s <;> simp [make, mag] <;> omega

theorem mag_lt (x : F64) : x.mag < 2 ^ 63 := Nat.mod_lt _ (by decide)

theorem make_eta (x : F64) : make x.sign x.mag x.mag_lt = x := by
  rcases x with ⟨b, hb⟩
  simp only [make, sign, mag, mk.injEq, decide_eq_true_eq]
  split <;> omega

theorem ext' {x y : F64} (h1 : x.sign = y.sign) (h2 : x.mag = y.mag) : x = y := by
  rw [← make_eta x, ← make_eta y]
  simp only [h1, h2]

theorem make_val (s : Bool) (b : Nat) (h : b < 2 ^ 63) :
    (make s b h).val = if s then -(unit b : Int) else unit b := by
  unfold val; rw [make_sign, make_mag]

theorem round_mag (s : Bool) (n t : Nat) : (round s n t).mag = roundMag n t := make_mag _ _ _
theorem round_sign (s : Bool) (n t : Nat) : (round s n t).sign = s := make_sign _ _ _
theorem round_val (s : Bool) (n t : Nat) :
    (round s n t).val = if s then -(unit (roundMag n t) : Int) else unit (roundMag n t) := make_val _ _ _

theorem roundMag_le_INF (n t : Nat) : roundMag n t ≤ INF := by rw [roundMag_eq]; omega

theorem round_not_nan (s : Bool) (n t : Nat) : (round s n t).isNaN = false := by
  simp only [isNaN, round_mag, decide_eq_false_iff_not, Nat.not_lt]
  exact roundMag_le_INF n t

theorem roundMag_zero (t : Nat) : roundMag 0 t = 0 := by simp [roundMag, INF]

/-! ## Order -/

theorem fle_iff {x y : F64} : fle x y = true ↔ x.isNaN = false ∧ y.isNaN = false ∧ x.val ≤ y.val := by
  simp [fle, and_assoc]

theorem flt_iff {x y : F64} : flt x y = true ↔ x.isNaN = false ∧ y.isNaN = false ∧ x.val < y.val := by
  simp [flt, and_assoc]

/-- Addition of finite numbers rounds the exact sum. -/
theorem add_val {x y : F64} (hx : x.isFinite = true) (hy : y.isFinite = true) :
    (add x y).isNaN = false ∧
    (add x y).val = if x.val + y.val < 0 then -(unit (roundMag (x.val + y.val).natAbs 0) : Int)
      else unit (roundMag (x.val + y.val).natAbs 0) := by
  simp only [isFinite, decide_eq_true_eq] at hx hy
  have n1 : x.isNaN = false := by simp [isNaN]; omega
  have n2 : y.isNaN = false := by simp [isNaN]; omega
  have i1 : x.isInf = false := by simp [isInf]; omega
  have i2 : y.isInf = false := by simp [isInf]; omega
  unfold add
  simp only [n1, n2, i1, i2, Bool.or_false, Bool.false_eq_true, if_false]
  by_cases hs : x.val + y.val = 0
  · simp only [hs, if_true]
    constructor
    · simp [isNaN, zero, make_mag]
    · simp [zero, make_val, unit_zero, roundMag_zero]
  · simp only [hs, if_false]
    refine ⟨round_not_nan _ _ _, ?_⟩
    rw [round_val]; simp

/-- Rounding signed numbers is monotone. -/
theorem signed_round_mono {a b : Int} (h : a ≤ b) :
    (if a < 0 then -(unit (roundMag a.natAbs 0) : Int) else unit (roundMag a.natAbs 0)) ≤
    (if b < 0 then -(unit (roundMag b.natAbs 0) : Int) else unit (roundMag b.natAbs 0)) := by
  split
  · rename_i ha
    split
    · have : b.natAbs ≤ a.natAbs := by omega
      have := unit_le_iff.2 (roundMag_mono 0 this)
      omega
    · omega
  · rename_i ha
    have hb : ¬ b < 0 := by omega
    rw [if_neg hb]
    have : a.natAbs ≤ b.natAbs := by omega
    have := unit_le_iff.2 (roundMag_mono 0 this)
    omega

theorem add_mono {x y z : F64} (hx : x.isFinite = true) (hy : y.isFinite = true) (hz : z.isFinite = true)
    (h : y.val ≤ z.val) : fle (add x y) (add x z) = true := by
  obtain ⟨n1, v1⟩ := add_val hx hy
  obtain ⟨n2, v2⟩ := add_val hx hz
  rw [fle_iff, v1, v2]
  exact ⟨n1, n2, signed_round_mono (by omega)⟩

/-- Numbers `≥ +0` (sign bit clear), not NaN. -/
def NonNeg (x : F64) : Prop := x.sign = false ∧ x.mag ≤ INF

theorem NonNeg.val {x : F64} (h : NonNeg x) : x.val = unit x.mag := by simp [F64.val, h.1]

theorem NonNeg.not_nan {x : F64} (h : NonNeg x) : x.isNaN = false := by
  simp only [isNaN, decide_eq_false_iff_not, Nat.not_lt]; exact h.2

theorem NonNeg.le_iff {x y : F64} (hx : NonNeg x) (hy : NonNeg y) : fle x y = true ↔ x.mag ≤ y.mag := by
  rw [fle_iff, hx.val, hy.val]
  simp only [hx.not_nan, hy.not_nan, true_and, Nat.cast_le]
  exact unit_le_iff

/-- Product of positive numbers: exact product, rounded; infinities behave as expected. -/
theorem mul_pos_mag {x y : F64} (hx : NonNeg x) (hy : NonNeg y) (hx0 : 0 < x.mag) (hy0 : 0 < y.mag) :
    NonNeg (mul x y) ∧
    (mul x y).mag = if x.mag = INF ∨ y.mag = INF then INF else roundMag (unit x.mag * unit y.mag) 1074 := by
  have n1 := hx.not_nan
  have n2 := hy.not_nan
  unfold mul
  simp only [n1, n2, Bool.or_false, Bool.false_eq_true, if_false, hx.1, hy.1, bne_self_eq_false]
  by_cases h1 : x.mag = INF
  · have i1 : x.isInf = true := by simp [isInf, h1]
    have : ¬ y.mag = 0 := by omega
    simp only [i1, if_true, this, if_false, h1, true_or]
    exact ⟨⟨make_sign _ _ _, by simp [inf, make_mag]⟩, make_mag _ _ _⟩
  · have i1 : x.isInf = false := by simp [isInf, h1]
    simp only [i1, Bool.false_eq_true, if_false, h1, false_or]
    by_cases h2 : y.mag = INF
    · have i2 : y.isInf = true := by simp [isInf, h2]
      have : ¬ x.mag = 0 := by omega
      simp only [i2, if_true, this, if_false, h2]
      exact ⟨⟨make_sign _ _ _, by simp [inf, make_mag]⟩, make_mag _ _ _⟩
    · have i2 : y.isInf = false := by simp [isInf, h2]
      simp only [i2, Bool.false_eq_true, if_false, h2]
      exact ⟨⟨round_sign _ _ _, by rw [round_mag]; exact roundMag_le_INF _ _⟩, round_mag _ _ _⟩

theorem mul_mono {x y x' y' : F64} (hx : NonNeg x) (hy : NonNeg y) (hx' : NonNeg x') (hy' : NonNeg y')
    (hx0 : 0 < x.mag) (hy0 : 0 < y.mag) (h1 : x.mag ≤ x'.mag) (h2 : y.mag ≤ y'.mag) :
    (mul x y).mag ≤ (mul x' y').mag := by
  obtain ⟨p1, e1⟩ := mul_pos_mag hx hy hx0 hy0
  obtain ⟨p2, e2⟩ := mul_pos_mag hx' hy' (by omega) (by omega)
  rw [e1, e2]
  by_cases hc : x'.mag = INF ∨ y'.mag = INF
  · rw [if_pos hc]
    rw [← e1]; exact p1.2
  · rw [if_neg hc]
    have b1 := hx'.2
    have b2 := hy'.2
    have : ¬ (x.mag = INF ∨ y.mag = INF) := by omega
    rw [if_neg this]
    apply roundMag_mono
    exact Nat.mul_le_mul (unit_le_iff.2 h1) (unit_le_iff.2 h2)

/-- `1.0` in units. -/
theorem unit_one : unit one.mag = 2 ^ 1074 := by
  have h : one.mag = 1023 * 2 ^ 52 := by decide
  rw [h, unit_big (by decide)]
  have h1 : 1023 * 2 ^ 52 % 2 ^ 52 = 0 := by decide
  have h2 : 1023 * 2 ^ 52 / 2 ^ 52 - 1 = 1022 := by decide
  rw [h1, h2, Nat.add_zero, ← Nat.pow_add]

theorem one_nonneg : NonNeg one := ⟨by decide, by decide⟩

/-- Multiplying by one or more does not decrease. -/
theorem le_mul {x y : F64} (hx : NonNeg x) (hy : NonNeg y) (hx0 : 0 < x.mag) (hy1 : one.mag ≤ y.mag) :
    x.mag ≤ (mul x y).mag := by
  have h1 : 0 < one.mag := by decide
  have hle := mul_mono hx one_nonneg hx hy hx0 h1 (Nat.le_refl _) hy1
  refine Nat.le_trans ?_ hle
  obtain ⟨_, e⟩ := mul_pos_mag hx one_nonneg hx0 h1
  rw [e]
  split
  · exact hx.2
  · rw [unit_one, roundMag_unit hx.2]

theorem one_mul_mag {x : F64} (hx : NonNeg x) (hx0 : 0 < x.mag) : (mul one x).mag = x.mag := by
  obtain ⟨_, e⟩ := mul_pos_mag one_nonneg hx (by decide) hx0
  rw [e]
  have h1 : ¬ one.mag = INF := by decide
  by_cases h : x.mag = INF
  · simp [h]
  · simp only [h1, h, or_self, if_false]
    rw [unit_one, Nat.mul_comm, roundMag_unit hx.2]

/-! ## Integers -/

theorem unit_of_log (n : Nat) (h : 2 ^ 52 ≤ n) (hd : 2 ^ (Nat.log2 n - 52) ∣ n) :
    ∃ b, unit b = n ∧ b = (Nat.log2 n - 52) * 2 ^ 52 + n / 2 ^ (Nat.log2 n - 52) := by
  have hn : n ≠ 0 := by omega
  have hl : 52 ≤ Nat.log2 n := (Nat.le_log2 hn).2 h
  obtain ⟨q, hq⟩ := hd
  generalize hsh : Nat.log2 n - 52 = sh at *
  have hp : 0 < 2 ^ sh := Nat.pow_pos (by omega)
  have hqn : n / 2 ^ sh = q := by rw [hq, Nat.mul_div_cancel_left _ hp]
  have hlog : Nat.log2 n = 52 + sh := by omega
  have hb := (Nat.log2_eq_iff hn).1 hlog
  have h1 : 2 ^ 52 ≤ q := by
    have : 2 ^ sh * 2 ^ 52 ≤ 2 ^ sh * q := by rw [← hq, Nat.mul_comm, ← Nat.pow_add]; exact hb.1
    exact Nat.le_of_mul_le_mul_left this hp
  have h2 : q < 2 ^ 53 := by
    have : 2 ^ sh * q < 2 ^ sh * 2 ^ 53 := by
      rw [← hq, Nat.mul_comm, ← Nat.pow_add, show 53 + sh = 52 + sh + 1 by omega]; exact hb.2
    exact Nat.lt_of_mul_lt_mul_left this
  refine ⟨sh * 2 ^ 52 + q, ?_, by rw [hqn]⟩
  rw [unit_big (by omega)]
  have h3 : (sh * 2 ^ 52 + q) / 2 ^ 52 - 1 = sh := by omega
  have h4 : 2 ^ 52 + (sh * 2 ^ 52 + q) % 2 ^ 52 = q := by omega
  rw [h3, h4, hq, Nat.mul_comm]

theorem log_of_unit {b n : Nat} (h : 2 ^ 52 ≤ n) (hb : unit b = n) : 2 ^ (Nat.log2 n - 52) ∣ n := by
  have hb' : ¬ b < 2 ^ 52 := by intro hb'; rw [unit_small hb'] at hb; omega
  rw [unit_big hb'] at hb
  have hl : Nat.log2 (2 ^ 52 + b % 2 ^ 52) = 52 := by
    rw [Nat.log2_eq_iff (by omega)]; omega
  rw [← hb, log2_mul_pow _ _ (by omega), hl, Nat.add_sub_cancel_left]
  exact Nat.dvd_mul_left _ _

theorem pow_lt_INF {n : Nat} (h : n < 2 ^ 64) : (Nat.log2 (n * 2 ^ 1074) - 52) * 2 ^ 52 +
    n * 2 ^ 1074 / 2 ^ (Nat.log2 (n * 2 ^ 1074) - 52) ≤ INF := by
  by_cases h0 : n = 0
  · subst h0; simp [INF]
  have h1 : Nat.log2 n < 64 := (Nat.log2_lt h0).2 h
  have h2 := quot_lt (n * 2 ^ 1074) (Nat.log2 (n * 2 ^ 1074) - 52) (Nat.le_refl _)
  rw [log2_mul_pow n 1074 h0] at h2 ⊢
  generalize n * 2 ^ 1074 / 2 ^ (Nat.log2 n + 1074 - 52) = q at h2 ⊢
  have h3 : Nat.log2 n + 1074 - 52 ≤ 1085 := by omega
  generalize Nat.log2 n + 1074 - 52 = sh at h3 ⊢
  unfold INF
  omega

/-- `n as f64` is exact just for the multiples of the spacing of doubles at `n`. -/
theorem round_exact_iff {n : Nat} (h : n < 2 ^ 64) :
    unit (roundMag (n * 2 ^ 1074) 0) = n * 2 ^ 1074 ↔ 2 ^ (Nat.log2 n - 52) ∣ n := by
  by_cases h0 : n = 0
  · subst h0; simp [roundMag_zero, unit_zero]
  have hbig : 2 ^ 52 ≤ n * 2 ^ 1074 := by
    calc 2 ^ 52 ≤ 1 * 2 ^ 1074 := by rw [Nat.one_mul]; exact Nat.pow_le_pow_right (by omega) (by omega)
      _ ≤ n * 2 ^ 1074 := Nat.mul_le_mul_right _ (by omega)
  have hiff : 2 ^ (Nat.log2 (n * 2 ^ 1074) - 52) ∣ n * 2 ^ 1074 ↔ 2 ^ (Nat.log2 n - 52) ∣ n := by
    rw [log2_mul_pow n 1074 h0]
    by_cases hl : 52 ≤ Nat.log2 n
    · rw [show Nat.log2 n + 1074 - 52 = (Nat.log2 n - 52) + 1074 by omega, Nat.pow_add]
      exact Nat.mul_dvd_mul_iff_right (Nat.pow_pos (by omega))
    · constructor
      · intro _
        rw [show Nat.log2 n - 52 = 0 by omega]; simp
      · intro _
        refine Nat.dvd_trans (Nat.pow_dvd_pow 2 (show Nat.log2 n + 1074 - 52 ≤ 1074 by omega)) (Nat.dvd_mul_left _ _)
  rw [← hiff]
  constructor
  · intro hu; exact log_of_unit hbig hu
  · intro hd
    obtain ⟨b, hb, hbe⟩ := unit_of_log _ hbig hd
    have hle : b ≤ INF := by rw [hbe]; exact pow_lt_INF h
    have := roundMag_unit hle 0
    rw [hb] at this
    simp only [Nat.pow_zero, Nat.mul_one] at this
    rw [this, hb]

theorem small_exact {n : Nat} (h : n ≤ 2 ^ 53) : 2 ^ (Nat.log2 n - 52) ∣ n := by
  by_cases h0 : n = 2 ^ 53
  · subst h0
    rw [Nat.log2_two_pow]
    exact Nat.pow_dvd_pow 2 (by omega)
  · by_cases hz : n = 0
    · subst hz; simp
    have : Nat.log2 n < 53 := (Nat.log2_lt hz).2 (by omega)
    rw [show Nat.log2 n - 52 = 0 by omega]; simp

end F64

end Measured
