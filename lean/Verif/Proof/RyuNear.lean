import Verif.Proof.RyuFormat

/-! # Of the shortest decimals the nearest -/

set_option exponentiation.threshold 3000

namespace Measured
open Measured.Spec F64

/-- The next normal double is away by at most one part in `2^52`. -/
theorem F64.unit_next {c : Nat} (h : ¬ c < 2 ^ 52) : 2 ^ 52 * unit (c + 1) ≤ (2 ^ 52 + 1) * unit c := by
  rw [unit_big h, unit_big (by omega)]
  by_cases hc : c % 2 ^ 52 = 2 ^ 52 - 1
  · have h1 : (c + 1) % 2 ^ 52 = 0 := by omega
    have h2 : (c + 1) / 2 ^ 52 = c / 2 ^ 52 + 1 := by omega
    obtain ⟨e, he⟩ : ∃ e, c / 2 ^ 52 = e + 1 := ⟨c / 2 ^ 52 - 1, by omega⟩
    rw [h1, h2, hc, he]
    simp only [Nat.add_sub_cancel, Nat.add_zero]
    rw [Nat.pow_succ 2 e]
    have hp : 0 < 2 ^ e := Nat.pow_pos (by omega)
    generalize 2 ^ e = p at *
    omega
  · have h1 : (c + 1) % 2 ^ 52 = c % 2 ^ 52 + 1 := by omega
    have h2 : (c + 1) / 2 ^ 52 = c / 2 ^ 52 := by omega
    rw [h1, h2]
    rw [← Nat.mul_assoc, ← Nat.mul_assoc]
    apply Nat.mul_le_mul_right
    generalize c % 2 ^ 52 = f
    omega

/-- A double whose neighbours are far apart is one of the first. -/
theorem F64.small_of_far {b : Nat} (hb0 : 0 < b) (h : 10 * unit (b - 1) < 9 * unit (b + 1)) : b < 19 := by
  have h52 : unit (2 ^ 52) = 2 ^ 52 := by decide
  have h53 : unit (2 ^ 52 + 1) = 2 ^ 52 + 1 := by decide
  rcases Nat.lt_trichotomy b (2 ^ 52) with hlt | heq | hgt
  · rcases Nat.lt_or_ge (b + 1) (2 ^ 52) with h1 | h1
    · rw [unit_small h1, unit_small (by omega)] at h
      omega
    · have : b + 1 = 2 ^ 52 := by omega
      rw [this, h52, unit_small (by omega)] at h
      omega
  · rw [heq, h53, unit_small (by omega)] at h
    omega
  · have h1 := unit_next (c := b) (by omega)
    have h2 := unit_next (c := b - 1) (by omega)
    rw [show b - 1 + 1 = b by omega] at h2
    generalize unit (b + 1) = x at *
    generalize unit (b - 1) = y at *
    generalize unit b = z at *
    exfalso
    omega

namespace Ryu

theorem num_lt {b m : Nat} {e : Int} (hb : b < INF) (hb0 : 0 < b) (h : decMag m e = b) : num (b - 1) < (m : ℚ) * (10 : ℚ) ^ e := by
  by_contra hc
  have := decMag_le (b := b - 1) (m := m) (e := e) (by omega) (not_lt.1 hc)
  omega

theorem lt_num {b m : Nat} {e : Int} (hb : b < INF) (h : decMag m e = b) : (m : ℚ) * (10 : ℚ) ^ e < num (b + 1) := by
  by_contra hc
  have := le_decMag (b := b + 1) (m := m) (e := e) (by omega) (not_lt.1 hc)
  omega

/-- What is written is the nearest of all numbers that are read back and have not more digits. -/
theorem shortest_near {b m : Nat} {e : Int} (hb : b < INF) (hb0 : 0 < b) (h : decMag m e = b)
    (hmax : ∀ m' e', decMag m' e' = b → e' ≤ e)
    (hnear : ∀ m', decMag m' e = b → |(m : ℚ) * (10 : ℚ) ^ e - num b| ≤ |(m' : ℚ) * (10 : ℚ) ^ e - num b|)
    {m' : Nat} {e' : Int} (h' : decMag m' e' = b) (hd : ∀ n, m < 10 ^ n → m' < 10 ^ n) :
    |(m : ℚ) * (10 : ℚ) ^ e - num b| ≤ |(m' : ℚ) * (10 : ℚ) ^ e' - num b| := by
  have hle := hmax _ _ h'
  by_cases he : e' = e
  · subst he; exact hnear m' h'
  have hlt : e' + 1 ≤ e := by omega
  have hm := (exp_le hb hb0 h).2
  have hm' := (exp_le hb hb0 h').2
  have hP : (0 : ℚ) < (10 : ℚ) ^ e := zpow_pos (by norm_num) e
  have hP' : (0 : ℚ) < (10 : ℚ) ^ e' := zpow_pos (by norm_num) e'
  obtain ⟨l, hl⟩ : ∃ l, (decDigits m).length = l + 1 := ⟨_, (Nat.succ_pred_eq_of_pos (decDigits_len_pos m)).symm⟩
  have hlow : 10 ^ l ≤ m := by have := pow_len_le hm; rwa [hl] at this
  have hhigh := hd _ (lt_pow_len m)
  rw [hl] at hhigh
  -- the power of ten in between
  have hmid : decMag 1 (e + l) = b := by
    have e1 : (m' : ℚ) * (10 : ℚ) ^ e' ≤ ((1 : Nat) : ℚ) * (10 : ℚ) ^ (e + l) := by
      rw [Nat.cast_one, one_mul]
      refine le_trans (b := (10 : ℚ) ^ (l + 1 : Nat) * (10 : ℚ) ^ e') ?_ ?_
      · exact mul_le_mul_of_nonneg_right (by exact_mod_cast hhigh.le) hP'.le
      · rw [← zpow_natCast, ← zpow_add₀ (by norm_num)]
        exact zpow_le_zpow_right₀ (by norm_num) (by push_cast; omega)
    have e2 : ((1 : Nat) : ℚ) * (10 : ℚ) ^ (e + l) ≤ m * (10 : ℚ) ^ e := by
      rw [Nat.cast_one, one_mul, add_comm, zpow_add₀ (by norm_num), zpow_natCast]
      exact mul_le_mul_of_nonneg_right (by exact_mod_cast hlow) hP.le
    have g1 := decMag_mono e1
    have g2 := decMag_mono e2
    omega
  have hl0 : l = 0 := by have := hmax _ _ hmid; omega
  subst hl0
  rw [Nat.cast_zero, add_zero] at hmid
  have h9 : m' ≤ 9 := by simp at hhigh; omega
  -- the neighbours are far apart
  have f1 := num_lt hb hb0 h'
  have f2 := lt_num hb hmid
  rw [Nat.cast_one, one_mul] at f2
  have hten : 10 * (10 : ℚ) ^ e' ≤ (10 : ℚ) ^ e := by
    have : (10 : ℚ) ^ (1 + e') ≤ (10 : ℚ) ^ e := zpow_le_zpow_right₀ (by norm_num) (by omega)
    rwa [zpow_add₀ (by norm_num), zpow_one] at this
  have h9q : (m' : ℚ) ≤ 9 := by exact_mod_cast h9
  have hv : (m' : ℚ) * (10 : ℚ) ^ e' ≤ 9 * (10 : ℚ) ^ e' := mul_le_mul_of_nonneg_right h9q hP'.le
  have hfar : 10 * num (b - 1) < 9 * num (b + 1) := by linarith
  have hb19 : b < 19 := by
    apply small_of_far hb0
    unfold num at hfar
    rw [← mul_div_assoc, ← mul_div_assoc, div_lt_div_iff_of_pos_right (by positivity)] at hfar
    exact_mod_cast hfar
  -- only `10^-323` is left
  have he' : e' = -324 ∧ e = -323 := by
    have k1 := (first_digit hb hb0 h').1
    have k2 : (decDigits m').length ≤ 1 := len_le hm' (by omega)
    have k3 : e < -322 := by
      by_contra hc
      have c1 : (10 : ℚ) ^ (-322 : Int) ≤ (10 : ℚ) ^ e := zpow_le_zpow_right₀ (by norm_num) (by omega)
      have c2 : num (b + 1) ≤ 19 / 2 ^ 1074 := by
        unfold num
        refine div_le_div_of_nonneg_right ?_ (by positivity)
        rw [unit_small (by omega)]
        have : b + 1 ≤ 19 := by omega
        exact_mod_cast this
      have c3 : (10 : ℚ) ^ (-322 : Int) < 19 / 2 ^ 1074 := lt_of_le_of_lt c1 (lt_of_lt_of_le f2 c2)
      rw [show (-322 : Int) = -((322 : Nat) : Int) by norm_num, zpow_neg, zpow_natCast, ← one_div,
        div_lt_div_iff₀ (by positivity) (by positivity), one_mul] at c3
      have c4 : (2 : Nat) ^ 1074 < 19 * 10 ^ 322 := by exact_mod_cast c3
      exact absurd c4 (by decide +kernel)
    omega
  obtain ⟨rfl, rfl⟩ := he'
  have hb2 : b = 2 := by rw [← hmid]; decide +kernel
  subst hb2
  have hn2 : num 2 = 2 / 2 ^ 1074 := by unfold num; rw [unit_small (by decide)]; norm_cast
  have hp : (10 : ℚ) ^ (-323 : Int) = 10 * (10 : ℚ) ^ (-324 : Int) := by
    rw [show (-323 : Int) = 1 + -324 by norm_num, zpow_add₀ (by norm_num), zpow_one]
  have hinv : (10 : ℚ) ^ (-324 : Int) = 1 / 10 ^ 324 := by
    rw [show (-324 : Int) = -((324 : Nat) : Int) by norm_num, zpow_neg, zpow_natCast, one_div]
  have hup : num 2 ≤ 10 * (10 : ℚ) ^ (-324 : Int) := by
    rw [hn2, hinv, mul_one_div, div_le_div_iff₀ (by positivity) (by positivity)]
    have : (2 : Nat) * 10 ^ 324 ≤ 10 * 2 ^ 1074 := by decide +kernel
    exact_mod_cast this
  have hdn : 19 * (10 : ℚ) ^ (-324 : Int) ≤ 2 * num 2 := by
    rw [hn2, hinv, mul_one_div, ← mul_div_assoc, div_le_div_iff₀ (by positivity) (by positivity)]
    have : (19 : Nat) * 2 ^ 1074 ≤ 2 * 2 * 10 ^ 324 := by decide +kernel
    exact_mod_cast this
  refine le_trans (hnear 1 hmid) ?_
  rw [Nat.cast_one, one_mul, hp, abs_of_nonneg (by linarith), abs_of_nonpos (by linarith)]
  linarith

/-! ## A reader -/

/-- A reader that rounds correctly. -/
def parse (t : Bytes) : Option F64 :=
  match readDecimal t with
  | some (neg, m, e) => some (round neg (quarters (decNum m e) (decDen e)) 2)
  | none =>
    if t = b!"NaN" then some F64.nan
    else if t = b!"inf" ∨ t = b!"+Inf" then some (F64.inf false)
    else if t = b!"-inf" ∨ t = b!"-Inf" then some (F64.inf true)
    else none

theorem parse_reads : ReadsNumbers parse where
  decimal := by
    intro t neg m e h
    refine ⟨round neg (quarters (decNum m e) (decDen e)) 2, by unfold parse; rw [h], roundsTo_round neg m e, ?_⟩
    rw [← sign_iff, round_sign]
  nan := by decide
  inf := by decide
  negInf := by decide

end Ryu
end Measured
