import Verif.Proof.Ryu

/-! # The search for the shortest decimal -/

set_option exponentiation.threshold 3000

namespace Measured
open Measured.Spec F64

namespace Ryu

/-! ## The search -/

theorem search_succ (b n : Nat) :
    search b (n + 1) = ((candidate b ((n : Int) - 344)).map fun m => (m, (n : Int) - 344)).or (search b n) := rfl

theorem search_some {b m : Nat} {e : Int} {n : Nat} (h : search b n = some (m, e)) :
    candidate b e = some m ∧ -344 ≤ e ∧ e < (n : Int) - 344 ∧ ∀ e', e < e' → e' < (n : Int) - 344 → candidate b e' = none := by
  induction n with
  | zero => cases h
  | succ n ih =>
    rw [search_succ] at h
    cases hc : candidate b ((n : Int) - 344) with
    | some m' =>
      rw [hc] at h
      cases h
      have hm' := hc
      exact ⟨hm', by omega, by push_cast; omega, fun e' h1 h2 => by push_cast at h2; omega⟩
    | none =>
      rw [hc] at h
      have hn := hc
      obtain ⟨h1, h2, h3, h4⟩ := ih h
      refine ⟨h1, h2, by push_cast; omega, fun e' h5 h6 => ?_⟩
      by_cases he : e' = (n : Int) - 344
      · rw [he]; exact hn
      · exact h4 e' h5 (by push_cast at h6; omega)

theorem search_none {b n : Nat} (h : search b n = none) {e : Int} (h1 : -344 ≤ e) (h2 : e < (n : Int) - 344) :
    candidate b e = none := by
  induction n with
  | zero => simp only [Int.natCast_zero] at h2; omega
  | succ n ih =>
    rw [search_succ] at h
    cases hc : candidate b ((n : Int) - 344) with
    | some m' => rw [hc] at h; cases h
    | none =>
      rw [hc] at h
      have hn := hc
      by_cases he : e = (n : Int) - 344
      · rw [he]; exact hn
      · exact ih h (by push_cast at h2; omega)

theorem decMag_top : decMag 1 309 = INF := by decide +kernel
theorem decMag_bottom : decMag 1 (-324) = 0 := by decide +kernel

/-- Nothing from `10^309` on is finite. -/
theorem exp_le {b m : Nat} {e : Int} (hb : b < INF) (hb0 : 0 < b) (h : decMag m e = b) : e ≤ 308 ∧ 0 < m := by
  have hm : 0 < m := by
    rcases Nat.eq_zero_or_pos m with rfl | hm
    · rw [decMag_zero] at h; omega
    · exact hm
  refine ⟨?_, hm⟩
  by_contra hc
  have : ((1 : Nat) : ℚ) * (10 : ℚ) ^ (309 : Int) ≤ m * (10 : ℚ) ^ e :=
    mul_le_mul (by exact_mod_cast hm) (zpow_le_zpow_right₀ (by norm_num) (by omega)) (by positivity) (by positivity)
  have := decMag_mono this
  rw [decMag_top] at this
  omega

theorem num_pos {b : Nat} (hb0 : 0 < b) : 0 < num b := by
  unfold num
  have : 0 < unit b := Nat.pos_of_ne_zero fun h => by rw [unit_eq_zero] at h; omega
  have : (0 : ℚ) < unit b := by exact_mod_cast this
  positivity

/-- There is a power of ten for 17 digits. -/
theorem exists_scale {b : Nat} (hb : b < INF) (hb0 : 0 < b) :
    ∃ e : Int, -344 ≤ e ∧ e < 309 ∧ (10 : ℚ) ^ 16 * (10 : ℚ) ^ e ≤ num b ∧ num b < (10 : ℚ) ^ 17 * (10 : ℚ) ^ e := by
  have hlow : (10 : ℚ) ^ (16 + (-340 : Int)) ≤ num b := by
    have h1 : (1 : ℚ) / 2 ^ 1074 ≤ num b := by
      unfold num
      refine div_le_div_of_nonneg_right ?_ (by positivity)
      have : 0 < unit b := Nat.pos_of_ne_zero fun h => by rw [unit_eq_zero] at h; omega
      exact_mod_cast this
    refine le_trans ?_ h1
    rw [show (16 + (-340 : Int)) = -((324 : Nat) : Int) by norm_num, zpow_neg, zpow_natCast, ← one_div]
    refine one_div_le_one_div_of_le (by positivity) ?_
    have : (2 : Nat) ^ 1074 ≤ 10 ^ 324 := by decide +kernel
    exact_mod_cast this
  have hhigh : num b < (10 : ℚ) ^ (16 + (309 : Int)) := by
    unfold num
    rw [div_lt_iff₀ (by positivity)]
    have h1 : unit b ≤ unit (INF - 1) := unit_le_iff.2 (by omega)
    rw [unit_maxFinite] at h1
    have h2 : 18014398509481982 * 2 ^ 2044 < 10 ^ 325 * 2 ^ 1074 := by decide +kernel
    have h3 : unit b < 10 ^ 325 * 2 ^ 1074 := Nat.lt_of_le_of_lt h1 h2
    rw [show (16 + (309 : Int)) = ((325 : Nat) : Int) by norm_num, zpow_natCast]
    exact_mod_cast h3
  -- the last power that is not too large
  have : ∀ n : Nat, (10 : ℚ) ^ (16 + (-340 : Int)) ≤ num b → num b < (10 : ℚ) ^ (16 + ((n : Int) - 340)) →
      ∃ k : Nat, k < n ∧ (10 : ℚ) ^ (16 + ((k : Int) - 340)) ≤ num b ∧ num b < (10 : ℚ) ^ (16 + ((k + 1 : Nat) : Int) - 340) := by
    intro n h1 h2
    induction n with
    | zero => simp only [Int.natCast_zero, zero_sub] at h2; linarith
    | succ n ih =>
      by_cases hc : num b < (10 : ℚ) ^ (16 + ((n : Int) - 340))
      · obtain ⟨k, hk, h3⟩ := ih hc
        exact ⟨k, by omega, h3⟩
      · refine ⟨n, by omega, not_lt.1 hc, ?_⟩
        rw [show 16 + ((n + 1 : Nat) : Int) - 340 = 16 + (((n + 1 : Nat) : Int) - 340) by ring]
        exact h2
  obtain ⟨k, hk, h1, h2⟩ := this 649 hlow (by norm_num at hhigh ⊢; exact hhigh)
  refine ⟨(k : Int) - 340, by omega, by omega, ?_, ?_⟩
  · rw [← zpow_natCast, ← zpow_add₀ (by norm_num)]
    exact_mod_cast h1
  · rw [← zpow_natCast, ← zpow_add₀ (by norm_num)]
    rw [show 16 + ((k + 1 : Nat) : Int) - 340 = ((17 : Nat) : Int) + ((k : Int) - 340) by push_cast; ring] at h2
    exact h2

/-- What the search finds. -/
theorem shortest_spec {b : Nat} (hb : b < INF) (hb0 : 0 < b) :
    ∃ m e, shortest b = some (m, e) ∧ 0 < m ∧ m < 10 ^ 17 ∧ decMag m e = b ∧
      (∀ m' e', decMag m' e' = b → e' ≤ e) ∧
      ∀ m', decMag m' e = b → |(m : ℚ) * (10 : ℚ) ^ e - num b| ≤ |(m' : ℚ) * (10 : ℚ) ^ e - num b| := by
  obtain ⟨e0, h1, h2, h3, h4⟩ := exists_scale hb hb0
  have hf := candidate_found hb hb0 h3
  cases hs : shortest b with
  | none =>
    unfold shortest at hs
    exact absurd (search_none hs h1 (by omega)) hf
  | some p =>
    obtain ⟨m, e⟩ := p
    have hs' := hs
    unfold shortest at hs'
    obtain ⟨c1, c2, c3, c4⟩ := search_some hs'
    obtain ⟨d1, d2, d3⟩ := candidate_some hb c1
    have hm0 := (exp_le hb hb0 d1).2
    have hmax : ∀ m' e', decMag m' e' = b → e' ≤ e := by
      intro m' e' hm'
      by_contra hc
      have := (exp_le hb hb0 hm').1
      exact candidate_none hb (c4 e' (by omega) (by omega)) m' hm'
    refine ⟨m, e, rfl, hm0, ?_, d1, hmax, d3⟩
    have he0 : e0 ≤ e := by
      by_contra hc
      exact hf (c4 e0 (by omega) (by omega))
    have hP : (0 : ℚ) < (10 : ℚ) ^ e := zpow_pos (by norm_num) e
    have hle : (10 : ℚ) ^ e0 ≤ (10 : ℚ) ^ e := zpow_le_zpow_right₀ (by norm_num) he0
    have hlow : (lower b e : ℚ) * (10 : ℚ) ^ e ≤ num b := lower_le b e
    have hm : (m : ℚ) ≤ lower b e + 1 := by exact_mod_cast d2
    have hlt : (lower b e : ℚ) < 10 ^ 17 := by
      have : (lower b e : ℚ) * (10 : ℚ) ^ e < 10 ^ 17 * (10 : ℚ) ^ e := by
        refine lt_of_le_of_lt hlow (lt_of_lt_of_le h4 ?_)
        exact mul_le_mul_of_nonneg_left hle (by positivity)
      exact lt_of_mul_lt_mul_right this hP.le
    have hlt : lower b e < 10 ^ 17 := by exact_mod_cast hlt
    by_contra hc
    have hmeq : m = 10 ^ 17 := by omega
    have : decMag 1 (e + 17) = b := by
      rw [← d1, hmeq]
      have e1 : ((1 : Nat) : ℚ) * (10 : ℚ) ^ (e + 17) = ((10 ^ 17 : Nat) : ℚ) * (10 : ℚ) ^ e := by
        rw [zpow_add₀ (by norm_num)]; push_cast; norm_num; ring
      exact Nat.le_antisymm (decMag_mono e1.le) (decMag_mono e1.ge)
    have := hmax _ _ this
    omega

end Ryu
end Measured
