import Verif.Proof.RyuSearch
import Verif.Proof.TextRead
import Verif.Spec.Series

/-! # The text of a number, read back -/

set_option exponentiation.threshold 3000

namespace Measured
open Measured.Spec F64

namespace Ryu

/-! ## Digits -/

theorem digitsValue_acc (ds : Bytes) (n : Nat) :
    ds.foldl (fun n b => n * 10 + (b.toNat - 0x30)) n = n * 10 ^ ds.length + digitsValue ds := by
  induction ds generalizing n with
  | nil => simp [digitsValue]
  | cons b ds ih =>
    unfold digitsValue
    simp only [List.foldl_cons, List.length_cons]
    rw [ih, ih (0 * 10 + (b.toNat - 0x30))]
    ring

theorem digitsValue_append (a b : Bytes) : digitsValue (a ++ b) = digitsValue a * 10 ^ b.length + digitsValue b := by
  conv_lhs => unfold digitsValue
  rw [List.foldl_append, digitsValue_acc]
  rfl

theorem digitsValue_zeros (n : Nat) : digitsValue (List.replicate n 0x30) = 0 := by
  induction n with
  | zero => rfl
  | succ n ih =>
    rw [List.replicate_succ, show (0x30 : UInt8) :: List.replicate n 0x30 = [0x30] ++ List.replicate n 0x30 from rfl,
      digitsValue_append, ih]
    simp [digitsValue]

theorem digitsValue_decDigits (n : Nat) : digitsValue (decDigits n) = n := by
  induction n using decDigits.induct with
  | case1 n h =>
    rw [decDigits, if_pos h]
    simp [digitsValue]
    omega
  | case2 n h ih =>
    rw [decDigits, if_neg h, digitsValue_append, ih]
    have hd : n % 10 < 10 := Nat.mod_lt _ (by omega)
    simp [digitsValue]
    omega

theorem decDigits_len_pos (n : Nat) : 0 < (decDigits n).length := List.length_pos_iff.2 (decDigits_ne n)

theorem lt_pow_len (n : Nat) : n < 10 ^ (decDigits n).length := by
  induction n using decDigits.induct with
  | case1 n h => rw [decDigits, if_pos h]; simpa using h
  | case2 n h ih =>
    rw [decDigits, if_neg h, List.length_append, List.length_singleton, Nat.pow_succ]
    omega

theorem pow_len_le {n : Nat} (hn : 0 < n) : 10 ^ ((decDigits n).length - 1) ≤ n := by
  induction n using decDigits.induct with
  | case1 n h => rw [decDigits, if_pos h]; simpa using (show 1 ≤ n from hn)
  | case2 n h ih =>
    have h1 := ih (by omega)
    rw [decDigits, if_neg h, List.length_append, List.length_singleton]
    have h2 := decDigits_len_pos (n / 10)
    obtain ⟨k, hk⟩ : ∃ k, (decDigits (n / 10)).length = k + 1 := ⟨_, (Nat.succ_pred_eq_of_pos h2).symm⟩
    rw [hk] at h1 ⊢
    simp only [Nat.add_sub_cancel] at h1 ⊢
    rw [Nat.pow_succ]
    omega

theorem len_le {n k : Nat} (hn : 0 < n) (h : n < 10 ^ k) : (decDigits n).length ≤ k := by
  by_contra hc
  have := pow_len_le hn
  have h2 : 10 ^ k ≤ 10 ^ ((decDigits n).length - 1) := Nat.pow_le_pow_right (by omega) (by omega)
  omega

theorem decDigits_digits (n : Nat) : (decDigits n).all decimalDigit = true := by
  rw [List.all_eq_true]; exact decDigits_mem n

theorem zeros_digits (n : Nat) : (List.replicate n (0x30 : UInt8)).all decimalDigit = true := by
  rw [List.all_eq_true]
  intro b hb
  rw [(List.mem_replicate.1 hb).2]; decide

/-! ## Reading -/

/-- The text does not go on with a digit. -/
def Stops (r : Bytes) : Prop := ∀ b r', r = b :: r' → decimalDigit b = false

theorem takeWhile_digits {w r : Bytes} (hw : w.all decimalDigit = true) (hr : Stops r) :
    (w ++ r).takeWhile decimalDigit = w ∧ (w ++ r).dropWhile decimalDigit = r := by
  induction w with
  | nil =>
    cases r with
    | nil => exact ⟨rfl, rfl⟩
    | cons b r' => simp [hr b r' rfl]
  | cons a w ih =>
    simp only [List.all_cons, Bool.and_eq_true] at hw
    obtain ⟨h1, h2⟩ := ih hw.2
    simp [hw.1, h1, h2]

theorem readSign_digit {b : Byte} {r : Bytes} (h : decimalDigit b = true) : readSign (b :: r) = (false, b :: r) := by
  unfold readSign
  split
  · rename_i h'; cases h'; exact absurd h (by decide)
  · rename_i h'; cases h'; exact absurd h (by decide)
  · rfl

theorem readSign_digits {w r : Bytes} (hw : w.all decimalDigit = true) (hne : w ≠ []) : readSign (w ++ r) = (false, w ++ r) := by
  cases w with
  | nil => exact absurd rfl hne
  | cons b w =>
    simp only [List.all_cons, Bool.and_eq_true] at hw
    exact readSign_digit hw.1

/-- Digits, a point, digits and the rest. -/
theorem readDecimal_point {w f r : Bytes} (hw : w.all decimalDigit = true) (hne : w ≠ []) (hf : f.all decimalDigit = true) (hr : Stops r) :
    readDecimal (w ++ 0x2e :: (f ++ r)) = (readExponent r).map fun e => (false, digitsValue (w ++ f), e - (f.length : Int)) := by
  have hp : Stops (0x2e :: (f ++ r)) := by
    intro b r' h
    cases h
    decide
  unfold readDecimal
  simp only [readSign_digits hw hne, (takeWhile_digits hw hp).1, (takeWhile_digits hw hp).2, readFraction,
    (takeWhile_digits hf hr).1, (takeWhile_digits hf hr).2, hne, false_and, if_false]

/-- Digits and the rest, without a point. -/
theorem readDecimal_whole {w r : Bytes} (hw : w.all decimalDigit = true) (hne : w ≠ []) (hr : Stops r)
    (hp : ∀ r', r ≠ 0x2e :: r') :
    readDecimal (w ++ r) = (readExponent r).map fun e => (false, digitsValue w, e) := by
  have hfr : readFraction r = ([], r) := by
    unfold readFraction
    split
    · rename_i r' ; exact absurd rfl (hp r')
    · rfl
  unfold readDecimal
  simp only [readSign_digits hw hne, (takeWhile_digits hw hr).1, (takeWhile_digits hw hr).2, hfr, hne, false_and, if_false,
    List.append_nil, List.length_nil, Nat.cast_zero, sub_zero]

/-- A minus in front. -/
theorem readDecimal_neg {w r : Bytes} (hw : w.all decimalDigit = true) (hne : w ≠ []) :
    readDecimal (0x2d :: (w ++ r)) = (readDecimal (w ++ r)).map fun p => (true, p.2) := by
  unfold readDecimal
  rw [readSign_digits hw hne]
  simp only [readSign]
  split
  · rfl
  · rw [Option.map_map]; rfl

theorem readExponent_itoa (k : Int) : readExponent (0x65 :: itoa k) = some k := by
  unfold readExponent itoa
  simp only [true_or, if_true]
  have hd := decDigits_digits k.natAbs
  have hv := digitsValue_decDigits k.natAbs
  cases hc : decDigits k.natAbs with
  | nil => exact absurd hc (decDigits_ne _)
  | cons b ds =>
    rw [hc] at hd hv
    have hb : decimalDigit b = true := by
      simp only [List.all_cons, Bool.and_eq_true] at hd; exact hd.1
    by_cases hk : k < 0
    · rw [if_pos hk]
      simp only [readSign, hd, hv, if_true]
      congr 1
      omega
    · rw [if_neg hk, readSign_digit hb]
      simp only [hd, hv, if_true, Bool.false_eq_true, if_false]
      congr 1
      omega

theorem stops_nil : Stops [] := by intro b r h; cases h
theorem stops_exp (r : Bytes) : Stops (0x65 :: r) := by intro b r' h; cases h; decide

/-- The form of the text: digits first, and the number that is read. -/
theorem layout_form (m : Nat) (k : Int) :
    ∃ w r m' e', layout m k = w ++ r ∧ w.all decimalDigit = true ∧ w ≠ [] ∧
      readDecimal (layout m k) = some (false, m', e') ∧ (m' : ℚ) * (10 : ℚ) ^ e' = m * (10 : ℚ) ^ k := by
  have hds := decDigits_digits m
  have hv := digitsValue_decDigits m
  have hne := decDigits_ne m
  have hlen := decDigits_len_pos m
  have htake : ∀ n, ((decDigits m).take n).all decimalDigit = true := fun n =>
    List.all_eq_true.2 fun b hb => List.all_eq_true.1 hds b (List.mem_of_mem_take hb)
  have hdrop : ∀ n, ((decDigits m).drop n).all decimalDigit = true := fun n =>
    List.all_eq_true.2 fun b hb => List.all_eq_true.1 hds b (List.mem_of_mem_drop hb)
  have htne : ∀ n, 0 < n → (decDigits m).take n ≠ [] := by
    intro n hn h
    have := congrArg List.length h
    simp only [List.length_take, List.length_nil] at this
    omega
  unfold layout
  generalize decDigits m = ds at *
  simp only
  by_cases h1 : 0 ≤ k ∧ (ds.length : Int) + k ≤ 16
  · rw [if_pos h1]
    obtain ⟨n, hn⟩ := Int.eq_ofNat_of_zero_le h1.1
    subst hn
    have hw : (ds ++ List.replicate n 0x30).all decimalDigit = true := by rw [List.all_append, hds, zeros_digits]; rfl
    refine ⟨ds ++ List.replicate n 0x30, b!".0", m * 10 ^ n * 10, -1, rfl, hw, by simp [hne], ?_, ?_⟩
    · have := readDecimal_point (w := ds ++ List.replicate n 0x30) (f := b!"0") (r := []) hw (by simp [hne]) (by decide) stops_nil
      refine Eq.trans (b := readDecimal (ds ++ List.replicate n 0x30 ++ 0x2e :: (b!"0" ++ []))) rfl ?_
      rw [this, digitsValue_append, digitsValue_append, digitsValue_zeros, hv]
      simp [readExponent]
      decide
    · push_cast
      rw [zpow_neg_one, zpow_natCast]
      field_simp
  · rw [if_neg h1]
    by_cases h2 : 0 < (ds.length : Int) + k ∧ (ds.length : Int) + k ≤ 16
    · rw [if_pos h2]
      refine ⟨_, _, m, k, List.append_assoc _ _ _, htake _, htne _ (by omega), ?_, rfl⟩
      have := readDecimal_point (r := []) (htake ((ds.length : Int) + k).toNat) (htne _ (by omega))
        (hdrop ((ds.length : Int) + k).toNat) stops_nil
      refine Eq.trans (b := readDecimal (ds.take ((ds.length : Int) + k).toNat ++
        0x2e :: (ds.drop ((ds.length : Int) + k).toNat ++ []))) (by simp) ?_
      rw [this, List.take_append_drop, hv, List.length_drop]
      simp only [readExponent, Option.map_some]
      congr 3
      omega
    · rw [if_neg h2]
      by_cases h3 : -5 < (ds.length : Int) + k ∧ (ds.length : Int) + k ≤ 0
      · rw [if_pos h3]
        refine ⟨b!"0", 0x2e :: (List.replicate (-((ds.length : Int) + k)).toNat 0x30 ++ ds), m, k, rfl, by decide, by decide, ?_, rfl⟩
        have hf : (List.replicate (-((ds.length : Int) + k)).toNat 0x30 ++ ds).all decimalDigit = true := by
          rw [List.all_append, hds, zeros_digits]; rfl
        have := readDecimal_point (w := b!"0") (r := []) (by decide) (by decide) hf stops_nil
        refine Eq.trans (b := readDecimal (b!"0" ++ 0x2e :: (List.replicate (-((ds.length : Int) + k)).toNat 0x30 ++ ds ++ [])))
          (by rw [List.append_nil]; rfl) ?_
        rw [this, digitsValue_append, digitsValue_append, digitsValue_zeros, hv]
        have hz : digitsValue b!"0" = 0 := by decide
        rw [hz]
        simp only [readExponent, Option.map_some, Nat.zero_mul, Nat.zero_add, List.length_append, List.length_replicate]
        congr 3
        omega
      · rw [if_neg h3]
        by_cases h4 : ds.length = 1
        · rw [if_pos h4]
          refine ⟨ds, 0x65 :: itoa ((ds.length : Int) + k - 1), m, k, List.append_assoc _ _ _, hds, hne, ?_, rfl⟩
          have := readDecimal_whole (r := 0x65 :: itoa ((ds.length : Int) + k - 1)) hds hne (stops_exp _) (by intro r' h; cases h)
          refine Eq.trans (b := readDecimal (ds ++ 0x65 :: itoa ((ds.length : Int) + k - 1))) (by simp) ?_
          rw [this, readExponent_itoa, hv]
          simp only [Option.map_some]
          congr 3
          omega
        · rw [if_neg h4]
          refine ⟨ds.take 1, 0x2e :: (ds.drop 1 ++ 0x65 :: itoa ((ds.length : Int) + k - 1)), m, k, ?_, htake 1, htne 1 (by omega),
            ?_, rfl⟩
          · simp
          · have := readDecimal_point (r := 0x65 :: itoa ((ds.length : Int) + k - 1)) (htake 1) (htne 1 (by omega)) (hdrop 1) (stops_exp _)
            refine Eq.trans (b := readDecimal (ds.take 1 ++ 0x2e :: (ds.drop 1 ++ 0x65 :: itoa ((ds.length : Int) + k - 1))))
              (by simp) ?_
            rw [this, readExponent_itoa, List.take_append_drop, hv, List.length_drop]
            simp only [Option.map_some]
            congr 3
            omega

end Ryu
end Measured
