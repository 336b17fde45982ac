import Verif.Model.Varint
import Verif.Spec.Wire
import Mathlib.Tactic.IntervalCases

/-! Helper lemmas about varints. -/

namespace Measured.Proto
open Measured.Spec

theorem leading_byte (v : Nat) : (UInt8.ofNat ((v &&& 0x7F) ||| 0x80)).toNat = v % 128 + 128 := by
  have h1 : v &&& 0x7F = v % 128 := Nat.and_two_pow_sub_one_eq_mod v 7
  have h2 : (v % 128) ||| 128 = 128 + v % 128 := by
    have := Nat.two_pow_add_eq_or_of_lt (i := 7) (b := v % 128) (Nat.mod_lt _ (by decide)) 1
    rw [Nat.or_comm]; simpa using this.symm
  rw [h1, h2, UInt8.toNat_ofNat']
  omega

theorem encodeVarintLoop_read (n v : Nat) (rest : Bytes) (h : v < 128 ^ n) (hn : 0 < n) :
    readVarintN n (encodeVarintLoop n v ++ rest) = some (v, rest) := by
  induction n generalizing v with
  | zero => omega
  | succ n ih =>
    unfold encodeVarintLoop
    split
    · rename_i hv
      simp [readVarintN, Nat.mod_eq_of_lt (show v < 256 by omega), hv]
    · rename_i hv
      have hn' : 0 < n := by
        rcases n with _ | n
        · simp at h; omega
        · omega
      have hlt : v >>> 7 < 128 ^ n := by
        rw [Nat.shiftRight_eq_div_pow]
        rw [Nat.pow_succ] at h
        exact Nat.div_lt_of_lt_mul (by omega)
      simp only [List.cons_append, readVarintN, leading_byte, ih _ hlt hn']
      rw [if_neg (by omega)]
      simp [Nat.shiftRight_eq_div_pow]
      omega

theorem encodeVarintLoop_length (n v : Nat) (h : v < 128 ^ n) (hn : 0 < n) :
    (encodeVarintLoop n v).length = Nat.log2 v / 7 + 1 := by
  induction n generalizing v with
  | zero => omega
  | succ n ih =>
    unfold encodeVarintLoop
    split
    · rename_i hv
      have : Nat.log2 v < 7 := by
        by_cases h0 : v = 0
        · subst h0; simp
        · exact (Nat.log2_lt h0).2 (by simpa using hv)
      simp; omega
    · rename_i hv
      have hn' : 0 < n := by
        rcases n with _ | n
        · simp at h; omega
        · omega
      have hlt : v >>> 7 < 128 ^ n := by
        rw [Nat.shiftRight_eq_div_pow]
        rw [Nat.pow_succ] at h
        exact Nat.div_lt_of_lt_mul (by omega)
      have hlog : Nat.log2 v = Nat.log2 (v >>> 7) + 7 := by
        have hv0 : v ≠ 0 := by omega
        have hs0 : v >>> 7 ≠ 0 := by rw [Nat.shiftRight_eq_div_pow]; omega
        have hb : v >>> 7 = v / 128 := by simp [Nat.shiftRight_eq_div_pow]
        have h1 := Nat.log2_self_le hs0
        have h2 := Nat.lt_log2_self (n := v >>> 7)
        rw [Nat.log2_eq_iff hv0]
        generalize Nat.log2 (v >>> 7) = L at *
        constructor
        · rw [Nat.pow_add]; omega
        · rw [show L + 7 + 1 = (L + 1) + 7 by omega, Nat.pow_add]; omega
      simp [ih _ hlt hn', hlog]

theorem log2_or_one (v : Nat) : Nat.log2 (v ||| 1) = Nat.log2 v := by
  by_cases h0 : v = 0
  · subst h0; decide
  · have hor : v ≤ v ||| 1 ∧ v ||| 1 ≤ v + 1 ∧ (v % 2 = 1 → v ||| 1 = v) := by
      have h1 : (v ||| 1) = 2 * (v / 2) + 1 := by
        apply Nat.eq_of_testBit_eq
        intro i
        cases i with
        | zero => simp
        | succ i =>
          rw [Nat.testBit_or, Nat.testBit_succ, Nat.testBit_succ, Nat.testBit_succ]
          have : (2 * (v / 2) + 1) / 2 = v / 2 := by omega
          rw [this]; simp
      omega
    have h1 := Nat.log2_self_le h0
    have h2 := Nat.lt_log2_self (n := v)
    have hor0 : v ||| 1 ≠ 0 := by omega
    rw [Nat.log2_eq_iff hor0]
    constructor
    · omega
    · by_cases hodd : v % 2 = 1
      · rw [hor.2.2 hodd]; exact h2
      · have hne : v + 1 ≠ 2 ^ (v.log2 + 1) := by
          rw [Nat.pow_succ]; omega
        omega

theorem encodedLenVarint_eq (v : Nat) (h : v < 2 ^ 64) : encodedLenVarint v = Nat.log2 v / 7 + 1 := by
  unfold encodedLenVarint leadingZeros64
  have h1 : v ||| 1 ≠ 0 := by
    intro h'
    have := Nat.right_le_or (n := v) (m := 1)
    omega
  rw [if_neg h1, log2_or_one]
  have hL : Nat.log2 v < 64 := by
    by_cases h0 : v = 0
    · subst h0; decide
    · exact (Nat.log2_lt h0).2 h
  generalize Nat.log2 v = L at *
  interval_cases L <;> decide

theorem encodeVarint_length (v : Nat) (h : v < 2 ^ 64) :
    (encodeVarint v).length = encodedLenVarint v := by
  rw [encodedLenVarint_eq v h]
  exact encodeVarintLoop_length 10 v (by omega) (by decide)

theorem encodedLenVarint_bounds (v : Nat) (h : v < 2 ^ 64) :
    1 ≤ encodedLenVarint v ∧ encodedLenVarint v ≤ 10 := by
  rw [encodedLenVarint_eq v h]
  have hL : Nat.log2 v < 64 := by
    by_cases h0 : v = 0
    · subst h0; decide
    · exact (Nat.log2_lt h0).2 h
  omega

theorem readVarint_encode (v : Nat) (h : v < 2 ^ 64) (rest : Bytes) :
    readVarint (encodeVarint v ++ rest) = some (v, rest) := by
  unfold readVarint encodeVarint
  rw [encodeVarintLoop_read 10 v rest (by omega) (by decide)]
  simp; omega

theorem key_value (tag : Nat) (w : WireType) (h : tag < 2 ^ 29) :
    (((tag <<< 3) % 2 ^ 32) ||| w.code) = 8 * tag + w.code := by
  have hs : tag <<< 3 = 8 * tag := by rw [Nat.shiftLeft_eq]; omega
  rw [hs, Nat.mod_eq_of_lt (by omega)]
  have := Nat.two_pow_add_eq_or_of_lt (i := 3) (b := w.code) (by cases w <;> decide) tag
  simpa using this.symm

theorem encodeKey_length (tag : Nat) (w : WireType) (h : tag < 2 ^ 29) :
    (encodeKey tag w).length = keyLen tag := by
  unfold encodeKey keyLen
  have hw : w.code < 8 := by cases w <;> decide
  rw [key_value tag w h, encodeVarint_length _ (by omega)]
  have hs : tag <<< 3 = 8 * tag := by rw [Nat.shiftLeft_eq]; omega
  rw [hs, Nat.mod_eq_of_lt (by omega), encodedLenVarint_eq _ (by omega),
    encodedLenVarint_eq _ (by omega)]
  by_cases h0 : tag = 0
  · subst h0; cases w <;> decide
  · have : Nat.log2 (8 * tag + w.code) = Nat.log2 (8 * tag) := by
      have hp : ∀ x, Nat.log2 (8 * tag) = x → Nat.log2 (8 * tag + w.code) = x := by
        intro x hx
        have h8 : 8 * tag ≠ 0 := by omega
        rw [Nat.log2_eq_iff h8] at hx
        rw [Nat.log2_eq_iff (by omega)]
        refine ⟨by omega, ?_⟩
        have hx3 : 3 ≤ x := by
          by_cases hx' : x < 3
          · interval_cases x <;> omega
          · omega
        obtain ⟨y, rfl⟩ : ∃ y, x = y + 3 := ⟨x - 3, by omega⟩
        have hp : 2 ^ (y + 3 + 1) = 16 * 2 ^ y := by
          rw [show y + 3 + 1 = y + 4 by omega, Nat.pow_add]; omega
        omega
      exact hp _ rfl
    rw [this]

theorem keyLen_bounds (tag : Nat) (h : tag < 2 ^ 29) : 1 ≤ keyLen tag ∧ keyLen tag ≤ 5 := by
  unfold keyLen
  have hs : tag <<< 3 = 8 * tag := by rw [Nat.shiftLeft_eq]; omega
  rw [hs, Nat.mod_eq_of_lt (by omega), encodedLenVarint_eq _ (by omega)]
  have hL : Nat.log2 (8 * tag) < 32 := by
    by_cases h0 : tag = 0
    · subst h0; decide
    · exact (Nat.log2_lt (by omega)).2 (by omega)
  omega

end Measured.Proto
