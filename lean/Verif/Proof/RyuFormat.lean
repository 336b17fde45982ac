import Verif.Proof.RyuText

/-! # `ryu::Buffer::format`, and readers of what it writes -/

set_option exponentiation.threshold 3000

namespace Measured
open Measured.Spec F64

namespace Ryu

/-! ## Decimal numbers that are rounded to a double -/

theorem sgn_value (neg : Bool) (m : Nat) (e : Int) :
    decimalValue neg m e = (sgn neg : ℚ) * ((decNum m e : ℚ) / decDen e) := by
  rw [dec_value]
  unfold decimalValue sgn
  cases neg <;> simp

theorem roundsTo_round (neg : Bool) (m : Nat) (e : Int) :
    RoundsTo (decimalValue neg m e) (round neg (quarters (decNum m e) (decDen e)) 2) := by
  rw [sgn_value]
  exact round_quarters neg _ _ (decDen_pos e)

theorem round_eq {x : F64} {m : Nat} {e : Int} (h : decMag m e = x.mag) :
    round x.sign (quarters (decNum m e) (decDen e)) 2 = x := by
  apply F64.ext'
  · exact round_sign _ _ _
  · rw [round_mag]; exact h

theorem roundsTo_of_decMag {x : F64} {m : Nat} {e : Int} (h : decMag m e = x.mag) : RoundsTo (decimalValue x.sign m e) x := by
  have := roundsTo_round x.sign m e
  rwa [round_eq h] at this

theorem decMag_of_roundsTo {x : F64} {neg : Bool} {m : Nat} {e : Int} (hf : x.mag < INF) (h0 : x.mag ≠ 0)
    (h : RoundsTo (decimalValue neg m e) x) : neg = x.sign ∧ decMag m e = x.mag := by
  have hm : 0 < m := by
    rcases Nat.eq_zero_or_pos m with rfl | hm
    · exfalso
      have hv : decimalValue neg 0 e = 0 := by simp [decimalValue]
      rw [hv] at h
      have hb : |(0 : ℚ)| < overflowBound := by rw [abs_zero]; unfold overflowBound; norm_num
      have hz : real (make false 0 (by decide)) = 0 := by rw [real_make]; simp [unit_small]
      have := ((h.near hb).2 (make false 0 (by decide)) (finite_make _ (by decide))).1
      rw [hz] at this
      simp only [sub_zero, abs_zero] at this
      have hr : real x = 0 := abs_eq_zero.1 (le_antisymm this (abs_nonneg _))
      rw [real_eq, val_sgn] at hr
      rw [div_eq_zero_iff] at hr
      rcases hr with hr | hr
      · have hr : sgn x.sign * (unit x.mag : Int) = 0 := by exact_mod_cast hr
        rcases Int.mul_eq_zero.1 hr with hr | hr
        · unfold sgn at hr; split at hr <;> omega
        · exact h0 (unit_eq_zero.1 (by omega))
      · exact absurd hr (by positivity)
    · exact hm
  have hpos : (0 : ℚ) < (m : ℚ) * (10 : ℚ) ^ e := mul_pos (by exact_mod_cast hm) (zpow_pos (by norm_num) e)
  have hs : neg = x.sign := by
    cases neg with
    | false =>
      have hv : 0 < decimalValue false m e := by simpa [decimalValue] using hpos
      have := (h.sign hv.ne').2 hv
      simp only [F64.sign]; simp; omega
    | true =>
      have hv : decimalValue true m e < 0 := by simpa [decimalValue] using hpos
      have := mt (h.sign hv.ne).1 (by linarith)
      simp only [F64.sign]; simp; omega
  refine ⟨hs, ?_⟩
  have := h.unique (roundsTo_round neg m e) (by rw [round_sign, hs])
  rw [this, round_mag]
  rfl

/-! ## The digits that are written -/

/-- As few digits as possible. -/
theorem shortest_few {b m : Nat} {e : Int} (hb : b < INF) (hb0 : 0 < b) (h : decMag m e = b)
    (hmax : ∀ m' e', decMag m' e' = b → e' ≤ e) {m' : Nat} {e' : Int} (h' : decMag m' e' = b) {n : Nat} (hn : m' < 10 ^ n) :
    m < 10 ^ n := by
  by_contra hc
  have hm' := (exp_le hb hb0 h').2
  have hle := hmax _ _ h'
  have e1 : (m' : ℚ) * (10 : ℚ) ^ e' ≤ ((1 : Nat) : ℚ) * (10 : ℚ) ^ (e + n) := by
    rw [Nat.cast_one, one_mul, add_comm, zpow_add₀ (by norm_num), zpow_natCast]
    refine mul_le_mul (by exact_mod_cast hn.le) (zpow_le_zpow_right₀ (by norm_num) hle) (zpow_pos (by norm_num) _).le (by positivity)
  have e2 : ((1 : Nat) : ℚ) * (10 : ℚ) ^ (e + n) ≤ m * (10 : ℚ) ^ e := by
    rw [Nat.cast_one, one_mul, add_comm, zpow_add₀ (by norm_num), zpow_natCast]
    exact mul_le_mul_of_nonneg_right (by exact_mod_cast not_lt.1 hc) (zpow_pos (by norm_num) _).le
  have g1 := decMag_mono e1
  have g2 := decMag_mono e2
  have := hmax 1 (e + n) (by omega)
  have hn0 : n = 0 := by omega
  subst hn0
  simp at hn
  omega

/-- The power of ten of the first digit. -/
theorem first_digit {b m : Nat} {e : Int} (hb : b < INF) (hb0 : 0 < b) (h : decMag m e = b) :
    -323 ≤ ((decDigits m).length : Int) + e ∧ ((decDigits m).length : Int) + e ≤ 309 := by
  have hm := (exp_le hb hb0 h).2
  have h1 := lt_pow_len m
  have h2 := pow_len_le hm
  have hl := decDigits_len_pos m
  generalize (decDigits m).length = l at *
  have hP : (0 : ℚ) < (10 : ℚ) ^ e := zpow_pos (by norm_num) e
  constructor
  · by_contra hc
    have : (m : ℚ) * (10 : ℚ) ^ e ≤ ((1 : Nat) : ℚ) * (10 : ℚ) ^ (-324 : Int) := by
      rw [Nat.cast_one, one_mul]
      refine le_trans (b := (10 : ℚ) ^ ((l : Int) + e)) ?_ (zpow_le_zpow_right₀ (by norm_num) (by omega))
      rw [zpow_add₀ (by norm_num), zpow_natCast]
      exact mul_le_mul_of_nonneg_right (by exact_mod_cast h1.le) hP.le
    have := decMag_mono this
    rw [decMag_bottom] at this
    omega
  · by_contra hc
    have : ((1 : Nat) : ℚ) * (10 : ℚ) ^ (309 : Int) ≤ (m : ℚ) * (10 : ℚ) ^ e := by
      rw [Nat.cast_one, one_mul]
      refine le_trans (b := (10 : ℚ) ^ (((l - 1 : Nat) : Int) + e)) (zpow_le_zpow_right₀ (by norm_num) (by omega)) ?_
      rw [zpow_add₀ (by norm_num), zpow_natCast]
      exact mul_le_mul_of_nonneg_right (by exact_mod_cast h2) hP.le
    have := decMag_mono this
    rw [decMag_top] at this
    omega

/-! ## The text -/

theorem readDigits_all {acc : Nat} {s : Bytes} {n : Nat} (h : readDigits acc s = some n) : ∀ b ∈ s, inRange 0x30 0x39 b = true := by
  induction s generalizing acc with
  | nil => intro b hb; cases hb
  | cons a s ih =>
    unfold readDigits at h
    split at h
    · rename_i ha
      intro b hb
      rcases List.mem_cons.1 hb with rfl | hb
      · exact ha
      · exact ih h b hb
    · cases h

/-- A byte that a number may have. -/
def numByte (b : Byte) : Prop := isLabelByte b = true ∨ b = 0x2e ∨ b = 0x2b ∨ b = 0x2d

theorem numByte_digit {b : Byte} (h : inRange 0x30 0x39 b = true) : numByte b := by
  refine Or.inl ?_
  unfold isLabelByte
  simp [h]

theorem itoa_numByte (k : Int) : ∀ b ∈ itoa k, numByte b := by
  unfold itoa
  intro b hb
  split at hb
  · rcases List.mem_cons.1 hb with rfl | hb
    · exact Or.inr (Or.inr (Or.inr rfl))
    · exact numByte_digit (decDigits_mem _ b hb)
  · exact numByte_digit (decDigits_mem _ b hb)

theorem layout_bytes (m : Nat) (k : Int) : ∀ b ∈ layout m k, numByte b := by
  have hd : ∀ b ∈ decDigits m, numByte b := fun b hb => numByte_digit (decDigits_mem _ b hb)
  have hz : ∀ n, ∀ b ∈ List.replicate n (0x30 : UInt8), numByte b := by
    intro n b hb; rw [(List.mem_replicate.1 hb).2]; exact numByte_digit (by decide)
  have ht : ∀ n, ∀ b ∈ (decDigits m).take n, numByte b := fun n b hb => hd b (List.mem_of_mem_take hb)
  have hr : ∀ n, ∀ b ∈ (decDigits m).drop n, numByte b := fun n b hb => hd b (List.mem_of_mem_drop hb)
  have c1 : ∀ b ∈ b!".0", numByte b := by unfold numByte; decide
  have c2 : ∀ b ∈ b!".", numByte b := by unfold numByte; decide
  have c3 : ∀ b ∈ b!"0.", numByte b := by unfold numByte; decide
  have c4 : ∀ b ∈ b!"e", numByte b := by unfold numByte; decide
  have app : ∀ {a c : Bytes}, (∀ b ∈ a, numByte b) → (∀ b ∈ c, numByte b) → ∀ b ∈ a ++ c, numByte b := by
    intro a c h1 h2 b hb
    exact (List.mem_append.1 hb).elim (h1 b) (h2 b)
  unfold layout
  simp only
  split
  · exact app (app hd (hz _)) c1
  · split
    · exact app (app (ht _) c2) (hr _)
    · split
      · exact app (app c3 (hz _)) hd
      · split
        · exact app (app hd c4) (itoa_numByte _)
        · exact app (app (app (app (ht _) c2) (hr _)) c4) (itoa_numByte _)

/-- There is a point or an `e`. -/
theorem layout_mark (m : Nat) (k : Int) : ∃ b ∈ layout m k, inRange 0x30 0x39 b = false := by
  unfold layout
  simp only
  split
  · exact ⟨0x2e, by simp, by decide⟩
  · split
    · exact ⟨0x2e, by simp, by decide⟩
    · split
      · exact ⟨0x2e, by simp, by decide⟩
      · split
        · exact ⟨0x65, by simp, by decide⟩
        · exact ⟨0x65, by simp, by decide⟩

theorem readInt_mark {w r : Bytes} (hw : w.all decimalDigit = true) (hne : w ≠ [])
    (hm : ∃ b ∈ w ++ r, inRange 0x30 0x39 b = false) : readInt (w ++ r) = none ∧ readInt (0x2d :: (w ++ r)) = none := by
  obtain ⟨c, hc, hcd⟩ := hm
  have hnone : readDigits 0 (w ++ r) = none := by
    cases h : readDigits 0 (w ++ r) with
    | none => rfl
    | some n => rw [readDigits_all h c hc] at hcd; cases hcd
  cases w with
  | nil => exact absurd rfl hne
  | cons a w =>
    simp only [List.all_cons, Bool.and_eq_true] at hw
    rw [List.cons_append] at hnone ⊢
    constructor
    · unfold readInt
      split
      · rfl
      · rfl
      · rename_i h; cases h; exact absurd hw.1 (by decide)
      · rw [hnone]; rfl
    · simp [readInt, hnone]

theorem itoa_len {k : Int} (h1 : -1000 < k) (h2 : k < 1000) : (itoa k).length ≤ (if k < 0 then 4 else 3) := by
  have : (decDigits k.natAbs).length ≤ 3 := by
    rcases Nat.eq_zero_or_pos k.natAbs with h | h
    · rw [h]; decide +kernel
    · exact len_le h (by omega)
  unfold itoa
  split
  · simp only [List.length_cons]; omega
  · exact this

/-- Without the sign at most 23 bytes. -/
theorem layout_len {m : Nat} {k : Int} (hm : 0 < m) (h17 : m < 10 ^ 17) (h1 : -323 ≤ ((decDigits m).length : Int) + k)
    (h2 : ((decDigits m).length : Int) + k ≤ 309) : (layout m k).length ≤ 23 := by
  have hl := len_le hm h17
  have hl0 := decDigits_len_pos m
  have hi := itoa_len (k := ((decDigits m).length : Int) + k - 1) (by omega) (by omega)
  have hi : (itoa (((decDigits m).length : Int) + k - 1)).length ≤ 4 := by split at hi <;> omega
  have b1 : (b!".0").length = 2 := rfl
  have b2 : (b!".").length = 1 := rfl
  have b3 : (b!"0.").length = 2 := rfl
  have b4 : (b!"e").length = 1 := rfl
  unfold layout
  simp only
  split
  · simp only [List.length_append, List.length_replicate, b1]; omega
  · split
    · simp only [List.length_append, List.length_take, List.length_drop, b2]; omega
    · split
      · simp only [List.length_append, List.length_replicate, b3]; omega
      · split
        · simp only [List.length_append, b4]; omega
        · simp only [List.length_append, List.length_take, List.length_drop, b2, b4]; omega

/-- The cases of `format`. -/
theorem format_cases (x : F64) :
    (x.isNaN = true ∧ format x = b!"NaN") ∨
    (x = F64.inf false ∧ format x = b!"inf") ∨ (x = F64.inf true ∧ format x = b!"-inf") ∨
    (x.mag = 0 ∧ format x = (if x.sign then b!"-" else []) ++ b!"0.0") ∨
    (0 < x.mag ∧ x.mag < INF ∧ ∃ m k, shortest x.mag = some (m, k) ∧ format x = (if x.sign then b!"-" else []) ++ layout m k) := by
  unfold format
  by_cases h1 : x.isNaN
  · exact Or.inl ⟨h1, by rw [if_pos h1]⟩
  rw [if_neg h1]
  by_cases h2 : x.isInf
  · have hm : x.mag = INF := by simpa [isInf] using h2
    rw [if_pos h2]
    cases hs : x.sign with
    | false => exact Or.inr (Or.inl ⟨F64.ext' (by rw [hs]; exact (make_sign _ _ _).symm) (by rw [hm]; exact (make_mag _ _ _).symm), rfl⟩)
    | true => exact Or.inr (Or.inr (Or.inl ⟨F64.ext' (by rw [hs]; exact (make_sign _ _ _).symm) (by rw [hm]; exact (make_mag _ _ _).symm), rfl⟩))
  rw [if_neg h2]
  by_cases h3 : x.mag = 0
  · exact Or.inr (Or.inr (Or.inr (Or.inl ⟨h3, by rw [if_pos h3]⟩)))
  rw [if_neg h3]
  have hlt : x.mag < INF := by
    simp only [isNaN, isInf, decide_eq_true_eq, beq_iff_eq] at h1 h2
    omega
  obtain ⟨m, k, hs, _⟩ := shortest_spec hlt (by omega)
  exact Or.inr (Or.inr (Or.inr (Or.inr ⟨by omega, hlt, m, k, hs, by rw [hs]⟩)))

/-- What is found, if it is known where: there is nothing at the next power of ten. -/
theorem shortest_eq {b m : Nat} {e : Int} (hb : b < INF) (hb0 : 0 < b) (h1 : candidate b e = some m)
    (h2 : candidate b (e + 1) = none) : shortest b = some (m, e) := by
  obtain ⟨m', e', hs, _, _, hd, hmax, _⟩ := shortest_spec hb hb0
  have hle := hmax m e (candidate_some hb h1).1
  have hge : e' ≤ e := by
    by_contra hc
    obtain ⟨k, hk⟩ := Int.eq_ofNat_of_zero_le (show 0 ≤ e' - (e + 1) by omega)
    refine candidate_none hb h2 (m' * 10 ^ k) ?_
    rw [← hd]
    have e1 : ((m' * 10 ^ k : Nat) : ℚ) * (10 : ℚ) ^ (e + 1) = m' * (10 : ℚ) ^ e' := by
      rw [show e' = (k : Int) + (e + 1) by omega, zpow_add₀ (by norm_num) (k : Int), zpow_natCast]
      push_cast
      ring
    exact Nat.le_antisymm (decMag_mono e1.le) (decMag_mono e1.ge)
  have he : e' = e := by omega
  subst he
  have hs' := hs
  unfold shortest at hs'
  rw [(search_some hs').1] at h1
  cases h1
  exact hs

theorem format_eq {x : F64} (m : Nat) (e : Int) (h : 0 < x.mag ∧ x.mag < INF ∧ candidate x.mag e = some m ∧
    candidate x.mag (e + 1) = none) : format x = (if x.sign then b!"-" else []) ++ layout m e := by
  obtain ⟨h0, hf, h1, h2⟩ := h
  rcases format_cases x with ⟨h, _⟩ | ⟨h, _⟩ | ⟨h, _⟩ | ⟨h, _⟩ | ⟨_, _, m', k, hs, hx⟩
  · simp only [isNaN, decide_eq_true_eq] at h; omega
  · rw [h] at hf; unfold F64.inf at hf; rw [make_mag] at hf; omega
  · rw [h] at hf; unfold F64.inf at hf; rw [make_mag] at hf; omega
  · omega
  · rw [shortest_eq hf h0 h1 h2] at hs
    cases hs
    exact hx

/-- The sign in front of a text that begins with digits. -/
theorem readDecimal_signed {w r : Bytes} (hw : w.all decimalDigit = true) (hne : w ≠ []) (s : Bool) {m : Nat} {e : Int}
    (h : readDecimal (w ++ r) = some (false, m, e)) :
    readDecimal ((if s then b!"-" else []) ++ (w ++ r)) = some (s, m, e) := by
  cases s with
  | false => exact h
  | true =>
    refine Eq.trans (b := readDecimal (0x2d :: (w ++ r))) rfl ?_
    rw [readDecimal_neg hw hne, h]
    rfl

/-- A finite number: the digits and the exponent that are read, and what they stand for. -/
theorem format_read {x : F64} (hf : x.mag < INF) :
    ∃ m e, readDecimal (format x) = some (x.sign, m, e) ∧ RoundsTo (decimalValue x.sign m e) x := by
  rcases format_cases x with ⟨h, _⟩ | ⟨h, _⟩ | ⟨h, _⟩ | ⟨h0, hx⟩ | ⟨h0, _, m, k, hs, hx⟩
  · simp only [isNaN, decide_eq_true_eq] at h; omega
  · rw [h] at hf; unfold F64.inf at hf; rw [make_mag] at hf; omega
  · rw [h] at hf; unfold F64.inf at hf; rw [make_mag] at hf; omega
  · refine ⟨0, -1, ?_, roundsTo_of_decMag (by rw [decMag_zero, h0])⟩
    rw [hx]
    cases x.sign <;> decide +kernel
  · obtain ⟨m', e', hs', hm0, _, hd, _⟩ := shortest_spec hf h0
    rw [hs] at hs'
    cases hs'
    obtain ⟨w, r, m', e', hlay, hw, hne, hread, hval⟩ := layout_form m k
    refine ⟨m', e', ?_, ?_⟩
    · rw [hx, hlay]
      exact readDecimal_signed hw hne _ (by rw [← hlay]; exact hread)
    · have := roundsTo_of_decMag hd
      unfold decimalValue at this ⊢
      rwa [hval]

theorem sign_iff (x : F64) : x.sign = true ↔ 2 ^ 63 ≤ x.bits := by simp [F64.sign]

theorem floatText {rf : Bytes → Option F64} (R : ReadsNumbers rf) : FloatText format rf where
  bytes := by
    intro x
    have c : ∀ (s : Bool) (l : Bytes), (∀ b ∈ l, numByte b) → ∀ b ∈ (if s then b!"-" else []) ++ l, numByte b := by
      intro s l hl b hb
      rcases List.mem_append.1 hb with hb | hb
      · cases s with
        | false => cases hb
        | true => rcases List.mem_singleton.1 hb with rfl; exact Or.inr (Or.inr (Or.inr rfl))
      · exact hl b hb
    change ∀ b ∈ format x, numByte b
    rcases format_cases x with ⟨_, h⟩ | ⟨_, h⟩ | ⟨_, h⟩ | ⟨_, h⟩ | ⟨_, _, m, k, _, h⟩
    · rw [h]; unfold numByte; decide
    · rw [h]; unfold numByte; decide
    · rw [h]; unfold numByte; decide
    · rw [h]; exact c _ _ (by unfold numByte; decide)
    · rw [h]; exact c _ _ (layout_bytes m k)
  notInt := by
    intro x
    rcases format_cases x with ⟨_, h⟩ | ⟨_, h⟩ | ⟨_, h⟩ | ⟨_, h⟩ | ⟨_, _, m, k, _, h⟩
    · rw [h]; decide
    · rw [h]; decide
    · rw [h]; decide
    · rw [h]; cases x.sign <;> decide
    · obtain ⟨w, r, _, _, hlay, hw, hne, _, _⟩ := layout_form m k
      have hm := layout_mark m k
      rw [h]
      rw [hlay] at hm ⊢
      cases x.sign with
      | false => exact (readInt_mark hw hne hm).1
      | true => exact (readInt_mark hw hne hm).2
  read := by
    intro x
    by_cases hf : x.mag < INF
    · obtain ⟨m, e, hr, hx⟩ := format_read hf
      obtain ⟨y, hy, hy1, hy2⟩ := R.decimal _ _ _ _ hr
      have hs : y.sign = x.sign := by
        have := sign_iff y
        rw [← hy2] at this
        cases hx' : x.sign <;> cases hy' : y.sign <;> simp_all
      rw [hy, hy1.unique hx hs, if_neg]
      simp only [isNaN, decide_eq_true_eq]; omega
    · rcases format_cases x with ⟨h1, h⟩ | ⟨h1, h⟩ | ⟨h1, h⟩ | ⟨h1, h⟩ | ⟨_, h1, _⟩
      · rw [h, if_pos h1]; exact R.nan
      · rw [h, h1, R.inf.1]; decide
      · rw [h, h1, R.negInf.1]; decide
      · have : 0 < INF := by decide
        omega
      · exact absurd h1 hf

theorem readsSpecial {rf : Bytes → Option F64} (R : ReadsNumbers rf) : ReadsSpecial rf := ⟨R.inf.2, R.negInf.2, R.nan⟩

/-- At most the 24 bytes of `ryu::Buffer`. -/
theorem format_len (x : F64) : (format x).length ≤ 24 := by
  have hsl : ∀ s : Bool, (if s then b!"-" else [] : Bytes).length ≤ 1 := by intro s; cases s <;> decide
  rcases format_cases x with ⟨_, h⟩ | ⟨_, h⟩ | ⟨_, h⟩ | ⟨_, h⟩ | ⟨h0, hf, m, k, hs, h⟩
  · rw [h]; decide
  · rw [h]; decide
  · rw [h]; decide
  · rw [h]; cases x.sign <;> decide
  · obtain ⟨m', e', hs', hm0, h17, hd, _⟩ := shortest_spec hf h0
    rw [hs] at hs'
    cases hs'
    obtain ⟨g1, g2⟩ := first_digit hf h0 hd
    have := layout_len hm0 h17 g1 g2
    have h2 := hsl x.sign
    rw [h, List.length_append]
    omega

end Ryu
end Measured
