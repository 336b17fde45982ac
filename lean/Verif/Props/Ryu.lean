import Verif.Proof.RyuNear
import Verif.Props.Text

/-!
# C81: numbers as text

The text of a number is the shortest decimal number that every correctly rounding reader reads back, of those the nearest
one. So the contract `FloatText`, which the theorems about text and protobuf assume of `ryu`, holds of it.
-/

set_option exponentiation.threshold 3000

namespace Measured
open Measured.Spec F64

/-- C81. The contract: whatever reader rounds correctly, every number is read back (NaN as some NaN), and its text is
neither an integer nor has bytes with another meaning in the text format. -/
theorem C81_contract {rf : Bytes → Option F64} (R : ReadsNumbers rf) : FloatText Ryu.format rf ∧ ReadsSpecial rf :=
  ⟨Ryu.floatText R, Ryu.readsSpecial R⟩

/-- C81. A finite number other than zero is written with at most 17 digits, with as few digits as any decimal number that
is rounded to it, and is the nearest of those that have not more digits. -/
theorem C81_shortest {x : F64} (hf : IsFinite x) (h0 : real x ≠ 0) :
    ∃ neg m e m' e', readDecimal (Ryu.format x) = some (neg, m', e') ∧ decimalValue neg m' e' = decimalValue neg m e ∧
      RoundsTo (decimalValue neg m e) x ∧ m < 10 ^ 17 ∧
      ∀ neg₁ m₁ e₁, RoundsTo (decimalValue neg₁ m₁ e₁) x →
        (∀ n, m₁ < 10 ^ n → m < 10 ^ n) ∧
        ((∀ n, m < 10 ^ n → m₁ < 10 ^ n) → |decimalValue neg m e - real x| ≤ |decimalValue neg₁ m₁ e₁ - real x|) := by
  have hlt : x.mag < INF := by rw [finite_iff] at hf; simpa [isFinite] using hf
  have hpos : 0 < x.mag := by
    rcases Nat.eq_zero_or_pos x.mag with h | h
    · exact absurd (by rw [real_eq, val_sgn, h, unit_small (by decide)]; simp) h0
    · exact h
  obtain ⟨m, e, hs, hm, h17, hd, hmax, hnear⟩ := Ryu.shortest_spec hlt hpos
  rcases Ryu.format_cases x with ⟨h, _⟩ | ⟨h, _⟩ | ⟨h, _⟩ | ⟨h, _⟩ | ⟨_, _, m', k, hs', hx⟩
  · simp only [isNaN, decide_eq_true_eq] at h; omega
  · rw [h] at hlt; unfold F64.inf at hlt; rw [make_mag] at hlt; omega
  · rw [h] at hlt; unfold F64.inf at hlt; rw [make_mag] at hlt; omega
  · omega
  rw [hs] at hs'
  cases hs'
  obtain ⟨w, r, m', e', hlay, hw, hne, hread, hval⟩ := Ryu.layout_form m e
  refine ⟨x.sign, m, e, m', e', ?_, ?_, Ryu.roundsTo_of_decMag hd, h17, ?_⟩
  · rw [hx, hlay]
    exact Ryu.readDecimal_signed hw hne _ (by rw [← hlay]; exact hread)
  · unfold decimalValue; rw [hval]
  · intro neg₁ m₁ e₁ h₁
    obtain ⟨hn, hd₁⟩ := Ryu.decMag_of_roundsTo hlt hpos.ne' h₁
    refine ⟨fun n hn => Ryu.shortest_few hlt hpos hd hmax hd₁ hn, fun hfew => ?_⟩
    have := Ryu.shortest_near hlt hpos hd hmax hnear hd₁ hfew
    have hr : real x = (if x.sign then -1 else 1) * Ryu.num x.mag := by
      rw [real_eq, val_sgn]
      unfold Ryu.num sgn
      cases x.sign <;> simp [neg_div]
    have habs : ∀ q : ℚ, |(if x.sign then -1 else 1) * q - real x| = |q - Ryu.num x.mag| := by
      intro q
      rw [hr, ← mul_sub, abs_mul]
      cases x.sign <;> simp
    rw [hn]
    unfold decimalValue
    rw [habs, habs]
    exact this

/-- C81. In terms of texts: every text that a correctly rounding reader reads as the number has at least as many digits. -/
theorem C81_texts {rf : Bytes → Option F64} (R : ReadsNumbers rf) {x : F64} (hf : IsFinite x) (h0 : real x ≠ 0) :
    ∃ neg m e m' e', readDecimal (Ryu.format x) = some (neg, m', e') ∧ decimalValue neg m' e' = decimalValue neg m e ∧
      ∀ t neg₁ m₁ e₁, readDecimal t = some (neg₁, m₁, e₁) → rf t = some x → ∀ n, m₁ < 10 ^ n → m < 10 ^ n := by
  obtain ⟨neg, m, e, m', e', h1, h2, _, _, h3⟩ := C81_shortest hf h0
  refine ⟨neg, m, e, m', e', h1, h2, fun t neg₁ m₁ e₁ ht hx => ?_⟩
  obtain ⟨y, hy, hy', _⟩ := R.decimal _ _ _ _ ht
  rw [hx] at hy
  cases hy
  exact (h3 neg₁ m₁ e₁ hy').1

/-- C81. Every text fits in the buffer of `ryu`. -/
theorem C81_length (x : F64) : (Ryu.format x).length ≤ 24 := Ryu.format_len x

/-- C81. Two numbers with the same text are the same number, or both NaN. -/
theorem C81_injective {x y : F64} (h : Ryu.format x = Ryu.format y) : x = y ∨ (x.isNaN = true ∧ y.isNaN = true) := by
  have key := (Ryu.floatText Ryu.parse_reads).read
  have hx := key x
  have hy := key y
  rw [h] at hx
  rw [hx] at hy
  by_cases h1 : x.isNaN = true <;> by_cases h2 : y.isNaN = true
  · exact Or.inr ⟨h1, h2⟩
  · rw [if_pos h1, if_neg h2] at hy
    cases hy
    exact absurd (by decide) h2
  · rw [if_neg h1, if_pos h2] at hy
    cases hy
    exact absurd (by decide) h1
  · rw [if_neg h1, if_neg h2] at hy
    exact Or.inl (Option.some.inj hy)

/-- C81. There is a reader that rounds correctly. -/
theorem C81_reader : ReadsNumbers Ryu.parse := Ryu.parse_reads

/-- C81. So samples are read back with nothing assumed of the writer of numbers: C32 for this one. -/
theorem C81_sample {rf : Bytes → Option F64} (R : ReadsNumbers rf) (n : Name) (ls : Labels) (v : MValue) (st : TState) (w : Bytes)
    (hn : MetricNameRe n.text) (hl : ∀ l ∈ ls, LabelNameRe l.1) :
    ∃ line s, textValue Ryu.format n ls v ⟨st, w⟩ = (.ok (), ⟨.metrics, w ++ line ++ b!"\n"⟩) ∧ (∀ b ∈ line, b ≠ 0x0a) ∧
      readSample rf line = some s ∧ s.name = n.text ∧ LabelsRead rf ls s.labels ∧ s.value = v.shown :=
  C32_sample_reads_back (Ryu.floatText R) n ls v st w hn hl

/-! ## Examples -/

/-- 0.1, 1/3, 1e21, the smallest and the largest number, and one of those between which a digit more is needed. -/
example : Ryu.format ⟨0x3fb999999999999a, by decide⟩ = b!"0.1" :=
  (Ryu.format_eq 1 (-1) (by decide +kernel)).trans (by decide +kernel)
example : Ryu.format ⟨0x3fd5555555555555, by decide⟩ = b!"0.3333333333333333" :=
  (Ryu.format_eq 3333333333333333 (-16) (by decide +kernel)).trans (by decide +kernel)
example : Ryu.format ⟨0x444b1ae4d6e2ef50, by decide⟩ = b!"1e21" :=
  (Ryu.format_eq 1 (21) (by decide +kernel)).trans (by decide +kernel)
example : Ryu.format ⟨0x8000000000000001, by decide⟩ = b!"-5e-324" :=
  (Ryu.format_eq 5 (-324) (by decide +kernel)).trans (by decide +kernel)
example : Ryu.format ⟨0x7fefffffffffffff, by decide⟩ = b!"1.7976931348623157e308" :=
  (Ryu.format_eq 17976931348623157 (292) (by decide +kernel)).trans (by decide +kernel)
example : Ryu.format ⟨0x8000000000000000, by decide⟩ = b!"-0.0" := by decide +kernel
example : Ryu.format ⟨0x3fd3333333333334, by decide⟩ = b!"0.30000000000000004" :=
  (Ryu.format_eq 30000000000000004 (-17) (by decide +kernel)).trans (by decide +kernel)
/-- The longest texts have 24 bytes. -/
example : (Ryu.format ⟨0x8010000000000000, by decide⟩).length = 24 := by
  rw [Ryu.format_eq 22250738585072014 (-324) (by decide +kernel)]; decide +kernel
/-- Other texts of 0.1, and texts that are no numbers. -/
example : Ryu.parse b!"+0.10000000000000000555e0" = Ryu.parse b!"1E-1" ∧ Ryu.parse b!".1" = Ryu.parse b!"0.1" ∧
    Ryu.parse b!"." = none ∧ Ryu.parse b!"1e" = none ∧ Ryu.parse b!"0x1" = none ∧ Ryu.parse b!"" = none := by decide +kernel
example : IsFinite ⟨0x3fb999999999999a, by decide⟩ ∧ real ⟨0x3fb999999999999a, by decide⟩ ≠ 0 := by
  refine ⟨by unfold IsFinite; decide, ?_⟩
  rw [real_eq, div_ne_zero_iff]
  refine ⟨?_, by positivity⟩
  have : F64.val ⟨0x3fb999999999999a, by decide⟩ ≠ 0 := by decide +kernel
  exact_mod_cast this

end Measured
