import Verif.Model.Name
import Verif.Spec.Name

/-! Helper lemmas about names. -/

namespace Measured
open Measured.Spec

theorem UInt8.eq_iff_toNat (a b : UInt8) : a = b ↔ a.toNat = b.toNat :=
  ⟨fun h => h ▸ rfl, UInt8.toNat_inj.1⟩

theorem metricClass (b : Byte) :
    inClass (alpha ++ digit ++ underscore ++ colon) b ↔
      (isDigit b || isUpper b || isLower b || b == 0x5f || b == 0x3a) = true := by
  simp only [inClass, alpha, digit, underscore, colon, isDigit, isUpper, isLower]
  simp [UInt8.eq_iff_toNat]
  omega

theorem metricFirstClass (b : Byte) :
    inClass (alpha ++ underscore ++ colon) b ↔
      inClass (alpha ++ digit ++ underscore ++ colon) b ∧ isDigit b = false := by
  simp only [inClass, alpha, digit, underscore, colon, isDigit]
  simp
  omega

theorem labelClass (b : Byte) :
    inClass (alpha ++ digit ++ underscore) b ↔
      (isDigit b || isUpper b || isLower b || b == 0x5f) = true := by
  simp only [inClass, alpha, digit, underscore, isDigit, isUpper, isLower]
  simp [UInt8.eq_iff_toNat]
  omega

theorem labelFirstClass (b : Byte) :
    inClass (alpha ++ underscore) b ↔
      inClass (alpha ++ digit ++ underscore) b ∧ isDigit b = false := by
  simp only [inClass, alpha, digit, underscore, isDigit]
  simp
  omega

theorem constMetricLoop_spec (s : Bytes) :
    (constMetricLoop s = .ok () ↔ ∀ x ∈ s, inClass (alpha ++ digit ++ underscore ++ colon) x) ∧
    constMetricLoop s ≠ .err := by
  induction s with
  | nil => simp [constMetricLoop]
  | cons b bs ih =>
    simp only [List.forall_mem_cons, metricClass b, constMetricLoop, constMetricByte]
    split <;> simp_all

theorem labelNameLoop_spec (s : Bytes) :
    (labelNameLoop s = .ok () ↔ ∀ x ∈ s, inClass (alpha ++ digit ++ underscore) x) ∧
    labelNameLoop s ≠ .err := by
  induction s with
  | nil => simp [labelNameLoop]
  | cons b bs ih =>
    simp only [List.forall_mem_cons, labelClass b, labelNameLoop]
    split <;> simp_all

theorem tryMetricLoop_spec (s : Bytes) :
    (tryMetricLoop s = .ok () ↔
      ∀ x ∈ s, inClass (alpha ++ digit ++ underscore ++ colon) x ∨ x = 0x2d) ∧
    (tryMetricLoop s = .ok () ∨ tryMetricLoop s = .error .invalidChars) := by
  induction s with
  | nil => simp [tryMetricLoop]
  | cons b bs ih =>
    simp only [List.forall_mem_cons, metricClass b, tryMetricLoop]
    split <;> rename_i h
    · refine ⟨?_, ih.2⟩
      rw [ih.1]
      constructor
      · intro h'
        refine ⟨?_, h'⟩
        simp at h ⊢
        grind
      · exact fun h' => h'.2
    · simp at h ⊢
      grind

/-- All bytes an encoder writes, in order (used to state effects on buffers). -/
def Name.render : Name → Bytes
  | .str s => s
  | .ns p inner => p ++ b!"_" ++ inner.render
  | .suffix inner s => inner.render ++ s.text

theorem Name.encodeUtf8_bytes (n : Name) (buf : Bytes) :
    (n.encodeUtf8 : RS Bytes Unit) buf = (.ok (), buf ++ n.render) := by
  induction n generalizing buf with
  | str s => rfl
  | ns p inner ih =>
    simp only [Name.encodeUtf8]
    rw [RS.bind_ok (writeAll_bytes _ _), RS.bind_ok (writeAll_bytes _ _), ih]
    simp [Name.render]
  | suffix inner s ih =>
    simp only [Name.encodeUtf8]
    rw [RS.bind_ok (ih _), writeAll_bytes]
    simp [Name.render]

theorem Name.encodeLen_eq (n : Name) : n.encodeLen = n.render.length := by
  induction n with
  | str s => rfl
  | ns p inner ih => simp [Name.encodeLen, Name.render, ih]; omega
  | suffix inner s ih => cases s <;> simp [Name.encodeLen, Name.render, ih, Suffix.len, Suffix.text]

/-- Namespaces, outermost first. -/
def Name.namespaces : Name → List Bytes
  | .str _ => []
  | .ns p inner => p :: inner.namespaces
  | .suffix inner _ => inner.namespaces

/-- The innermost string. -/
def Name.base : Name → Bytes
  | .str s => s
  | .ns _ inner => inner.base
  | .suffix inner _ => inner.base

/-- Suffixes, innermost first. -/
def Name.suffixes : Name → List Suffix
  | .str _ => []
  | .ns _ inner => inner.suffixes
  | .suffix inner s => inner.suffixes ++ [s]

theorem Name.render_qualified (n : Name) :
    n.render = qualifiedName n.namespaces n.base (n.suffixes.map Suffix.text) := by
  induction n with
  | str s => simp [Name.render, qualifiedName, namespaces, base, suffixes]
  | ns p inner ih => simp [Name.render, qualifiedName, namespaces, base, suffixes, ih]
  | suffix inner s ih => simp [Name.render, qualifiedName, namespaces, base, suffixes, ih]

theorem metricRe_append {a b : Bytes} (ha : MetricNameRe a)
    (hb : ∀ x ∈ b, inClass (alpha ++ digit ++ underscore ++ colon) x) : MetricNameRe (a ++ b) := by
  obtain ⟨c, cs, rfl, h1, h2⟩ := ha
  refine ⟨c, cs ++ b, rfl, h1, ?_⟩
  intro x hx
  rcases List.mem_append.1 hx with h | h
  · exact h2 x h
  · exact hb x h

theorem metricRe_all {a : Bytes} (ha : MetricNameRe a) :
    ∀ x ∈ a, inClass (alpha ++ digit ++ underscore ++ colon) x := by
  obtain ⟨c, cs, rfl, h1, h2⟩ := ha
  intro x hx
  rcases List.mem_cons.1 hx with rfl | h
  · exact ((metricFirstClass _).1 h1).1
  · exact h2 x h

theorem suffix_class (s : Suffix) :
    ∀ x ∈ s.text, inClass (alpha ++ digit ++ underscore ++ colon) x := by
  intro x hx
  rw [metricClass]
  revert x
  cases s <;> decide

theorem Name.render_valid (n : Name) (hns : ∀ x ∈ n.namespaces, MetricNameRe x)
    (hb : MetricNameRe n.base) : MetricNameRe n.render := by
  induction n with
  | str s => exact hb
  | ns p inner ih =>
    simp only [namespaces, List.forall_mem_cons, base] at hns hb
    have h := ih hns.2 hb
    simp only [Name.render]
    refine metricRe_append (metricRe_append hns.1 ?_) (metricRe_all h)
    intro x hx
    rw [metricClass]
    revert x; decide
  | suffix inner s ih =>
    exact metricRe_append (ih hns hb) (suffix_class s)

end Measured
