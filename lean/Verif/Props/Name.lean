import Verif.Proof.Name

/-! # C38, C39, C40: metric and label names -/

namespace Measured
open Measured.Spec

/-- C38. `MetricName::from_str` accepts exactly the documented regex, and panics on everything else. -/
theorem C38_from_str (s : Bytes) :
    (constAssertMetricName s = .ok () ↔ MetricNameRe s) ∧
    (constAssertMetricName s = .panic ↔ ¬ MetricNameRe s) := by
  have key : (constAssertMetricName s = .ok () ↔ MetricNameRe s) ∧ constAssertMetricName s ≠ .err := by
    cases s with
    | nil => simp [constAssertMetricName, MetricNameRe, matchesFirstRest]
    | cons b bs =>
      have h := constMetricLoop_spec (b :: bs)
      have hre : MetricNameRe (b :: bs) ↔
          (∀ x ∈ b :: bs, inClass (alpha ++ digit ++ underscore ++ colon) x) ∧ isDigit b = false := by
        constructor
        · rintro ⟨c, cs, heq, h1, h2⟩
          cases heq
          rw [metricFirstClass] at h1
          exact ⟨List.forall_mem_cons.2 ⟨h1.1, h2⟩, h1.2⟩
        · rintro ⟨h1, h2⟩
          rw [List.forall_mem_cons] at h1
          exact ⟨b, bs, rfl, (metricFirstClass b).2 ⟨h1.1, h2⟩, h1.2⟩
      rw [hre, ← h.1]
      simp only [constAssertMetricName]
      cases hl : constMetricLoop (b :: bs) <;> cases hd : isDigit b <;> simp_all
  refine ⟨key.1, ?_⟩
  rw [← key.1]
  cases h : constAssertMetricName s <;> simp_all

example : constAssertMetricName b!"http_requests:rate5m" = .ok () := by decide
example : constAssertMetricName b!"5m" = .panic := by decide

/-- C38 fails for `MetricName::try_from_str`: it accepts `a-b`, which is not a metric name. -/
theorem C38_try_from_str_refuted :
    ∃ s, tryAssertMetricName s = .ok () ∧ ¬ MetricNameRe s := by
  refine ⟨b!"a-b", by rfl, ?_⟩
  intro h
  have h' := metricRe_all h 0x2d (by decide)
  rw [metricClass] at h'
  revert h'; decide

/-- What `try_from_str` does accept: the regex `[a-zA-Z_:-][a-zA-Z0-9_:-]*`; in particular it never
rejects a valid name. -/
theorem C38_try_from_str_exact (s : Bytes) :
    tryAssertMetricName s = .ok () ↔
      matchesFirstRest (alpha ++ underscore ++ colon ++ [(0x2d, 0x2d)])
        (alpha ++ digit ++ underscore ++ colon ++ [(0x2d, 0x2d)]) s := by
  have hdash : ∀ (c : Class) (x : Byte), inClass (c ++ [(0x2d, 0x2d)]) x ↔ inClass c x ∨ x = 0x2d := by
    intro c x
    simp only [inClass, List.mem_append, List.mem_singleton, UInt8.eq_iff_toNat]
    constructor
    · rintro ⟨r, hr | rfl, h⟩
      · exact .inl ⟨r, hr, h⟩
      · right; simp at h ⊢; omega
    · rintro (⟨r, hr, h⟩ | h)
      · exact ⟨r, .inl hr, h⟩
      · exact ⟨_, .inr rfl, by simp at h ⊢; omega⟩
  cases s with
  | nil => simp [tryAssertMetricName, matchesFirstRest]
  | cons b bs =>
    have h := tryMetricLoop_spec (b :: bs)
    have hb : isDigit 0x2d = false := by decide
    have : (tryAssertMetricName (b :: bs) = .ok () ↔
        tryMetricLoop (b :: bs) = .ok () ∧ isDigit b = false) := by
      simp only [tryAssertMetricName]
      rcases h.2 with h' | h' <;> rw [h'] <;> cases hd : isDigit b <;> simp
    rw [this, h.1]
    constructor
    · rintro ⟨h1, h2⟩
      rw [List.forall_mem_cons] at h1
      refine ⟨b, bs, rfl, ?_, fun x hx => (hdash _ x).2 (h1.2 x hx)⟩
      rw [hdash, metricFirstClass]
      exact h1.1.imp (fun h => ⟨h, h2⟩) id
    · rintro ⟨c, cs, heq, h1, h2⟩
      cases heq
      rw [hdash, metricFirstClass] at h1
      refine ⟨List.forall_mem_cons.2 ⟨h1.imp And.left id, fun x hx => (hdash _ x).1 (h2 x hx)⟩, ?_⟩
      rcases h1 with h1 | rfl
      · exact h1.2
      · exact hb

/-- C38 for `try_from_str`, on strings without `-` (the missing part is refuted above). -/
theorem C38_try_from_str_partial (s : Bytes) (hs : (0x2d : Byte) ∉ s) :
    tryAssertMetricName s = .ok () ↔ MetricNameRe s := by
  rw [← (C38_from_str s).1]
  cases s with
  | nil => simp [tryAssertMetricName, constAssertMetricName]
  | cons b bs =>
    have h := tryMetricLoop_spec (b :: bs)
    have h' := constMetricLoop_spec (b :: bs)
    have heq : tryMetricLoop (b :: bs) = .ok () ↔ constMetricLoop (b :: bs) = .ok () := by
      rw [h.1, h'.1]
      constructor
      · intro hx x hm
        rcases hx x hm with h1 | rfl
        · exact h1
        · exact absurd hm hs
      · exact fun hx x hm => .inl (hx x hm)
    simp only [tryAssertMetricName, constAssertMetricName]
    rcases h.2 with ht | ht
    · rw [ht, heq.1 ht]; cases isDigit b <;> simp
    · have : constMetricLoop (b :: bs) ≠ .ok () := by
        rw [Ne, ← heq, ht]; simp
      rw [ht]
      cases hc : constMetricLoop (b :: bs) <;> simp_all

example : tryAssertMetricName b!"process_cpu:total" = .ok () := by rfl
example : tryAssertMetricName b!"0day" = .error .startsWithNumber := by rfl

/-- C39. `LabelName::from_str` accepts exactly the documented regex, and panics on everything else. -/
theorem C39_label_name (s : Bytes) :
    (assertLabelName s = .ok () ↔ LabelNameRe s) ∧
    (assertLabelName s = .panic ↔ ¬ LabelNameRe s) := by
  have key : (assertLabelName s = .ok () ↔ LabelNameRe s) ∧ assertLabelName s ≠ .err := by
    cases s with
    | nil => simp [assertLabelName, LabelNameRe, matchesFirstRest]
    | cons b bs =>
      have h := labelNameLoop_spec (b :: bs)
      have hre : LabelNameRe (b :: bs) ↔
          (∀ x ∈ b :: bs, inClass (alpha ++ digit ++ underscore) x) ∧ isDigit b = false := by
        constructor
        · rintro ⟨c, cs, heq, h1, h2⟩
          cases heq
          rw [labelFirstClass] at h1
          exact ⟨List.forall_mem_cons.2 ⟨h1.1, h2⟩, h1.2⟩
        · rintro ⟨h1, h2⟩
          rw [List.forall_mem_cons] at h1
          exact ⟨b, bs, rfl, (labelFirstClass b).2 ⟨h1.1, h2⟩, h1.2⟩
      rw [hre, ← h.1]
      simp only [assertLabelName]
      cases hl : labelNameLoop (b :: bs) <;> cases hd : isDigit b <;> simp_all
  refine ⟨key.1, ?_⟩
  rw [← key.1]
  cases h : assertLabelName s <;> simp_all

example : assertLabelName b!"status_code" = .ok () := by decide
example : assertLabelName b!"status:code" = .panic := by decide

/-- C40. Writing any nesting of namespaces and suffixes into a buffer appends the qualified name. -/
theorem C40_composition (n : Name) (buf : Bytes) :
    (n.encodeUtf8 : RS Bytes Unit) buf =
      (.ok (), buf ++ qualifiedName n.namespaces n.base (n.suffixes.map Suffix.text)) := by
  rw [Name.encodeUtf8_bytes, Name.render_qualified]

/-- C40. `encode_len()` is exactly the number of bytes `encode_utf8` appends to a buffer. -/
theorem C40_length (n : Name) (buf : Bytes) :
    ((n.encodeUtf8 : RS Bytes Unit) buf).2.length = buf.length + n.encodeLen := by
  rw [Name.encodeUtf8_bytes, Name.encodeLen_eq]; simp

/-- C40. Namespaces are accepted by `MetricName::from_str`, so are base names: then the composed name is
again a valid metric name. -/
theorem C40_valid (n : Name) (hns : ∀ x ∈ n.namespaces, constAssertMetricName x = .ok ())
    (hb : constAssertMetricName n.base = .ok ()) :
    MetricNameRe (qualifiedName n.namespaces n.base (n.suffixes.map Suffix.text)) := by
  rw [← Name.render_qualified]
  exact Name.render_valid n (fun x hx => (C38_from_str x).1.1 (hns x hx)) ((C38_from_str _).1.1 hb)

example : ((Name.ns b!"a" (.suffix (.ns b!"b" (.str b!"hits")) .total)).encodeUtf8 : RS Bytes Unit) [] =
    (.ok (), b!"a_b_hits_total") := by decide
example : (Name.ns b!"a" (.suffix (.ns b!"b" (.str b!"hits")) .total)).encodeLen = 14 := by decide

end Measured
