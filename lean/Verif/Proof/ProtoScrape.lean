import Verif.Proof.ProtoFamily

/-! A whole scrape decodes to its families. -/

namespace Measured.Proto
open Measured.Spec

/-! ## Sizes -/

theorem varintLoop_le (n v : Nat) : (encodeVarintLoop n v).length ≤ n := by
  induction n generalizing v with
  | zero => simp [encodeVarintLoop]
  | succ n ih =>
    unfold encodeVarintLoop
    split
    · simp
    · simp [ih]

theorem varint_le (v : Nat) : (encodeVarint v).length ≤ 10 := varintLoop_le 10 v
theorem key_le (t : Nat) (w : WireType) : (encodeKey t w).length ≤ 10 := varintLoop_le 10 _

theorem bytesField_le (t : Nat) (b : Bytes) : (encField (t, .bytes b)).length ≤ 20 + b.length := by
  have h1 := key_le t .lengthDelimited
  have h2 := varint_le b.length
  simp only [encField, List.length_append]; omega

theorem varintField_le (t v : Nat) : (encField (t, .varint v)).length ≤ 20 := by
  have h1 := key_le t .varint
  have h2 := varint_le v
  simp only [encField, List.length_append]; omega

theorem encFields_nil : encFields [] = [] := rfl

theorem labelField_le (ryu : F64 → Bytes) (l : Bytes × LVal) :
    (encField (labelField ryu l)).length ≤ labelSize (labelText ryu) l := by
  have h1 := bytesField_le 1 (encFields (pairFields ryu l))
  have h2 := bytesField_le 1 l.1
  have h3 := bytesField_le 2 (labelText ryu l.2)
  have h4 : (encFields (pairFields ryu l)).length =
      (encField (1, .bytes l.1)).length + (encField (2, .bytes (labelText ryu l.2))).length := by
    simp [pairFields, encFields]
  unfold labelField labelSize
  omega

theorem encFields_map_le {α : Type} (g : α → Nat × WireVal) (size : α → Nat) (l : List α)
    (h : ∀ a ∈ l, (encField (g a)).length ≤ size a) : (encFields (l.map g)).length ≤ (l.map size).sum := by
  induction l with
  | nil => simp [encFields_nil]
  | cons a l ih =>
    have h1 := h a (by simp)
    have h2 := ih fun a ha => h a (by simp [ha])
    rw [List.map_cons, encFields_cons, List.length_append, List.map_cons, List.sum_cons]; omega

theorem metricFields_le (ryu : F64 → Bytes) (t : Nat) (x : F64) (ls : Labels) :
    (encFields (metricFields ryu t x ls)).length ≤ 40 + (ls.map (labelSize (labelText ryu))).sum := by
  have h1 := encFields_map_le (labelField ryu) (labelSize (labelText ryu)) ls fun l _ => labelField_le ryu l
  have h2 := bytesField_le t (encFields (valueFields x))
  have h3 := valueFields_length x
  have h4 : doubleLen 1 = 9 := by decide
  rw [metricFields, encFields_append, encFields_cons, encFields_nil, List.length_append, List.append_nil]
  omega

theorem sampleF_le (ryu : F64 → Bytes) (s : Labels × Metric) :
    (encField (sampleF ryu s)).length ≤ sampleSize (labelText ryu) s := by
  have h1 := metricFields_le ryu (sampleTag s.2) (sampleDouble s.2) s.1
  have h2 := bytesField_le 4 (encFields (metricFields ryu (sampleTag s.2) (sampleDouble s.2) s.1))
  unfold sampleF sampleSize
  omega

theorem sample_fits {ryu : F64 → Bytes} {s : Labels × Metric} (hk : s.2.kind ≠ .histogram)
    (h : sampleSize (labelText ryu) s < 2 ^ 64) : SampleFits ryu s := by
  refine ⟨?_, hk⟩
  have h1 := metricFields_le ryu (sampleTag s.2) (sampleDouble s.2) s.1
  unfold sampleSize at h
  omega

theorem headF_le (st : PState) (f : FamilyIn) :
    (encFields (headF st f)).length ≤ 60 + f.name.render.length + (f.help.getD []).length := by
  have h1 := bytesField_le 1 f.name.render
  have h3 := varintField_le 3 (kindCode f.kind)
  have e1 : encField (nameF f.name) = encField (1, .bytes f.name.render) := rfl
  unfold headF
  cases hh : f.help with
  | some t =>
    have h2 := bytesField_le 2 t
    simp only [List.cons_append, List.nil_append, encFields_cons, encFields_nil, List.length_append, List.append_nil, e1,
      Option.getD_some]
    omega
  | none =>
    simp only
    split
    · simp only [List.cons_append, List.nil_append, encFields_cons, encFields_nil, List.length_append, List.append_nil,
        e1, Option.getD_none, List.length_nil]
      omega
    · simp only [List.nil_append, encFields_cons, encFields_nil, List.append_nil, Option.getD_none, List.length_nil]
      omega

/-- The size of a family under the text encoder's label texts. -/
def fsize (ryu : F64 → Bytes) (f : FamilyIn) : Nat := familySize (labelText ryu) f.name.render f

theorem famF_le (ryu : F64 → Bytes) (st : PState) (f : FamilyIn) : (encFields (famF ryu st f)).length ≤ fsize ryu f := by
  have h1 := headF_le st f
  have h2 := encFields_map_le (sampleF ryu) (sampleSize (labelText ryu)) f.samples fun s _ => sampleF_le ryu s
  rw [famF, encFields_append, List.length_append]
  unfold fsize familySize
  omega

theorem flush_le (a : Abs) : (encFields a.flush.fs).length ≤ (encFields a.fs).length := by
  unfold Abs.flush
  split
  · simp [encFields_nil]
  · exact Nat.le_refl _

theorem family_le (ryu : F64 → Bytes) (a : Abs) (f : FamilyIn) :
    (encFields (a.family ryu f).fs).length ≤ (encFields a.fs).length + fsize ryu f := by
  have h1 := flush_le a
  have h2 := famF_le ryu a.flush.st f
  simp only [Abs.family, encFields_append, List.length_append]
  omega

theorem le_sum_of_mem {α : Type} (g : α → Nat) {l : List α} {a : α} (h : a ∈ l) : g a ≤ (l.map g).sum := by
  induction l with
  | nil => simp at h
  | cons b l ih =>
    rw [List.map_cons, List.sum_cons]
    rcases List.mem_cons.1 h with rfl | h
    · omega
    · have := ih h; omega

theorem family_samples_fit {ryu : F64 → Bytes} {f : FamilyIn} (hk : ∀ s ∈ f.samples, s.2.kind ≠ .histogram)
    (h : fsize ryu f < 2 ^ 64) : ∀ s ∈ f.samples, SampleFits ryu s := by
  intro s hs
  apply sample_fits (hk s hs)
  have := le_sum_of_mem (sampleSize (labelText ryu)) hs
  unfold fsize familySize at h
  omega

/-- No histograms, which this encoder has no impl for. -/
def NoHist (f : FamilyIn) : Prop := f.kind ≠ .histogram ∧ ∀ s ∈ f.samples, s.2.kind ≠ .histogram

theorem families_ok (m : Mode) (ryu : F64 → Bytes) : ∀ (fs : List FamilyIn) {e : ProtoEnc Bytes} {a : Abs}, Holds e a →
    (∀ f ∈ fs, NoHist f) → (encFields a.fs).length + (fs.map (fsize ryu)).sum < 2 ^ 64 →
    ∃ e', (protoEncoder m ryu).runAll (fs.flatMap FamilyIn.calls) e = (.ok (), e') ∧
      Holds e' (fs.foldl (Abs.family ryu) a) ∧ (encFields (fs.foldl (Abs.family ryu) a).fs).length < 2 ^ 64 ∧
      (fs ≠ [] → Reserved e' (fs.foldl (Abs.family ryu) a)) := by
  intro fs
  induction fs with
  | nil => intro e a h _ hs; exact ⟨e, rfl, h, by simpa using hs, by simp⟩
  | cons f fs ih =>
    intro e a h hh hs
    rw [List.map_cons, List.sum_cons] at hs
    have hl := family_le ryu a f
    have hsz : fsize ryu f < 2 ^ 64 := by omega
    have hhelp : (encFields (a.help f.name (f.help.getD [])).fs).length < 2 ^ 64 := by
      have h1 := flush_le a
      have h2 := bytesField_le 1 f.name.render
      have h3 := bytesField_le 2 (f.help.getD [])
      have h4 : fsize ryu f = 64 + f.name.render.length + (f.help.getD []).length +
        (f.samples.map (sampleSize (labelText ryu))).sum := rfl
      have e1 : encField (nameF f.name) = encField (1, .bytes f.name.render) := rfl
      simp only [Abs.help, encFields_append, encFields_cons, encFields_nil, List.length_append, List.append_nil, e1]
      omega
    obtain ⟨e1, h1, r1⟩ := family_ok m ryu f h (by omega) hhelp (hh f (by simp)).1
      (family_samples_fit (hh f (by simp)).2 hsz)
    obtain ⟨e2, h2, r2, s2, r2'⟩ := ih r1.holds (fun f hf => hh f (by simp [hf])) (by omega)
    refine ⟨e2, ?_, r2, s2, ?_⟩
    · rw [List.flatMap_cons, runAll_append _ _ _ _ _ h1, h2]
    · intro _
      cases fs with
      | nil => 
        have : e2 = e1 := by
          have : ((.ok (), e1) : Out Unit × ProtoEnc Bytes) = (.ok (), e2) := h2
          simpa using this.symm
        subst this
        exact r1
      | cons g fs => exact r2' (by simp)

/-! ## Decoding -/

/-- Pending fields. -/
def PendField (f : Nat × WireVal) : Prop :=
  (∃ b : Bytes, f = (1, .bytes b)) ∨ (∃ b : Bytes, f = (2, .bytes b)) ∨ ∃ v, f = (3, .varint v) ∧ v < 2 ^ 64

/-- Fields without samples. -/
structure Pend (a : Abs) : Prop where
  st : a.st ≠ .metrics
  init : a.st = .init → ∀ f ∈ a.fs, f.1 ≠ 2
  fields : ∀ f ∈ a.fs, PendField f

theorem readAll_append {α β : Type} (f : α → Option β) (l r : List α) {x y : List β} (hl : readAll f l = some x)
    (hr : readAll f r = some y) : readAll f (l ++ r) = some (x ++ y) := by
  induction l generalizing x with
  | nil =>
    simp only [readAll, Option.some.injEq] at hl
    subst hl
    exact hr
  | cons a l ih =>
    simp only [readAll] at hl
    split at hl
    · rename_i b bs h1 h2
      simp only [Option.some.injEq] at hl
      subst hl
      simp only [List.cons_append, readAll, h1, ih h2]
    · simp at hl

theorem readAll_exists {α β : Type} (f : α → Option β) (l : List α) (h : ∀ a ∈ l, ∃ b, f a = some b) :
    ∃ x, readAll f l = some x := by
  induction l with
  | nil => exact ⟨[], rfl⟩
  | cons a l ih =>
    obtain ⟨b, hb⟩ := h a (by simp)
    obtain ⟨x, hx⟩ := ih fun a ha => h a (by simp [ha])
    exact ⟨b :: x, by simp only [readAll, hb, hx]⟩

theorem mem_fieldsOf {t : Nat} {v : WireVal} {fs : PFields} (h : v ∈ fieldsOf t fs) : (t, v) ∈ fs := by
  obtain ⟨⟨t', v'⟩, hf, rfl⟩ := List.mem_map.1 h
  obtain ⟨h1, h2⟩ := List.mem_filter.1 hf
  have : t' = t := by simpa using h2
  rw [← this]; exact h1

theorem pend_bytes {fs : PFields} (h : ∀ f ∈ fs, PendField f) (t : Nat) (ht : t = 1 ∨ t = 2) :
    ∃ x, readAll asBytes (fieldsOf t fs) = some x := by
  apply readAll_exists
  intro v hv
  rcases h _ (mem_fieldsOf hv) with ⟨b, hb⟩ | ⟨b, hb⟩ | ⟨b, hb, _⟩
  · exact ⟨b, by simp_all [asBytes]⟩
  · exact ⟨b, by simp_all [asBytes]⟩
  · simp only [Prod.mk.injEq] at hb; omega

theorem pend_varint {fs : PFields} (h : ∀ f ∈ fs, PendField f) : ∃ x, readAll asVarint (fieldsOf 3 fs) = some x := by
  apply readAll_exists
  intro v hv
  rcases h _ (mem_fieldsOf hv) with ⟨b, hb⟩ | ⟨b, hb⟩ | ⟨b, hb, _⟩
  · simp at hb
  · simp at hb
  · exact ⟨b, by simp_all [asVarint]⟩

theorem optional_last {α : Type} (d : WireVal → Option α) (t : Nat) (fs gs : PFields) {x y : List α}
    (h1 : readAll d (fieldsOf t fs) = some x) (h2 : readAll d (fieldsOf t gs) = some y) :
    optionalField d t (fs ++ gs) = some (x ++ y).getLast? := by
  rw [optionalField, fieldsOf_append, readAll_append d _ _ h1 h2]; rfl

theorem samples_fieldsOf (ryu : F64 → Bytes) (ss : List (Labels × Metric)) (t : Nat) :
    fieldsOf t (ss.map (sampleF ryu)) = if t = 4 then ss.map fun s => (sampleF ryu s).2 else [] := by
  split
  · subst t
    unfold fieldsOf
    rw [List.filter_eq_self.2, List.map_map]
    · rfl
    · intro f hf
      obtain ⟨l, _, rfl⟩ := List.mem_map.1 hf
      simp [sampleF]
  · apply fieldsOf_none
    intro f hf
    obtain ⟨l, _, rfl⟩ := List.mem_map.1 hf
    simp only [sampleF]; omega

theorem decode_sample {ryu : F64 → Bytes} {s : Labels × Metric} (h : SampleFits ryu s) :
    asMessage decodeMetric (sampleF ryu s).2 = some (pmetric ryu (sampleTag s.2) (sampleDouble s.2) s.1) := by
  apply decode_metric _ h.1
  obtain ⟨ls, x⟩ := s
  cases x <;> simp [sampleTag]

/-- The decoded family. -/
def pfamily (ryu : F64 → Bytes) (f : FamilyIn) : PFamily :=
  ⟨some f.name.render, f.help, some (kindCode f.kind),
    f.samples.map fun s => pmetric ryu (sampleTag s.2) (sampleDouble s.2) s.1⟩

theorem decode_family {ryu : F64 → Bytes} {a : Abs} (hp : Pend a) {f : FamilyIn}
    (hs : ∀ s ∈ f.samples, SampleFits ryu s) (hleak : a.st = .help → f.help ≠ none) :
    decodeFamily (a.fs ++ famF ryu a.st f) = some (pfamily ryu f) := by
  obtain ⟨x1, h1⟩ := pend_bytes hp.fields 1 (.inl rfl)
  obtain ⟨x2, h2⟩ := pend_bytes hp.fields 2 (.inr rfl)
  obtain ⟨x3, h3⟩ := pend_varint hp.fields
  have h4 : fieldsOf 4 a.fs = [] := by
    apply fieldsOf_none
    intro g hg
    rcases hp.fields g hg with ⟨b, rfl⟩ | ⟨b, rfl⟩ | ⟨b, rfl, _⟩ <;> simp
  have hsam : ∀ t, t ≠ 4 → fieldsOf t (f.samples.map (sampleF ryu)) = [] := by
    intro t ht; rw [samples_fieldsOf, if_neg ht]
  have hmetrics : repeatedField (asMessage decodeMetric) 4 (a.fs ++ famF ryu a.st f) =
      some (f.samples.map fun s => pmetric ryu (sampleTag s.2) (sampleDouble s.2) s.1) := by
    have hh : fieldsOf 4 (headF a.st f) = [] := by
      apply fieldsOf_none
      unfold headF
      intro g hg
      rcases List.mem_append.1 hg with hg | hg
      · cases hf : f.help with
        | some t =>
          rw [hf] at hg
          simp only [List.mem_cons, List.not_mem_nil, or_false] at hg
          rcases hg with rfl | rfl <;> simp [nameF]
        | none =>
          rw [hf] at hg
          simp only at hg
          split at hg
          · simp only [List.mem_cons, List.not_mem_nil, or_false] at hg
            subst hg; simp [nameF]
          · simp at hg
      · simp only [List.mem_cons, List.not_mem_nil, or_false] at hg
        subst hg; simp
    rw [repeatedField, famF, fieldsOf_append, fieldsOf_append, h4, hh, samples_fieldsOf, if_pos rfl]
    exact readAll_map _ _ _ _ fun s hs' => decode_sample (hs s hs')
  have hname : (∃ t, f.help = some t) ∨ (f.help = none ∧ a.st = .init) := by
    cases hf : f.help with
    | some t => exact .inl ⟨t, rfl⟩
    | none =>
      refine .inr ⟨rfl, ?_⟩
      cases ha : a.st with
      | init => rfl
      | help => exact absurd hf (hleak ha)
      | metrics => exact absurd ha hp.st
  have hk : fieldsOf 3 (famF ryu a.st f) = [.varint (kindCode f.kind)] := by
    rw [famF, fieldsOf_append, hsam 3 (by decide), List.append_nil]
    rcases hname with ⟨t, ht⟩ | ⟨hn, hi⟩
    · simp [headF, ht, fieldsOf, nameF]
    · simp [headF, hn, hi, fieldsOf, nameF]
  have hn : fieldsOf 1 (famF ryu a.st f) = [.bytes f.name.render] := by
    rw [famF, fieldsOf_append, hsam 1 (by decide), List.append_nil]
    rcases hname with ⟨t, ht⟩ | ⟨hn, hi⟩
    · simp [headF, ht, fieldsOf, nameF]
    · simp [headF, hn, hi, fieldsOf, nameF]
  have hhelp : optionalField asBytes 2 (a.fs ++ famF ryu a.st f) = some f.help := by
    rcases hname with ⟨t, ht⟩ | ⟨hn, hi⟩
    · have : fieldsOf 2 (famF ryu a.st f) = [.bytes t] := by
        rw [famF, fieldsOf_append, hsam 2 (by decide), List.append_nil]
        simp [headF, ht, fieldsOf, nameF]
      rw [optional_last asBytes 2 _ _ h2 (y := [t]) (by rw [this]; rfl), ht]
      simp
    · have e2 : fieldsOf 2 a.fs = [] := fieldsOf_none (hp.init hi)
      have e3 : fieldsOf 2 (famF ryu a.st f) = [] := by
        rw [famF, fieldsOf_append, hsam 2 (by decide), List.append_nil]
        simp [headF, hn, hi, fieldsOf, nameF]
      rw [optionalField, fieldsOf_append, e2, e3, hn]
      rfl
  rw [decodeFamily, hhelp, hmetrics, optional_last asBytes 1 _ _ h1 (y := [f.name.render]) (by rw [hn]; rfl),
    optional_last asVarint 3 _ _ h3 (y := [kindCode f.kind]) (by rw [hk]; rfl)]
  simp [pfamily]

theorem bytes_fieldOk {t : Nat} {b : Bytes} (ht : t < 2 ^ 29 ∧ t ≠ 0) (hb : b.length < 2 ^ 64) : FieldOk (t, .bytes b) :=
  ⟨ht.1, hb, ht.2⟩

theorem kindCode_lt (k : Kind) : kindCode k < 2 ^ 64 := by cases k <;> decide

theorem fields_ok {ryu : F64 → Bytes} {a : Abs} (hp : Pend a) {f : FamilyIn}
    (hl : (encFields (a.fs ++ famF ryu a.st f)).length < 2 ^ 64) :
    ∀ g ∈ a.fs ++ famF ryu a.st f, FieldOk g := by
  intro g hg
  have hlen := field_le hg
  have hb : ∀ (t : Nat) (b : Bytes), t < 2 ^ 29 ∧ t ≠ 0 → g = (t, .bytes b) → FieldOk g := by
    intro t b ht hgb
    subst hgb
    have := payload_le t b
    exact bytes_fieldOk ht (by omega)
  rcases List.mem_append.1 hg with h | h
  · rcases hp.fields g h with ⟨b, h⟩ | ⟨b, h⟩ | ⟨v, rfl, hv⟩
    · exact hb 1 b (by decide) h
    · exact hb 2 b (by decide) h
    · exact ⟨show 3 < 2 ^ 29 by decide, hv, by simp⟩
  · rcases List.mem_append.1 h with h | h
    · rcases List.mem_append.1 h with h | h
      · cases hf : f.help with
        | some t =>
          rw [hf] at h
          simp only [List.mem_cons, List.not_mem_nil, or_false] at h
          rcases h with h | h
          · exact hb 1 _ (by decide) h
          · exact hb 2 _ (by decide) h
        | none =>
          rw [hf] at h
          simp only at h
          split at h
          · simp only [List.mem_cons, List.not_mem_nil, or_false] at h
            exact hb 1 _ (by decide) h
          · simp at h
      · simp only [List.mem_cons, List.not_mem_nil, or_false] at h
        subst h
        exact ⟨show 3 < 2 ^ 29 by decide, kindCode_lt _, by simp⟩
    · obtain ⟨s, _, rfl⟩ := List.mem_map.1 h
      exact hb 4 _ (by decide) rfl

/-- An empty family leaves pending fields. -/
theorem pend_family {ryu : F64 → Bytes} {a : Abs} (hp : Pend a) {f : FamilyIn} (hs : f.samples = []) :
    Pend (a.family ryu f) ∧ ((a.family ryu f).st = .help ↔ a.st = .help ∨ f.help ≠ none) := by
  have hfl : a.flush = a := by rw [Abs.flush, if_neg hp.st]
  have hfs : (a.family ryu f).fs = a.fs ++ headF a.st f := by simp [Abs.family, hfl, famF, hs]
  have hst : (a.family ryu f).st = if f.help = none then a.st else .help := by simp [Abs.family, hfl, hs]
  refine ⟨⟨?_, ?_, ?_⟩, ?_⟩
  · rw [hst]; split
    · exact hp.st
    · simp
  · rw [hst, hfs]
    intro hi g hg
    cases hf : f.help with
    | some t => rw [hf] at hi; simp at hi
    | none =>
      rw [hf] at hi
      simp only [if_true] at hi
      rcases List.mem_append.1 hg with hg | hg
      · exact hp.init hi g hg
      · simp only [headF, hf, hi, if_true, List.mem_append, List.mem_cons, List.not_mem_nil, or_false] at hg
        rcases hg with rfl | rfl <;> simp [nameF]
  · rw [hfs]
    intro g hg
    rcases List.mem_append.1 hg with hg | hg
    · exact hp.fields g hg
    · rcases List.mem_append.1 hg with h | h
      · cases hf : f.help with
        | some t =>
          rw [hf] at h
          simp only [List.mem_cons, List.not_mem_nil, or_false] at h
          rcases h with rfl | rfl
          · exact .inl ⟨_, rfl⟩
          · exact .inr (.inl ⟨_, rfl⟩)
        | none =>
          rw [hf] at h
          simp only at h
          split at h
          · simp only [List.mem_cons, List.not_mem_nil, or_false] at h
            exact .inl ⟨_, h⟩
          · simp at h
      · simp only [List.mem_cons, List.not_mem_nil, or_false] at h
        exact .inr (.inr ⟨_, h, kindCode_lt _⟩)
  · rw [hst]
    cases hf : f.help with
    | some t => simp
    | none => simp

theorem fold_flush (ryu : F64 → Bytes) (fs : List FamilyIn) (a : Abs) :
    (fs.foldl (Abs.family ryu) a.flush).flush = (fs.foldl (Abs.family ryu) a).flush := by
  cases fs with
  | nil => exact a.flush_flush
  | cons f fs => simp only [List.foldl_cons, Abs.family_flush]

/-- The messages of a scrape. -/
structure Messages (ryu : F64 → Bytes) (fs : List FamilyIn) (ms : List PFields) : Prop where
  ok : ∀ m ∈ ms, (∀ g ∈ m, FieldOk g) ∧ (encFields m).length < 2 ^ 64
  reads : readAll decodeFamily ms = some ((fs.filter fun f => f.samples ≠ []).map (pfamily ryu))

theorem scrape_messages (ryu : F64 → Bytes) : ∀ (fs : List FamilyIn) {a : Abs}, Pend a →
    (∀ f ∈ fs, NoHist f) → (encFields a.fs).length + (fs.map (fsize ryu)).sum < 2 ^ 64 →
    NoPendingHelp (a.st = .help) fs →
    ∃ ms, Messages ryu fs ms ∧
      (fs.foldl (Abs.family ryu) a).flush.w = a.w ++ ms.flatMap (fun m => frame (encFields m)) := by
  intro fs
  induction fs with
  | nil =>
    intro a hp _ _ _
    refine ⟨[], ⟨by simp, rfl⟩, ?_⟩
    have hfl : a.flush = a := by rw [Abs.flush, if_neg hp.st]
    simp [hfl]
  | cons f fs ih =>
    intro a hp hh hs hn
    rw [List.map_cons, List.sum_cons] at hs
    obtain ⟨hn1, hn2⟩ := hn
    have hfl : a.flush = a := by rw [Abs.flush, if_neg hp.st]
    have hle := family_le ryu a f
    have hfits := family_samples_fit (ryu := ryu) (hh f (by simp)).2 (by omega)
    by_cases he : f.samples = []
    · obtain ⟨hp', hst⟩ := pend_family (ryu := ryu) hp he
      have hn' : NoPendingHelp ((a.family ryu f).st = .help) fs := by
        have : ((a.family ryu f).st = .help) = ((a.st = .help ∨ f.help ≠ none) ∧ f.samples = []) := by
          rw [eq_iff_iff, hst]; simp [he]
        rw [this]; exact hn2
      obtain ⟨ms, hm, hw⟩ := ih hp' (fun f hf => hh f (by simp [hf])) (by omega) hn'
      refine ⟨ms, ⟨hm.ok, ?_⟩, ?_⟩
      · rw [hm.reads]; simp [he]
      · rw [List.foldl_cons, hw]; simp [Abs.family, hfl]
    · have hfam : a.family ryu f = ⟨.metrics, a.fs ++ famF ryu a.st f, a.w⟩ := by simp [Abs.family, hfl, he]
      rw [hfam] at hle
      have hflu : (a.family ryu f).flush = ⟨.init, [], a.w ++ frame (encFields (a.fs ++ famF ryu a.st f))⟩ := by
        rw [hfam, Abs.flush, if_pos rfl]
      have hp' : Pend (a.family ryu f).flush := by
        rw [hflu]; exact ⟨by simp, by simp, by simp⟩
      have hn' : NoPendingHelp ((a.family ryu f).flush.st = .help) fs := by
        have : ((a.family ryu f).flush.st = .help) = ((a.st = .help ∨ f.help ≠ none) ∧ f.samples = []) := by
          rw [hflu]; simp [he]
        rw [this]; exact hn2
      obtain ⟨ms, hm, hw⟩ := ih hp' (fun f hf => hh f (by simp [hf])) (by rw [hflu]; simp [encFields_nil]; omega) hn'
      have hleak : a.st = .help → f.help ≠ none := fun h1 h2 => he (hn1 h1 h2)
      have hlt : (encFields (a.fs ++ famF ryu a.st f)).length < 2 ^ 64 := by simp only at hle; omega
      refine ⟨(a.fs ++ famF ryu a.st f) :: ms, ⟨?_, ?_⟩, ?_⟩
      · intro m hm'
        rcases List.mem_cons.1 hm' with rfl | hm'
        · exact ⟨fields_ok hp hlt, hlt⟩
        · exact hm.ok m hm'
      · have hfi : (f :: fs).filter (fun f => decide (f.samples ≠ [])) =
            f :: fs.filter fun f => decide (f.samples ≠ []) := List.filter_cons_of_pos (by simpa using he)
        rw [hfi]
        simp only [readAll, decode_family hp hfits hleak, hm.reads, List.map_cons]
      · rw [List.foldl_cons, ← fold_flush, hw, hflu]
        simp

theorem readDelimitedN_frames : ∀ (bs : List Bytes) (n : Nat), (∀ b ∈ bs, b.length < 2 ^ 64) → bs.length ≤ n →
    readDelimitedN n (bs.flatMap frame) = some bs := by
  intro bs
  induction bs with
  | nil => intro n _ _; cases n <;> rfl
  | cons b bs ih =>
    intro n h hn
    obtain ⟨k, rfl⟩ : ∃ k, n = k + 1 := ⟨n - 1, by simp at hn; omega⟩
    have hr := readVarint_encode b.length (h b (by simp)) (b ++ bs.flatMap frame)
    have hpos : 0 < (encodeVarint b.length).length := by
      rw [encodeVarint_length _ (h b (by simp))]; exact (encodedLenVarint_bounds _ (h b (by simp))).1
    have he : (b :: bs).flatMap frame = encodeVarint b.length ++ (b ++ bs.flatMap frame) := by
      rw [List.flatMap_cons, frame, List.append_assoc]
    rw [he]
    obtain ⟨c, cs, hc⟩ := List.exists_cons_of_ne_nil (l := encodeVarint b.length ++ (b ++ bs.flatMap frame))
      (by intro h0; rw [List.append_eq_nil_iff] at h0; rw [h0.1] at hpos; simp at hpos)
    rw [hc] at hr ⊢
    rw [readDelimitedN, hr]
    · simp only [takeExact_append, ih k (fun b hb => h b (by simp [hb])) (by simp at hn; omega)]
    · simp

theorem readDelimited_frames {bs : List Bytes} (h : ∀ b ∈ bs, b.length < 2 ^ 64) :
    readDelimited (bs.flatMap frame) = some bs := by
  apply readDelimitedN_frames bs _ h
  induction bs with
  | nil => simp
  | cons b bs ih =>
    have hpos : 0 < (encodeVarint b.length).length := by
      rw [encodeVarint_length _ (h b (by simp))]; exact (encodedLenVarint_bounds _ (h b (by simp))).1
    have := ih fun b hb => h b (by simp [hb])
    rw [List.flatMap_cons, List.length_append, List.length_cons, frame, List.length_append]
    omega

theorem readAll_messages : ∀ (ms : List PFields) {gs : List PFamily}, (∀ m ∈ ms, ∀ g ∈ m, FieldOk g) →
    readAll decodeFamily ms = some gs →
    readAll (fun b => asMessage decodeFamily (.bytes b)) (ms.map encFields) = some gs := by
  intro ms
  induction ms with
  | nil => intro gs _ h; exact h
  | cons m ms ih =>
    intro gs hok h
    simp only [readAll] at h
    split at h
    · rename_i b bs h1 h2
      simp only [List.map_cons, readAll, asMessage, readFields_enc (hok m (by simp)), h1]
      have := ih (fun m hm => hok m (by simp [hm])) h2
      simp only [asMessage] at this
      rw [this]
      exact h
    · simp at h

theorem Messages.decode {ryu : F64 → Bytes} {fs : List FamilyIn} {ms : List PFields} (h : Messages ryu fs ms) :
    decodeScrape (ms.flatMap fun m => frame (encFields m)) =
      some ((fs.filter fun f => f.samples ≠ []).map (pfamily ryu)) := by
  have he : (ms.flatMap fun m => frame (encFields m)) = (ms.map encFields).flatMap frame := by
    rw [List.flatMap_map]
  have hl : ∀ b ∈ ms.map encFields, b.length < 2 ^ 64 := by
    intro b hb
    obtain ⟨m, hm, rfl⟩ := List.mem_map.1 hb
    exact (h.ok m hm).2
  simp only [decodeScrape, he, readDelimited_frames hl]
  exact readAll_messages ms (fun m hm => (h.ok m hm).1) h.reads

theorem sample_reads {ryu : F64 → Bytes} {rf : Bytes → Option F64} (F : FloatText ryu rf) {s : Labels × Metric}
    (h : s.2.kind ≠ .histogram) :
    ProtoSampleReads rf s (pmetric ryu (sampleTag s.2) (sampleDouble s.2) s.1) := by
  refine ⟨⟨textsOf ryu s.1, labelsRead_texts F s.1, rfl⟩, ?_⟩
  obtain ⟨ls, x⟩ := s
  cases x with
  | histogram _ _ => exact absurd rfl h
  | _ => simp [ProtoValueReads, pmetric, sampleTag, sampleDouble]

theorem family_reads {ryu : F64 → Bytes} {rf : Bytes → Option F64} (F : FloatText ryu rf) {f : FamilyIn}
    (h : NoHist f) : ProtoReads rf f.name.render f (pfamily ryu f) := by
  refine ⟨rfl, rfl, rfl, ?_⟩
  show List.Forall₂ _ f.samples (f.samples.map _)
  have := h.2
  generalize f.samples = ss at this
  induction ss with
  | nil => exact .nil
  | cons s ss ih => exact .cons (sample_reads F (this s (by simp))) (ih fun s hs => this s (by simp [hs]))

end Measured.Proto
