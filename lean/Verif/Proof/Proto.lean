import Verif.Model.Proto
import Verif.Spec.ProtoFamily
import Verif.Proof.Varint
import Verif.Proof.TextFamily
import Verif.Proof.MetricVec

/-! The protobuf encoder writes fields that read back. -/

namespace Measured.Proto
open Measured.Spec

/-! ## Fields -/

/-- The bytes of a field. -/
def encField : Nat × WireVal → Bytes
  | (t, .varint v) => encodeKey t .varint ++ encodeVarint v
  | (t, .fixed64 b) => encodeKey t .sixtyFourBit ++ b
  | (t, .bytes b) => encodeKey t .lengthDelimited ++ encodeVarint b.length ++ b

def encFields (fs : List (Nat × WireVal)) : Bytes := fs.flatMap encField

def ValOk : WireVal → Prop
  | .varint v => v < 2 ^ 64
  | .fixed64 b => b.length = 8
  | .bytes b => b.length < 2 ^ 64

def FieldOk (f : Nat × WireVal) : Prop := f.1 < 2 ^ 29 ∧ ValOk f.2 ∧ f.1 ≠ 0

theorem readVarint_key (t : Nat) (w : WireType) (h : t < 2 ^ 29) (rest : Bytes) :
    readVarint (encodeKey t w ++ rest) = some (8 * t + w.code, rest) := by
  unfold encodeKey
  rw [key_value t w h]
  exact readVarint_encode _ (by cases w <;> simp [WireType.code] <;> omega) rest

theorem takeExact_append (b rest : Bytes) : takeExact b.length (b ++ rest) = some (b, rest) := by
  unfold takeExact
  rw [if_pos (by simp)]
  simp

theorem readField_enc {f : Nat × WireVal} (h : FieldOk f) (rest : Bytes) :
    readField (encField f ++ rest) = some (f, rest) := by
  obtain ⟨t, v⟩ := f
  obtain ⟨ht, hv, h0⟩ := h
  simp only at ht hv h0
  cases v with
  | varint v =>
    simp only [encField, List.append_assoc, readField]
    rw [readVarint_key t _ ht]
    have h1 : (8 * t + WireType.varint.code) % 8 = 0 := by simp [WireType.code]
    have h2 : (8 * t + WireType.varint.code) / 8 = t := by simp [WireType.code]
    simp only [h1, h2, if_neg h0]
    rw [readVarint_encode v hv]
  | fixed64 b =>
    simp only [encField, List.append_assoc, readField]
    rw [readVarint_key t _ ht]
    have h1 : (8 * t + WireType.sixtyFourBit.code) % 8 = 1 := by simp [WireType.code]
    have h2 : (8 * t + WireType.sixtyFourBit.code) / 8 = t := by simp [WireType.code]; omega
    have hv : b.length = 8 := hv
    simp only [h1, h2, if_neg h0]
    rw [← hv, takeExact_append]
  | bytes b =>
    simp only [encField, List.append_assoc, readField]
    rw [readVarint_key t _ ht]
    have h1 : (8 * t + WireType.lengthDelimited.code) % 8 = 2 := by simp [WireType.code]
    have h2 : (8 * t + WireType.lengthDelimited.code) / 8 = t := by simp [WireType.code]; omega
    simp only [h1, h2, if_neg h0]
    rw [readVarint_encode _ hv]
    simp only [takeExact_append]

theorem encKey_pos (t : Nat) (w : WireType) (h : t < 2 ^ 29) : 0 < (encodeKey t w).length := by
  rw [encodeKey_length t w h]; exact (keyLen_bounds t h).1

theorem encField_pos {f : Nat × WireVal} (h : FieldOk f) : 0 < (encField f).length := by
  obtain ⟨t, v⟩ := f
  cases v with
  | varint v => have := encKey_pos t .varint h.1; simp only [encField, List.length_append]; omega
  | fixed64 v => have := encKey_pos t .sixtyFourBit h.1; simp only [encField, List.length_append]; omega
  | bytes v => have := encKey_pos t .lengthDelimited h.1; simp only [encField, List.length_append]; omega

theorem encFields_cons (f : Nat × WireVal) (fs : List (Nat × WireVal)) :
    encFields (f :: fs) = encField f ++ encFields fs := rfl

theorem encFields_append (a b : List (Nat × WireVal)) : encFields (a ++ b) = encFields a ++ encFields b := by
  simp [encFields]

theorem encFields_length {fs : List (Nat × WireVal)} (h : ∀ f ∈ fs, FieldOk f) :
    fs.length ≤ (encFields fs).length := by
  induction fs with
  | nil => simp
  | cons f fs ih =>
    have h1 := encField_pos (h f (by simp))
    have h2 := ih fun f hf => h f (by simp [hf])
    rw [encFields_cons, List.length_append, List.length_cons]; omega

theorem readFieldsN_enc : ∀ (fs : List (Nat × WireVal)) (n : Nat), (∀ f ∈ fs, FieldOk f) → fs.length ≤ n →
    readFieldsN n (encFields fs) = some fs := by
  intro fs
  induction fs with
  | nil => intro n _ _; cases n <;> rfl
  | cons f fs ih =>
    intro n h hn
    obtain ⟨k, rfl⟩ : ∃ k, n = k + 1 := ⟨n - 1, by simp at hn; omega⟩
    have hr := readField_enc (h f (by simp)) (encFields fs)
    have hne : encFields (f :: fs) ≠ [] := by
      intro h0
      have := encField_pos (h f (by simp))
      rw [encFields_cons] at h0
      rw [List.append_eq_nil_iff] at h0
      rw [h0.1] at this
      simp at this
    rw [← encFields_cons] at hr
    obtain ⟨b, bs, hb⟩ := List.exists_cons_of_ne_nil hne
    rw [hb] at hr ⊢
    rw [readFieldsN, hr]
    simp only
    rw [ih k (fun f hf => h f (by simp [hf])) (by simp at hn; omega)]
    simp

theorem readFields_enc {fs : List (Nat × WireVal)} (h : ∀ f ∈ fs, FieldOk f) : readFields (encFields fs) = some fs :=
  readFieldsN_enc fs _ h (encFields_length h)

theorem payload_le (t : Nat) (b : Bytes) : b.length ≤ (encField (t, .bytes b)).length := by
  simp only [encField, List.length_append]; omega

theorem field_le {f : Nat × WireVal} {fs : List (Nat × WireVal)} (h : f ∈ fs) :
    (encField f).length ≤ (encFields fs).length := by
  induction fs with
  | nil => simp at h
  | cons g fs ih =>
    rw [encFields_cons, List.length_append]
    rcases List.mem_cons.1 h with rfl | h
    · omega
    · have := ih h; omega

/-! ## Messages -/

theorem encodeString_eq (t : Nat) (s : Bytes) : encodeString t s = encField (t, .bytes s) := rfl

theorem bytesField_length (t : Nat) (b : Bytes) (ht : t < 2 ^ 29) (hb : b.length < 2 ^ 64) :
    (encField (t, .bytes b)).length = messageLen t b.length := by
  simp only [encField, List.length_append, messageLen, encodeKey_length t _ ht, encodeVarint_length _ hb]

theorem messageLen_le (t n : Nat) (ht : t < 2 ^ 29) (hn : n < 2 ^ 64) : messageLen t n ≤ 15 + n := by
  have h1 := (keyLen_bounds t ht).2
  have h2 := (encodedLenVarint_bounds n hn).2
  unfold messageLen; omega

theorem stringLen_eq (t : Nat) (s : Bytes) (ht : t < 2 ^ 29) (hs : s.length < 2 ^ 64) :
    stringLen t s = (encField (t, .bytes s)).length := by
  rw [bytesField_length t s ht hs]; rfl

theorem encodeMessage_eq (m : Mode) (t : Nat) (b : Bytes) :
    encodeMessage m t b.length (.ok b) = .ok (encField (t, .bytes b)) := by
  unfold encodeMessage
  simp only [Out.ok_bind]
  cases m <;> simp [debugAssert, encField]

theorem leBytes_length (n v : Nat) : (leBytes n v).length = n := by
  induction n generalizing v with
  | zero => rfl
  | succ n ih => simp [leBytes, ih]

theorem leNat_leBytes (n v : Nat) : leNat (leBytes n v) = v % 256 ^ n := by
  induction n generalizing v with
  | zero => simp [leBytes, leNat, Nat.mod_one]
  | succ n ih =>
    simp only [leBytes, leNat, ih, UInt8.toNat_ofNat']
    have h1 : v % 256 % 2 ^ 8 = v % 256 := by omega
    rw [h1, Nat.pow_succ', Nat.mod_mul (x := v) (a := 256)]

/-! ## Label pairs and metrics -/

theorem visit_eq (ryu : F64 → Bytes) (x : LVal) : visit ryu x = encField (2, .bytes (labelText ryu x)) := by
  cases x with
  | int x => rfl
  | str s => rfl
  | float x =>
    simp only [visit, labelText, labelFloat]
    split
    · cases x.sign <;> rfl
    · split <;> rfl

theorem lenVisit_eq (ryu : F64 → Bytes) (x : LVal) : lenVisit ryu x = stringLen 2 (labelText ryu x) := by
  cases x with
  | int x => rfl
  | str s => rfl
  | float x =>
    simp only [lenVisit, labelText, labelFloat]
    split
    · cases x.sign <;> rfl
    · split <;> rfl

/-- The fields of a `LabelPair`. -/
def pairFields (ryu : F64 → Bytes) (l : Bytes × LVal) : List (Nat × WireVal) :=
  [(1, .bytes l.1), (2, .bytes (labelText ryu l.2))]

/-- A `label` field of a `Metric`. -/
def labelField (ryu : F64 → Bytes) (l : Bytes × LVal) : Nat × WireVal := (1, .bytes (encFields (pairFields ryu l)))

def valueFields (x : F64) : List (Nat × WireVal) := [(1, .fixed64 (leBytes 8 x.bits))]

/-- The fields of a `Metric`. -/
def metricFields (ryu : F64 → Bytes) (tag : Nat) (x : F64) (ls : Labels) : List (Nat × WireVal) :=
  ls.map (labelField ryu) ++ [(tag, .bytes (encFields (valueFields x)))]

theorem pair_sizes {ryu : F64 → Bytes} {l : Bytes × LVal} (h : (encFields (pairFields ryu l)).length < 2 ^ 64) :
    l.1.length < 2 ^ 64 ∧ (labelText ryu l.2).length < 2 ^ 64 := by
  have h1 := field_le (f := (1, .bytes l.1)) (fs := pairFields ryu l) (by simp [pairFields])
  have h2 := field_le (f := (2, .bytes (labelText ryu l.2))) (fs := pairFields ryu l) (by simp [pairFields])
  have h3 := payload_le 1 l.1
  have h4 := payload_le 2 (labelText ryu l.2)
  omega

theorem labelPairLen_eq {ryu : F64 → Bytes} {l : Bytes × LVal} (h : (encFields (pairFields ryu l)).length < 2 ^ 64) :
    labelPairLen ryu l.1 l.2 = (encFields (pairFields ryu l)).length := by
  obtain ⟨h1, h2⟩ := pair_sizes h
  rw [labelPairLen, lenVisit_eq, stringLen_eq 1 _ (by decide) h1, stringLen_eq 2 _ (by decide) h2]
  simp [pairFields, encFields]

theorem labelPair_eq (m : Mode) {ryu : F64 → Bytes} {l : Bytes × LVal}
    (h : (encFields (pairFields ryu l)).length < 2 ^ 64) :
    labelPair m ryu l.1 l.2 = .ok (encField (labelField ryu l)) := by
  unfold labelPair
  rw [labelPairLen_eq h, encodeString_eq, visit_eq]
  have : encField (1, .bytes l.1) ++ encField (2, .bytes (labelText ryu l.2)) = encFields (pairFields ryu l) := by
    simp [pairFields, encFields]
  rw [this, encodeMessage_eq]
  rfl

theorem groupBytes_eq (m : Mode) (ryu : F64 → Bytes) (ls : Labels)
    (h : ∀ l ∈ ls, (encFields (pairFields ryu l)).length < 2 ^ 64) :
    groupBytes m ryu ls = .ok (encFields (ls.map (labelField ryu))) := by
  induction ls with
  | nil => rfl
  | cons l ls ih =>
    obtain ⟨n, x⟩ := l
    have h1 := labelPair_eq m (h (n, x) (by simp))
    simp only at h1
    simp only [groupBytes, h1, Out.ok_bind, ih fun l hl => h l (by simp [hl])]
    rfl

theorem groupLen_eq (ryu : F64 → Bytes) (ls : Labels) (h : ∀ l ∈ ls, (encFields (pairFields ryu l)).length < 2 ^ 64) :
    ∀ n, groupLen ryu n ls = n + (encFields (ls.map (labelField ryu))).length := by
  induction ls with
  | nil => intro n; rfl
  | cons l ls ih =>
    intro n
    obtain ⟨a, x⟩ := l
    have h1 := labelPairLen_eq (h (a, x) (by simp))
    simp only at h1
    rw [groupLen, ih fun l hl => h l (by simp [hl]), h1, List.map_cons, encFields_cons, List.length_append,
      labelField, bytesField_length 1 _ (by decide) (h (a, x) (by simp))]
    omega

theorem valueFields_length (x : F64) : (encFields (valueFields x)).length = doubleLen 1 := by
  simp [valueFields, encFields, encField, leBytes_length, doubleLen, encodeKey_length 1 _ (by decide)]

theorem metric_sizes {ryu : F64 → Bytes} {tag : Nat} {x : F64} {ls : Labels}
    (h : (encFields (metricFields ryu tag x ls)).length < 2 ^ 64) :
    ∀ l ∈ ls, (encFields (pairFields ryu l)).length < 2 ^ 64 := by
  intro l hl
  have h1 := field_le (f := labelField ryu l) (fs := metricFields ryu tag x ls)
    (List.mem_append_left _ (List.mem_map_of_mem (f := labelField ryu) hl))
  have h2 := payload_le 1 (encFields (pairFields ryu l))
  have h3 : labelField ryu l = (1, .bytes (encFields (pairFields ryu l))) := rfl
  rw [h3] at h1
  omega

theorem metricBytes_eq (m : Mode) (ryu : F64 → Bytes) (tag : Nat) (htag : tag = 2 ∨ tag = 3) (x : F64) (ls : Labels)
    (h : (encFields (metricFields ryu tag x ls)).length < 2 ^ 64) :
    metricBytes m ryu tag x ls = .ok (encField (4, .bytes (encFields (metricFields ryu tag x ls)))) := by
  have hs := metric_sizes h
  have hlen : groupLen ryu 0 ls + messageLen 3 (doubleLen 1) = (encFields (metricFields ryu tag x ls)).length := by
    rw [groupLen_eq ryu ls hs, metricFields, encFields_append, List.length_append, encFields_cons]
    have hv := valueFields_length x
    rw [List.length_append, bytesField_length tag _ (by omega) (by rw [hv]; decide), hv]
    have h0 : (encFields ([] : List (Nat × WireVal))).length = 0 := rfl
    rw [h0]
    rcases htag with rfl | rfl
    · have : messageLen 3 (doubleLen 1) = messageLen 2 (doubleLen 1) := by decide
      omega
    · omega
  have hd : encodeDouble 1 x.bits = encFields (valueFields x) := by
    simp [valueFields, encFields, encField, encodeDouble]
  unfold metricBytes
  rw [hlen, groupBytes_eq m ryu ls hs, hd, ← valueFields_length x, encodeMessage_eq]
  have : appendOut (.ok (encFields (ls.map (labelField ryu)))) (.ok (encField (tag, .bytes (encFields (valueFields x)))))
      = .ok (encFields (metricFields ryu tag x ls)) := by
    simp [appendOut, metricFields, encFields]
  rw [this, encodeMessage_eq]

/-! ## Decoding -/

theorem readAll_map {α β γ : Type} (f : β → Option γ) (g : α → β) (h : α → γ) (l : List α)
    (H : ∀ a ∈ l, f (g a) = some (h a)) : readAll f (l.map g) = some (l.map h) := by
  induction l with
  | nil => rfl
  | cons a l ih =>
    simp only [List.map_cons, readAll, H a (by simp), ih fun a ha => H a (by simp [ha])]

theorem fieldsOf_append (t : Nat) (a b : List (Nat × WireVal)) : fieldsOf t (a ++ b) = fieldsOf t a ++ fieldsOf t b := by
  simp [fieldsOf]

theorem fieldsOf_none {t : Nat} {a : List (Nat × WireVal)} (h : ∀ f ∈ a, f.1 ≠ t) : fieldsOf t a = [] := by
  unfold fieldsOf
  rw [List.filter_eq_nil_iff.2]
  · rfl
  · intro f hf; simpa using h f hf

theorem pair_fieldOk {ryu : F64 → Bytes} {l : Bytes × LVal} (h : (encFields (pairFields ryu l)).length < 2 ^ 64) :
    ∀ f ∈ pairFields ryu l, FieldOk f := by
  obtain ⟨h1, h2⟩ := pair_sizes h
  intro f hf
  simp only [pairFields, List.mem_cons, List.not_mem_nil, or_false] at hf
  rcases hf with rfl | rfl
  · exact ⟨show 1 < 2 ^ 29 by decide, h1, by simp⟩
  · exact ⟨show 2 < 2 ^ 29 by decide, h2, by simp⟩

theorem decode_label {ryu : F64 → Bytes} {l : Bytes × LVal} (h : (encFields (pairFields ryu l)).length < 2 ^ 64) :
    asMessage decodeLabel (labelField ryu l).2 = some ⟨some l.1, some (labelText ryu l.2)⟩ := by
  simp only [labelField, asMessage, readFields_enc (pair_fieldOk h)]
  rfl

theorem decode_value (x : F64) : asMessage decodeValue (.bytes (encFields (valueFields x))) = some (some x) := by
  have hok : ∀ f ∈ valueFields x, FieldOk f := by
    intro f hf
    simp only [valueFields, List.mem_cons, List.not_mem_nil, or_false] at hf
    subst hf
    exact ⟨show 1 < 2 ^ 29 by decide, leBytes_length 8 _, by simp⟩
  have hx : leNat (leBytes 8 x.bits) = x.bits := by
    rw [leNat_leBytes]; exact Nat.mod_eq_of_lt x.lt
  have hd : asDouble (.fixed64 (leBytes 8 x.bits)) = some x := by
    have : leNat (leBytes 8 x.bits) < 2 ^ 64 := by rw [hx]; exact x.lt
    have key : ∀ (n : Nat) (h : n < 2 ^ 64), n = x.bits → some (⟨n, h⟩ : F64) = some x := by
      rintro n h rfl; rfl
    rw [asDouble, dif_pos this]
    exact key _ this hx
  simp only [asMessage, readFields_enc hok, decodeValue, optionalField]
  have : fieldsOf 1 (valueFields x) = [.fixed64 (leBytes 8 x.bits)] := rfl
  rw [this]
  simp only [readAll, hd, Option.map_some, List.getLast?_singleton]

theorem metric_fieldOk {ryu : F64 → Bytes} {tag : Nat} (htag : tag = 2 ∨ tag = 3) {x : F64} {ls : Labels}
    (h : (encFields (metricFields ryu tag x ls)).length < 2 ^ 64) : ∀ f ∈ metricFields ryu tag x ls, FieldOk f := by
  intro f hf
  rcases List.mem_append.1 hf with hf | hf
  · obtain ⟨l, hl, rfl⟩ := List.mem_map.1 hf
    exact ⟨by show 1 < 2 ^ 29; decide, metric_sizes h l hl, by simp [labelField]⟩
  · rw [List.mem_singleton] at hf
    subst hf
    refine ⟨by show tag < 2 ^ 29; omega, ?_, by show tag ≠ 0; omega⟩
    show (encFields (valueFields x)).length < 2 ^ 64
    rw [valueFields_length]; decide

/-- The decoded metric. -/
def pmetric (ryu : F64 → Bytes) (tag : Nat) (x : F64) (ls : Labels) : PMetric :=
  ⟨(textsOf ryu ls).map fun t => ⟨some t.1, some t.2⟩, if tag = 2 then some (some x) else none,
    if tag = 3 then some (some x) else none⟩

theorem decode_metric {ryu : F64 → Bytes} {tag : Nat} (htag : tag = 2 ∨ tag = 3) {x : F64} {ls : Labels}
    (h : (encFields (metricFields ryu tag x ls)).length < 2 ^ 64) :
    asMessage decodeMetric (.bytes (encFields (metricFields ryu tag x ls))) = some (pmetric ryu tag x ls) := by
  simp only [asMessage, readFields_enc (metric_fieldOk htag h)]
  have h1 : fieldsOf 1 (metricFields ryu tag x ls) = ls.map fun l => (labelField ryu l).2 := by
    rw [metricFields, fieldsOf_append,
      fieldsOf_none (a := [(tag, WireVal.bytes (encFields (valueFields x)))]) (by simp; omega), List.append_nil]
    unfold fieldsOf
    rw [List.filter_eq_self.2, List.map_map]
    · rfl
    · intro f hf
      obtain ⟨l, _, rfl⟩ := List.mem_map.1 hf
      simp [labelField]
  have hl : ∀ t, t ≠ 1 → fieldsOf t (ls.map (labelField ryu)) = [] := by
    intro t ht
    apply fieldsOf_none
    intro f hf
    obtain ⟨l, _, rfl⟩ := List.mem_map.1 hf
    simpa [labelField] using Ne.symm ht
  have hrep : repeatedField (asMessage decodeLabel) 1 (metricFields ryu tag x ls) =
      some ((textsOf ryu ls).map fun t => ⟨some t.1, some t.2⟩) := by
    rw [repeatedField, h1, readAll_map (h := fun l => ⟨some l.1, some (labelText ryu l.2)⟩)]
    · simp [textsOf]
    · intro l hl; exact decode_label (metric_sizes h l hl)
  have hopt : ∀ t, t = 2 ∨ t = 3 → optionalField (asMessage decodeValue) t (metricFields ryu tag x ls) =
      some (if tag = t then some (some x) else none) := by
    intro t ht
    rw [optionalField, metricFields, fieldsOf_append, hl t (by omega), List.nil_append]
    by_cases he : tag = t
    · subst he
      have : fieldsOf tag [(tag, WireVal.bytes (encFields (valueFields x)))] = [.bytes (encFields (valueFields x))] := by
        simp [fieldsOf]
      rw [this]
      simp only [readAll, decode_value, Option.map_some, List.getLast?_singleton, if_true]
    · rw [fieldsOf_none (by simpa using he), if_neg he]; rfl
  simp only [decodeMetric, hrep, hopt 2 (.inl rfl), hopt 3 (.inr rfl)]
  rfl

end Measured.Proto
