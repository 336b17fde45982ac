import Verif.Spec.LabelLaws

/-! Helper lemmas about label sets. -/

namespace Measured
open Measured.Spec
variable {V : Type}

theorem getIndexOf_some [DecidableEq V] {l : List V} {v : V} {i : Nat}
    (h : getIndexOf l v = some i) : l[i]? = some v := by
  induction l generalizing i with
  | nil => simp [getIndexOf] at h
  | cons x xs ih =>
    simp only [getIndexOf] at h
    split at h
    · cases h; simp_all
    · rw [Option.map_eq_some_iff] at h
      obtain ⟨j, hj, rfl⟩ := h
      simpa using ih hj

theorem getIndexOf_none [DecidableEq V] {l : List V} {v : V} :
    getIndexOf l v = none ↔ v ∉ l := by
  induction l with
  | nil => simp [getIndexOf]
  | cons x xs ih =>
    simp only [getIndexOf]
    split
    · simp_all
    · simp [ih]; grind

theorem getIndexOf_nodup [DecidableEq V] {l : List V} (hl : l.Nodup) {v : V} {i : Nat}
    (h : l[i]? = some v) : getIndexOf l v = some i := by
  induction l generalizing i with
  | nil => simp at h
  | cons x xs ih =>
    simp only [getIndexOf]
    rw [List.nodup_cons] at hl
    cases i with
    | zero => simp at h; simp [h]
    | succ i =>
      simp at h
      have hx : x ≠ v := by
        rintro rfl
        exact hl.1 (List.mem_of_getElem? h)
      simp [hx, ih hl.2 h]

theorem matchVariant_zip [DecidableEq V] (l : List V) (v : V) (k : Nat) :
    matchVariant (l.zip (List.range' k l.length)) v = (getIndexOf l v).map (· + k) := by
  induction l generalizing k with
  | nil => simp [matchVariant, getIndexOf]
  | cons x xs ih =>
    simp only [List.length_cons, List.range'_succ, List.zip_cons_cons, matchVariant, getIndexOf]
    split
    · simp
    · rw [ih]
      cases getIndexOf xs v <;> simp
      omega

theorem matchIndex_zip (l : List V) (n k : Nat) (h : k ≤ n) :
    matchIndex ((List.range' k l.length).zip l) n = expect l[n - k]? := by
  induction l generalizing k with
  | nil => simp [matchIndex, expect]
  | cons x xs ih =>
    simp only [List.length_cons, List.range'_succ, List.zip_cons_cons, matchIndex]
    split
    · rename_i h'; subst h'; simp [expect]
    · rw [ih _ (by omega)]
      obtain ⟨m, hm⟩ : ∃ m, n - k = m + 1 := ⟨n - k - 1, by omega⟩
      rw [hm, show n - (k + 1) = m by omega]
      simp

theorem enumEncode_eq [DecidableEq V] (l : List V) (v : V) : enumEncode l v = getIndexOf l v := by
  unfold enumEncode enumCardinality
  rw [List.range_eq_range', matchVariant_zip]
  cases getIndexOf l v <;> simp

theorem enumDecode_eq (l : List V) (n : Nat) : enumDecode l n = expect l[n]? := by
  unfold enumDecode enumCardinality
  rw [List.range_eq_range', matchIndex_zip _ _ _ (Nat.zero_le _)]
  simp

theorem indexSet_laws [DecidableEq V] (l : List V) (hl : l.Nodup) : FixedSetLaws (indexSet l) where
  enc_dec v i h := by
    have h' := getIndexOf_some h
    refine ⟨?_, ?_⟩
    · simp only [indexSet]
      exact (List.getElem?_eq_some_iff.1 h').1
    · simp [indexSet, h', expect]
  dec_enc i hi := by
    simp only [indexSet] at hi ⊢
    refine ⟨l[i], by simp [hi, expect], getIndexOf_nodup hl (by simp [hi])⟩

theorem rodeoReader_eq [DecidableEq V] (l : List V) : rodeoReader l = indexSet l := by
  simp only [rodeoReader, indexSet, FixedSet.mk.injEq, and_true, true_and]
  funext v
  cases getIndexOf l v <;> rfl

theorem phfOrderedSet_eq [DecidableEq V] (l : List V) : phfOrderedSet l = indexSet l := rfl

theorem staticLabelSet_eq [DecidableEq V] (l : List V) : staticLabelSet l = indexSet l := by
  simp only [staticLabelSet, indexSet, enumEncode_eq, enumDecode_eq, enumCardinality]

/-- Invariant of an interner: no string twice. -/
def Rodeo.Inv (r : Rodeo V) : Prop := r.items.Nodup

/-- An interner only ever appends. -/
def Rodeo.Le (r r' : Rodeo V) : Prop := (∃ t, r'.items = r.items ++ t) ∧ r'.cap = r.cap

/-- Ids handed out so far. -/
def Rodeo.Valid (r : Rodeo V) (i : Nat) : Prop := i < r.items.length

theorem Rodeo.intern_cases [DecidableEq V] (r : Rodeo V) (v : V) :
    (∃ i, getIndexOf r.items v = some i ∧ r.intern v = (some i, r)) ∨
    (v ∉ r.items ∧ r.intern v = (some r.items.length, { r with items := r.items ++ [v] })) ∨
    (v ∉ r.items ∧ ¬ r.items.length < r.cap ∧ r.intern v = (none, r)) := by
  unfold Rodeo.intern
  cases h : getIndexOf r.items v with
  | some i => exact .inl ⟨i, rfl, rfl⟩
  | none =>
    rw [getIndexOf_none] at h
    by_cases hc : r.items.length < r.cap
    · right; left; simp [h, hc]
    · right; right; simp [h, hc]

theorem threadedRodeo_laws [DecidableEq V] :
    DynSetLaws (threadedRodeo (V := V)) Rodeo.Inv Rodeo.Le Rodeo.Valid where
  le_refl s := ⟨⟨[], by simp⟩, rfl⟩
  le_trans s t u := by
    rintro ⟨⟨a, ha⟩, ha'⟩ ⟨⟨b, hb⟩, hb'⟩
    exact ⟨⟨a ++ b, by simp [hb, ha]⟩, by rw [hb', ha']⟩
  enc_inv s v hs := by
    simp only [threadedRodeo]
    rcases s.intern_cases v with ⟨i, _, h⟩ | ⟨hv, h⟩ | ⟨_, _, h⟩ <;> rw [h]
    · exact ⟨hs, ⟨[], by simp⟩, rfl⟩
    · refine ⟨?_, ⟨[v], rfl⟩, rfl⟩
      simp only [Rodeo.Inv] at hs ⊢
      rw [List.nodup_append]
      refine ⟨hs, by simp, ?_⟩
      intro a ha b hb
      simp at hb; subst hb
      rintro rfl; exact hv ha
    · exact ⟨hs, ⟨[], by simp⟩, rfl⟩
  enc_dec s v i s' hs h := by
    simp only [threadedRodeo] at h ⊢
    rcases s.intern_cases v with ⟨j, hj, h'⟩ | ⟨hv, h'⟩ | ⟨_, _, h'⟩ <;> rw [h'] at h <;> cases h
    · have := getIndexOf_some hj
      exact ⟨(List.getElem?_eq_some_iff.1 this).1, by simp [this, expect]⟩
    · exact ⟨by simp [Rodeo.Valid], by simp [expect]⟩
  valid_enc s i hs hi := by
    simp only [threadedRodeo]
    have hi' : i < s.items.length := hi
    refine ⟨s.items[i], by simp [hi', expect], ?_⟩
    have := getIndexOf_nodup (l := s.items) hs (v := s.items[i]) (i := i) (by simp [hi'])
    simp [Rodeo.intern, this]
  stable s s' i _ _ hle hi := by
    obtain ⟨⟨t, ht⟩, _⟩ := hle
    have hi' : i < s.items.length := hi
    simp only [threadedRodeo, Rodeo.Valid]
    rw [ht]
    exact ⟨by simp; omega, by rw [List.getElem?_append_left hi']⟩

end Measured
