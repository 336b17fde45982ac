import Verif.Proof.Label

/-! # C01, C06, C08: label sets -/

namespace Measured
open Measured.Spec
variable {V : Type} [DecidableEq V]

/-- C01. For an enum with distinct variants, the derived `encode` maps the variants one-to-one onto
`0..cardinality()` in declaration order, `decode` is its inverse, and `decode` panics outside the range. -/
theorem C01_derived_enum (variants : List V) (hd : variants.Nodup) :
    -- variant number i (in declaration order) is encoded as i, and decoded from i
    (∀ i (hi : i < variants.length), enumEncode variants variants[i] = some i ∧
      enumDecode variants i = .ok variants[i]) ∧
    -- the cardinality is the number of variants
    enumCardinality variants = variants.length ∧
    -- every variant is encoded below the cardinality and decodes to itself
    (∀ v ∈ variants, ∃ i, i < enumCardinality variants ∧ enumEncode variants v = some i ∧
      enumDecode variants i = .ok v) ∧
    -- out of range values panic
    (∀ n, enumCardinality variants ≤ n → enumDecode variants n = .panic) ∧
    -- different variants get different numbers
    (∀ v ∈ variants, ∀ w ∈ variants, enumEncode variants v = enumEncode variants w → v = w) := by
  have key : ∀ i (hi : i < variants.length), enumEncode variants variants[i] = some i ∧
      enumDecode variants i = .ok variants[i] := by
    intro i hi
    rw [enumEncode_eq, enumDecode_eq]
    exact ⟨getIndexOf_nodup hd (by simp [hi]), by simp [hi, expect]⟩
  refine ⟨key, rfl, ?_, ?_, ?_⟩
  · intro v hv
    obtain ⟨i, hi, rfl⟩ := List.getElem_of_mem hv
    exact ⟨i, hi, key i hi⟩
  · intro n hn
    rw [enumDecode_eq]
    have : variants[n]? = none := by
      rw [List.getElem?_eq_none_iff]; exact hn
    simp [this, expect]
  · intro v hv w hw h
    obtain ⟨i, hi, rfl⟩ := List.getElem_of_mem hv
    obtain ⟨j, hj, rfl⟩ := List.getElem_of_mem hw
    rw [(key i hi).1, (key j hj).1] at h
    cases h; rfl

example : enumEncode ["User", "Internal", "Network"] "Network" = some 2 ∧
    enumDecode ["User", "Internal", "Network"] 1 = .ok "Internal" ∧
    enumDecode ["User", "Internal", "Network"] 3 = .panic := by decide

/-- C06. Interned ids: whatever sequences of values are encoded before and after, an id handed out for
`v` stays the id of `v`, keeps decoding to `v`, and no other value gets it. -/
theorem C06_intern_stable (r0 : Rodeo V) (h0 : r0.items.Nodup) (before after : List V) (v : V) (i : Nat)
    (henc : (threadedRodeo.encode (before.foldl (fun r x => (threadedRodeo.encode r x).2) r0) v).1
      = some i) :
    let r1 := (threadedRodeo.encode (before.foldl (fun r x => (threadedRodeo.encode r x).2) r0) v).2
    let r2 := after.foldl (fun r x => (threadedRodeo.encode r x).2) r1
    threadedRodeo.decode r2 i = .ok v ∧ threadedRodeo.encode r2 v = (some i, r2) ∧
      ∀ w, (threadedRodeo.encode r2 w).1 = some i → w = v := by
  have L := threadedRodeo_laws (V := V)
  have hfold : ∀ (l : List V) (r : Rodeo V), Rodeo.Inv r →
      Rodeo.Inv (l.foldl (fun r x => (threadedRodeo.encode r x).2) r) ∧
      Rodeo.Le r (l.foldl (fun r x => (threadedRodeo.encode r x).2) r) := by
    intro l
    induction l with
    | nil => intro r hr; exact ⟨hr, L.le_refl r⟩
    | cons x xs ih =>
      intro r hr
      obtain ⟨h1, h2⟩ := L.enc_inv r x hr
      obtain ⟨h3, h4⟩ := ih _ h1
      exact ⟨h3, L.le_trans _ _ _ h2 h4⟩
  intro r1 r2
  have hb := (hfold before r0 h0).1
  have h1 : Rodeo.Inv r1 := (L.enc_inv _ v hb).1
  obtain ⟨hval, hdec⟩ := L.enc_dec _ v i r1 hb (Prod.ext henc rfl)
  obtain ⟨h2, hle⟩ := hfold after r1 h1
  obtain ⟨hval2, hdec2⟩ := L.stable r1 r2 i h1 h2 hle hval
  have hd2 : threadedRodeo.decode r2 i = .ok v := by rw [hdec2, hdec]
  refine ⟨hd2, ?_, ?_⟩
  · obtain ⟨v', hv1, hv2⟩ := L.valid_enc r2 i h2 hval2
    rw [hd2] at hv1; cases hv1; exact hv2
  · intro w hw
    obtain ⟨hvw, hdw⟩ := L.enc_dec r2 w i _ h2 (Prod.ext hw rfl)
    obtain ⟨_, hdw2⟩ := L.stable r2 _ i h2 (L.enc_inv r2 w h2).1 (L.enc_inv r2 w h2).2 hval2
    rw [hdw2, hd2] at hdw
    cases hdw; rfl

example : (threadedRodeo.encode (⟨["a", "b"], 10⟩ : Rodeo String) "b").1 = some 1 ∧
    (threadedRodeo.encode (⟨["a", "b"], 10⟩ : Rodeo String) "c").1 = some 2 ∧
    (threadedRodeo.encode (⟨["a", "b"], 2⟩ : Rodeo String) "c").1 = none := by decide

/-- C08. Every fixed set kind is a faithful numbering of its members, `encode` fails exactly for
non-members, and `Arc` changes nothing. -/
theorem C08_fixed_sets (items : List V) (hd : items.Nodup) :
    ∀ s ∈ [staticLabelSet items, indexSet items, rodeoReader items, phfOrderedSet items,
        arcSet (staticLabelSet items), arcSet (indexSet items), arcSet (rodeoReader items),
        arcSet (phfOrderedSet items)],
      FixedSetLaws s ∧ s.card = items.length ∧ (∀ v, s.encode v = none ↔ v ∉ items) := by
  have base : FixedSetLaws (indexSet items) ∧ (indexSet items).card = items.length ∧
      (∀ v, (indexSet items).encode v = none ↔ v ∉ items) :=
    ⟨indexSet_laws items hd, rfl, fun v => getIndexOf_none⟩
  have harc : ∀ s : FixedSet V, arcSet s = s := fun s => rfl
  intro s hs
  simp only [harc, staticLabelSet_eq, rodeoReader_eq, phfOrderedSet_eq, List.mem_cons,
    List.not_mem_nil, or_false, or_self] at hs
  subst hs
  exact base

example : (rodeoReader ["loop", "break"]).encode "break" = some 1 ∧
    (rodeoReader ["loop", "break"]).decode 0 = .ok "loop" := by decide

end Measured
