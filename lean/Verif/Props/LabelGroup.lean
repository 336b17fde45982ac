import Verif.Proof.DerivedGroup
import Mathlib.Data.Fin.VecNotation

/-! # C02–C05, C07, C16: derived and composed label group sets -/

namespace Measured
open Measured.Spec
variable {S V : Type}

/-! ## A concrete struct used in the examples

```
struct RequestLabels { method: Method /* Get, Post */, path: &str /* ThreadedRodeo */, status: Status /* 3 */ }
```
-/

/-- Two fixed fields around a dynamic one. -/
def exampleDef : GroupDef String where
  n := 3
  field := fun
    | 0 => ⟨b!"method", .fixed (staticLabelSet ["Get", "Post"])⟩
    | 1 => ⟨b!"path", .dynamic 0⟩
    | 2 => ⟨b!"status", .fixed (indexSet ["ok", "err", "slow"])⟩

def exampleHeap : Heap (Rodeo String) := fun _ => ⟨["/a"], 10⟩

theorem exampleDef_lawful : FieldsLawful FixedSetLaws exampleDef := by
  suffices ∀ i : Fin 3, ∀ s, (exampleDef.field i).kind = .fixed s → FixedSetLaws s from this
  intro i s h
  match i with
  | 0 =>
    simp only [exampleDef] at h; cases h
    rw [staticLabelSet_eq]; exact indexSet_laws _ (by decide)
  | 1 => simp [exampleDef] at h
  | 2 => simp only [exampleDef] at h; cases h; exact indexSet_laws _ (by decide)

example : combinations exampleDef = 6 := by decide

example : (derivedEncode .debug threadedRodeo exampleDef ![ "Post", "/b", "err" ] exampleHeap).1
    = .ok (some (4, [1])) := by decide

/-! ## C02 -/

/-- C02. If the fixed fields have at most `usize::MAX` combinations, then whenever `encode` returns an id,
decoding it (in either build mode) gives back exactly the group, also after any further growth of the
interners. -/
theorem C02_derived_round_trip (m m' : Mode) (D : DynSet S V) (inv : S → Prop) (le : S → S → Prop)
    (valid : S → Nat → Prop) (L : DynSetLaws D inv le valid) (d : GroupDef V)
    (hl : FieldsLawful FixedSetLaws d) (hc : combinations d < W64)
    (g : d.Group) (h h' : Heap S) (hh : ∀ r, inv (h r)) (u : Nat × List Nat)
    (he : (derived m D d).encode g h = (.ok (some u), h')) :
    (derived m' D d).decode h' u = .ok g ∧
    ∀ h'' : Heap S, (∀ r, inv (h'' r)) → (∀ r, le (h' r) (h'' r)) →
      (derived m' D d).decode h'' u = .ok g ∧ (derived m' D d).encode g h'' = (.ok (some u), h'') := by
  have hf := fits_of_encoded hl hc he
  have hl' := allLawful_of_fields hl
  have G := derived_laws m L d hl' _ (fits_checked hf)
  have G' := derived_laws m' L d hl' _ (fits_checked hf)
  obtain ⟨hv, _⟩ := G.enc_dec h g u h' hh he
  have hinv : HeapInv inv h' := by have := (G.enc_inv h g hh).1; rw [he] at this; exact this
  have hdec : (derived m' D d).decode h' u = .ok g := by
    obtain ⟨e1, e2⟩ := derivedEncode_some he
    have e1' : encodeFixed m' g d.fixed 1 0 = .ok (some u.1) := by
      rcases encodeFixed_spec m g d.fixed hl' 1 0 _ (fits_checked hf) (by omega) (by decide) with
        ⟨N, hN, e⟩ | ⟨_, e⟩
      · rcases encodeFixed_spec m' g d.fixed hl' 1 0 _ (fits_checked hf) (by omega) (by decide) with
          ⟨N', hN', e'⟩ | ⟨⟨p, hp, hpn⟩, e'⟩
        · rw [e] at e1; rw [e', ← e1, hN.unique hN']
        · exact absurd hpn (encodeFixed_some_all _ _ _ _ _ _ e1 p hp)
      · rw [e] at e1; cases e1
    refine (G'.enc_dec h g u h' hh ?_).2
    simp only [derived, derivedEncode, e1', e2]
  refine ⟨hdec, ?_⟩
  intro h'' hinv'' hle
  obtain ⟨hv'', hd''⟩ := G'.stable h' h'' u hinv hinv'' hle hv
  rw [hdec] at hd''
  refine ⟨hd'', ?_⟩
  obtain ⟨g', h1, h2⟩ := G'.valid_enc h'' u hinv'' hv''
  rw [hd''] at h1; cases h1; exact h2

example : ∃ u h', (derived .debug threadedRodeo exampleDef).encode ![ "Post", "/b", "err" ] exampleHeap
      = (.ok (some u), h') ∧ (derived .release threadedRodeo exampleDef).decode h' u
      = .ok ![ "Post", "/b", "err" ] := by
  refine ⟨(4, [1]), _, rfl, ?_⟩
  exact (C02_derived_round_trip .debug .release threadedRodeo _ _ _ threadedRodeo_laws exampleDef
    exampleDef_lawful (by decide) ![ "Post", "/b", "err" ] exampleHeap _
    (fun _ => by show List.Nodup ["/a"]; decide) (4, [1]) rfl).1

/-! ## C03 -/

/-- C03. A derived group with only fixed fields and `cardinality() = Some(c)`: `c` is the number of
combinations; an encodable group has an id below `c`; every `i < c` is the dense index of exactly one group,
and `decode_dense` returns that group without panicking. -/
theorem C03_dense_bijection (m : Mode) (D : DynSet S V) (inv : S → Prop) (le : S → S → Prop)
    (valid : S → Nat → Prop) (L : DynSetLaws D inv le valid) (d : GroupDef V)
    (hl : FieldsLawful FixedSetLaws d) (c : Nat) (hc : (derived m D d).cardinality = some c)
    (h : Heap S) (hh : ∀ r, inv (h r)) :
    c = combinations d ∧ c < W64 ∧
    -- encodable groups have ids in range, and encoding changes nothing
    (∀ g u h', (derived m D d).encode g h = (.ok (some u), h') →
      h' = h ∧ ∃ i, i < c ∧ (derived m D d).encodeDense u = .ok (some i) ∧
        (derived m D d).decodeDense h i = .ok g) ∧
    -- every index in range is the dense index of exactly one group
    (∀ i, i < c → ∃! g, (derived m D d).decodeDense h i = .ok g ∧
      ∃ u, (derived m D d).encode g h = (.ok (some u), h) ∧ (derived m D d).encodeDense u = .ok (some i)) ∧
    -- and distinct groups never share an index
    (∀ g g' u u' i, (derived m D d).encode g h = (.ok (some u), h) →
      (derived m D d).encode g' h = (.ok (some u'), h) → (derived m D d).encodeDense u = .ok (some i) →
      (derived m D d).encodeDense u' = .ok (some i) → g = g') := by
  have hl' := allLawful_of_fields hl
  have hcc : checkedCards d.fixed (some 1) = some c := by
    simp only [derived, derivedCardinality] at hc
    split at hc
    · exact hc
    · cases hc
  have hdyn : d.dynamics = [] := by
    simp only [derived, derivedCardinality] at hc
    split at hc
    · rename_i hd; exact List.isEmpty_iff.1 hd
    · cases hc
  have G := derived_laws m L d hl' _ hcc
  have enc_same : ∀ g u h', (derived m D d).encode g h = (.ok (some u), h') → h' = h := by
    intro g u h' he
    have := (derivedEncode_some he).2
    rw [hdyn] at this
    simp only [encodeDyn, Prod.mk.injEq] at this
    exact this.2.symm
  have inrange : ∀ g u h', (derived m D d).encode g h = (.ok (some u), h') →
      h' = h ∧ ∃ i, i < c ∧ (derived m D d).encodeDense u = .ok (some i) ∧
        (derived m D d).decodeDense h i = .ok g := by
    intro g u h' he
    have hs := enc_same g u h' he
    subst hs
    obtain ⟨hv, hd⟩ := G.enc_dec h' g u h' hh he
    obtain ⟨i, h1, h2, h3⟩ := G.dense h' u c hh hc hv
    exact ⟨rfl, i, h1, h2, by rw [h3, hd]⟩
  refine ⟨?_, G.card_lt c hc, inrange, ?_, ?_⟩
  · rw [combinations_eq, checkedCards_eq hcc, Nat.one_mul]
  · intro i hi
    obtain ⟨u, hv, he⟩ := G.dense_surj h i c hh hc hi
    obtain ⟨g, hd, hge⟩ := G.valid_enc h u hh hv
    obtain ⟨i', _, h2, h3⟩ := G.dense h u c hh hc hv
    rw [he] at h2
    simp only [Out.ok.injEq, Option.some.injEq] at h2
    subst h2
    refine ⟨g, ⟨by rw [h3, hd], u, hge, he⟩, ?_⟩
    rintro g' ⟨hg', _⟩
    rw [h3, hd] at hg'
    cases hg'; rfl
  · intro g g' u u' i h1 h2 h3 h4
    obtain ⟨hv, hd⟩ := G.enc_dec h g u h hh h1
    obtain ⟨hv', hd'⟩ := G.enc_dec h g' u' h hh h2
    have := G.dense_inj hh hc hv hv' h3 h4
    subst this
    rw [hd] at hd'; cases hd'; rfl

/-- C03, all derived groups, also ones with dynamic fields: two groups that have the same dense id are equal, and a dense
id is below `cardinality()`. (So groups with dynamic fields, which an id cannot cover, have none.) -/
theorem C03_dense_ids (m : Mode) (D : DynSet S V) (inv : S → Prop) (le : S → S → Prop)
    (valid : S → Nat → Prop) (L : DynSetLaws D inv le valid) (d : GroupDef V)
    (hl : FieldsLawful FixedSetLaws d) (hc : combinations d < W64)
    (g g' : d.Group) (h h' k k' : Heap S) (hh : ∀ r, inv (h r)) (hk : ∀ r, inv (k r)) (u u' : Nat × List Nat) (i : Nat)
    (he : (derived m D d).encode g h = (.ok (some u), h')) (he' : (derived m D d).encode g' k = (.ok (some u'), k'))
    (hi : (derived m D d).encodeDense u = .ok (some i)) :
    (∃ c, (derived m D d).cardinality = some c ∧ i < c) ∧ ((derived m D d).encodeDense u' = .ok (some i) → g = g') := by
  have hl' := allLawful_of_fields hl
  have hf := fits_checked (fits_of_encoded hl hc he)
  have hdyn : d.dynamics.isEmpty = true := by
    simp only [derived, derivedEncodeDense] at hi
    split at hi
    · assumption
    · cases hi
  have hcard : (derived m D d).cardinality = some (1 * cardProd d.fixed) := by
    simp only [derived, derivedCardinality, hdyn, if_true]
    rw [hf, checkedCards_eq hf]
  have key : ∀ {g u h h'}, (∀ r, inv (h r)) → (derived m D d).encode g h = (.ok (some u), h') →
      (derived m D d).encode g h = (.ok (some u), h) ∧ (derived m D d).decode h u = .ok g := by
    intro g u h h' hh he
    have e2 := (derivedEncode_some he).2
    rw [List.isEmpty_iff.1 hdyn] at e2
    simp only [encodeDyn, Prod.mk.injEq] at e2
    obtain rfl : h' = h := e2.2.symm
    exact ⟨he, ((derived_laws m L d hl' _ hf).enc_dec h' g u h' hh he).2⟩
  obtain ⟨e1, _⟩ := key hh he
  obtain ⟨_, _, hin, _, _⟩ := C03_dense_bijection m D inv le valid L d hl _ hcard h hh
  obtain ⟨_, j, hj, e3, e4⟩ := hin g u h e1
  rw [hi] at e3
  cases e3
  refine ⟨⟨_, hcard, hj⟩, fun hi' => ?_⟩
  -- without dynamic fields the groups do not depend on the interners
  have hsame : (derived m D d).encode g' h = (.ok (some u'), h) := by
    obtain ⟨a1, a2⟩ := derivedEncode_some he'
    rw [List.isEmpty_iff.1 hdyn] at a2
    simp only [encodeDyn, Prod.mk.injEq] at a2
    simp only [derived, derivedEncode, a1]
    rw [List.isEmpty_iff.1 hdyn]
    obtain ⟨a, b⟩ := u'
    obtain rfl : [] = b := by simpa using a2.1
    rfl
  exact (C03_dense_bijection m D inv le valid L d hl _ hcard h hh).2.2.2.2 g g' u u' i e1 hsame hi hi'

/-- Two fixed fields, six combinations. -/
def exampleFixed : GroupDef String where
  n := 2
  field := fun
    | 0 => ⟨b!"method", .fixed (staticLabelSet ["Get", "Post"])⟩
    | 1 => ⟨b!"status", .fixed (indexSet ["ok", "err", "slow"])⟩

theorem exampleFixed_lawful : FieldsLawful FixedSetLaws exampleFixed := by
  suffices ∀ i : Fin 2, ∀ s, (exampleFixed.field i).kind = .fixed s → FixedSetLaws s from this
  intro i s h
  match i with
  | 0 =>
    simp only [exampleFixed] at h; cases h
    rw [staticLabelSet_eq]; exact indexSet_laws _ (by decide)
  | 1 => simp only [exampleFixed] at h; cases h; exact indexSet_laws _ (by decide)

example : (derived .release threadedRodeo exampleFixed).cardinality = some 6 := by decide

example : (derived .release threadedRodeo exampleFixed).encode ![ "Post", "slow" ] exampleHeap = (.ok (some (5, [])), exampleHeap) ∧
    (derived .release threadedRodeo exampleFixed).encodeDense (5, []) = .ok (some 5) ∧
    (derived .debug threadedRodeo exampleDef).encodeDense (4, [1]) = .ok none :=
  ⟨rfl, by decide, by decide⟩

example : (derived .release threadedRodeo exampleFixed).decodeDense exampleHeap 4
    = .ok ![ "Post", "err" ] := by
  have L := C03_dense_bijection .release threadedRodeo _ _ _ threadedRodeo_laws exampleFixed
    exampleFixed_lawful 6 (by decide) exampleHeap (fun _ => by show List.Nodup ["/a"]; decide)
  obtain ⟨_, i, _, h1, h2⟩ := L.2.2.1 ![ "Post", "err" ] (4, []) exampleHeap rfl
  cases h1
  exact h2

/-! ## C04 -/

/-- C04. With fitting cardinalities `encode` returns `None` exactly when a fixed value is not in its set or
a dynamic set refuses its value (in the state after interning the earlier dynamic fields); and when a fixed
value is not in its set no interner has been modified. -/
theorem C04_encode_none (m : Mode) (D : DynSet S V) (d : GroupDef V) (hl : FieldsLawful FixedSetLaws d)
    (hf : Fits d) (g : d.Group) (h : Heap S) :
    (((derived m D d).encode g h).1 = .ok none ↔
      (∃ i s, (d.field i).kind = .fixed s ∧ s.encode (g i) = none) ∨
      (∃ pre i post r, List.finRange d.n = pre ++ i :: post ∧ (d.field i).kind = .dynamic r ∧
        (D.encode (internFields D d g pre h r) (g i)).1 = none)) ∧
    ((∃ i s, (d.field i).kind = .fixed s ∧ s.encode (g i) = none) →
      (derived m D d).encode g h = (.ok none, h)) := by
  have hl' := allLawful_of_fields hl
  have hrep : ∀ N, Rep g d.fixed N → ¬ ∃ i s, (d.field i).kind = .fixed s ∧ s.encode (g i) = none := by
    rintro N hN ⟨i, s, hk, hn⟩
    have hm := (d.mem_fixed s i).2 hk
    revert hm hN
    generalize d.fixed = l
    intro hN hm
    induction l generalizing N with
    | nil => cases hm
    | cons x xs ih =>
      obtain ⟨s', i'⟩ := x
      obtain ⟨e, N', h1, _, _, h2⟩ := hN
      simp only [List.mem_cons, Prod.mk.injEq] at hm
      rcases hm with ⟨rfl, rfl⟩ | hm
      · rw [hn] at h1; cases h1
      · exact ih N' h2 hm
  have hdyn := encodeDyn_none_iff D d g (List.finRange d.n) h
  rw [← d.dynamics_eq] at hdyn
  rcases derivedEncode_cases m D d hl' _ (fits_checked hf) g h with
    ⟨N, hN, ⟨ks, h', h1, h2⟩ | ⟨h', h1, h2⟩⟩ | ⟨⟨p, hp, hpn⟩, h2⟩
  · simp only [derived, h2]
    rw [h1] at hdyn
    refine ⟨?_, fun hx => (hrep N hN hx).elim⟩
    constructor
    · intro hx; simp at hx
    · rintro (hx | hx)
      · exact (hrep N hN hx).elim
      · have := hdyn.2 hx; simp at this
  · simp only [derived, h2]
    rw [h1] at hdyn
    refine ⟨?_, fun hx => (hrep N hN hx).elim⟩
    constructor
    · intro _; exact .inr (hdyn.1 rfl)
    · intro _; trivial
  · have hx : ∃ i s, (d.field i).kind = .fixed s ∧ s.encode (g i) = none :=
      ⟨p.2, p.1, (d.mem_fixed p.1 p.2).1 hp, hpn⟩
    simp only [derived, h2]
    exact ⟨⟨fun _ => .inl hx, fun _ => trivial⟩, fun _ => trivial⟩

theorem encodeFixed_total {n : Nat} (m : Mode) (g : Fin n → V) (l : List (FixedSet V × Fin n)) (mul index : Nat) :
    ((∃ p ∈ l, p.1.encode (g p.2) = none) ∧
      (encodeFixed m g l mul index = .ok none ∨ m = .debug ∧ encodeFixed m g l mul index = .panic)) ∨
    ((¬ ∃ p ∈ l, p.1.encode (g p.2) = none) ∧
      ((∃ i, encodeFixed m g l mul index = .ok (some i)) ∨ m = .debug ∧ encodeFixed m g l mul index = .panic)) := by
  induction l generalizing mul index with
  | nil => exact .inr ⟨by simp, .inl ⟨index, rfl⟩⟩
  | cons x l ih =>
    obtain ⟨s, i⟩ := x
    cases he : s.encode (g i) with
    | none => exact .inl ⟨⟨_, List.mem_cons_self, he⟩, .inl (by simp [encodeFixed, he])⟩
    | some e =>
      have hex : (∃ p ∈ (s, i) :: l, p.1.encode (g p.2) = none) ↔ ∃ p ∈ l, p.1.encode (g p.2) = none := by
        simp [he]
      have hop : (∃ mul' index', encodeFixed m g ((s, i) :: l) mul index = encodeFixed m g l mul' index') ∨
          m = .debug ∧ encodeFixed m g ((s, i) :: l) mul index = .panic := by
        have hM : ∀ a b : Nat, (∃ c, mulU m a b = .ok c) ∨ m = .debug ∧ mulU m a b = .panic := by
          intro a b
          unfold mulU
          split
          · exact .inl ⟨_, rfl⟩
          · cases m
            · exact .inr ⟨rfl, rfl⟩
            · exact .inl ⟨_, rfl⟩
        have hA : ∀ a b : Nat, (∃ c, addU m a b = .ok c) ∨ m = .debug ∧ addU m a b = .panic := by
          intro a b
          unfold addU
          split
          · exact .inl ⟨_, rfl⟩
          · cases m
            · exact .inr ⟨rfl, rfl⟩
            · exact .inl ⟨_, rfl⟩
        simp only [encodeFixed, he]
        rcases hM e mul with ⟨p, hp⟩ | ⟨h1, hp⟩
        · rw [hp]
          rcases hA index p with ⟨q, hq⟩ | ⟨h1, hq⟩
          · rcases hM mul s.card with ⟨r, hr⟩ | ⟨h1, hr⟩
            · exact .inl ⟨r, q, by simp only [Out.ok_bind, hq, hr]⟩
            · exact .inr ⟨h1, by simp only [Out.ok_bind, hq, hr]; rfl⟩
          · exact .inr ⟨h1, by simp only [Out.ok_bind, hq]; rfl⟩
        · exact .inr ⟨h1, by rw [hp]; rfl⟩
      rw [hex]
      rcases hop with ⟨mul', index', h⟩ | ⟨rfl, h⟩
      · rw [h]; exact ih mul' index'
      · rw [h]
        by_cases hx : ∃ p ∈ l, p.1.encode (g p.2) = none
        · exact .inl ⟨hx, .inr ⟨rfl, rfl⟩⟩
        · exact .inr ⟨hx, .inr ⟨rfl, rfl⟩⟩

/-- C04, for any number of combinations and any field sets: a release build is as above, and an overflow-checked one is,
too, unless it panics; and when a fixed value is not in its set no interner has been modified in either. -/
theorem C04_overflow (m : Mode) (D : DynSet S V) (d : GroupDef V) (g : d.Group) (h : Heap S)
    (hm : m = .release ∨ ((derived m D d).encode g h).1 ≠ .panic) :
    (((derived m D d).encode g h).1 = .ok none ↔
      (∃ i s, (d.field i).kind = .fixed s ∧ s.encode (g i) = none) ∨
      (∃ pre i post r, List.finRange d.n = pre ++ i :: post ∧ (d.field i).kind = .dynamic r ∧
        (D.encode (internFields D d g pre h r) (g i)).1 = none)) ∧
    ((∃ i s, (d.field i).kind = .fixed s ∧ s.encode (g i) = none) →
      (derived m D d).encode g h = (.ok none, h)) := by
  have hex : (∃ p ∈ d.fixed, p.1.encode (g p.2) = none) ↔ ∃ i s, (d.field i).kind = .fixed s ∧ s.encode (g i) = none := by
    constructor
    · rintro ⟨⟨s, i⟩, hp, hn⟩; exact ⟨i, s, (d.mem_fixed s i).1 hp, hn⟩
    · rintro ⟨i, s, hk, hn⟩; exact ⟨(s, i), (d.mem_fixed s i).2 hk, hn⟩
  have hdyn := encodeDyn_none_iff D d g (List.finRange d.n) h
  rw [← d.dynamics_eq] at hdyn
  have hnp : ¬ (m = .debug ∧ encodeFixed m g d.fixed 1 0 = .panic) := by
    rintro ⟨rfl, hp⟩
    rcases hm with hm | hm
    · cases hm
    · exact hm (by simp [derived, derivedEncode, hp])
  rcases encodeFixed_total m g d.fixed 1 0 with ⟨hx, h1 | h1⟩ | ⟨hx, ⟨i, h1⟩ | h1⟩
  · have hx := hex.1 hx
    have : (derived m D d).encode g h = (.ok none, h) := by simp [derived, derivedEncode, h1]
    rw [this]
    exact ⟨⟨fun _ => .inl hx, fun _ => rfl⟩, fun _ => rfl⟩
  · exact absurd h1 hnp
  · rw [hex] at hx
    refine ⟨?_, fun h => absurd h hx⟩
    rw [← hdyn]
    simp only [derived, derivedEncode, h1]
    rcases encodeDyn D g d.dynamics h with ⟨_ | ks, h'⟩
    · simp
    · simpa using hx
  · exact absurd h1 hnp

/-- C04, the failure of a fixed field leaves the interners alone also when the encoding panics on an overflow before. -/
theorem C04_untouched (m : Mode) (D : DynSet S V) (d : GroupDef V) (g : d.Group) (h : Heap S)
    (hx : ∃ i s, (d.field i).kind = .fixed s ∧ s.encode (g i) = none) : ((derived m D d).encode g h).2 = h := by
  have hx' : ∃ p ∈ d.fixed, p.1.encode (g p.2) = none := by
    obtain ⟨i, s, hk, hn⟩ := hx
    exact ⟨(s, i), (d.mem_fixed s i).2 hk, hn⟩
  rcases encodeFixed_total m g d.fixed 1 0 with ⟨_, h1 | ⟨_, h1⟩⟩ | ⟨h2, _⟩
  · simp [derived, derivedEncode, h1]
  · simp [derived, derivedEncode, h1]
  · exact absurd hx' h2

/-- The third field's value is unknown: nothing is interned although the dynamic field is new. -/
example : (derived .debug threadedRodeo exampleDef).encode ![ "Post", "/new", "unknown" ] exampleHeap
    = (.ok none, exampleHeap) :=
  (C04_encode_none .debug threadedRodeo exampleDef exampleDef_lawful
    (fits_of_pos (by decide) (by decide)) _ _).2 ⟨(2 : Fin 3), _, rfl, by decide⟩

/-! ## C05 -/

/-- A fixed set with the members `0..c` (for instance a `RodeoReader` with that many strings). -/
def rangeSet (c : Nat) : FixedSet Nat where
  card := c
  encode v := if v < c then some v else none
  decode n := if n < c then .ok n else .panic

theorem rangeSet_laws (c : Nat) : FixedSetLaws (rangeSet c) where
  enc_dec v i h := by
    simp only [rangeSet] at h ⊢
    split at h <;> simp_all
  dec_enc i hi := by
    simp only [rangeSet] at hi ⊢
    exact ⟨i, by simp [hi], by simp [hi]⟩

/-- Three fields of `2^32` values each: `2^96` combinations. -/
def hugeDef : GroupDef Nat where
  n := 3
  field := fun _ => ⟨b!"f", .fixed (rangeSet 4294967296)⟩

/-- `2^96` combinations, the last value unknown: a release build says so, a debug build panics. -/
example (h : Heap (Rodeo Nat)) :
    (derived .release threadedRodeo hugeDef).encode ![ 4294967295, 4294967295, 4294967296 ] h = (.ok none, h) ∧
    ((derived .debug threadedRodeo hugeDef).encode ![ 4294967295, 4294967295, 4294967296 ] h).2 = h :=
  ⟨(C04_overflow .release threadedRodeo hugeDef _ h (.inl rfl)).2 ⟨(2 : Fin 3), _, rfl, by decide⟩,
    C04_untouched _ _ _ _ _ ⟨(2 : Fin 3), _, rfl, by decide⟩⟩

/-- C05 is false: for a struct with more than `2^64` combinations two different groups get the same id in a
release build (the id even decodes to a third-party group), and a debug build panics. -/
theorem C05_ids_collide_refuted :
    ∃ (d : GroupDef Nat) (g g' : d.Group) (u : Nat × List Nat) (h : Heap (Rodeo Nat)),
      FieldsLawful FixedSetLaws d ∧ (∀ r, (h r).Inv) ∧ g ≠ g' ∧
      (derived .release threadedRodeo d).encode g h = (.ok (some u), h) ∧
      (derived .release threadedRodeo d).encode g' h = (.ok (some u), h) ∧
      ((derived .debug threadedRodeo d).encode g' h).1 = .panic := by
  refine ⟨hugeDef, ![0, 0, 0], ![1, 0, 0], (0, []), fun _ => ⟨[], 10⟩, ?_, ?_, ?_, ?_, ?_, by decide⟩
  · intro i s h
    simp only [hugeDef] at h; cases h
    exact rangeSet_laws _
  · intro r; exact List.nodup_nil
  · intro h
    have := congrFun h (0 : Fin 3)
    simp at this
  · rfl
  · rfl

/-- C05, the part that holds. Full claim: ids are one-to-one for every derived group. Missing: release
builds when the fixed fields have more than `2^64` combinations (refuted above, and in `C05_collide_iff` for all such
groups). It holds (1) in both modes when the combinations are at most `2^64`, (2) in overflow-checked builds always, because
encoding panics instead. The ids may be obtained at different times: `h₂` is any later state of the interners. -/
theorem C05_ids_injective_partial (m : Mode) (D : DynSet S V) (inv : S → Prop) (le : S → S → Prop)
    (valid : S → Nat → Prop) (L : DynSetLaws D inv le valid) (d : GroupDef V)
    (hl : FieldsLawful FixedSetLaws d) (hm : combinations d ≤ W64 ∨ m = .debug)
    (g₁ g₂ : d.Group) (h h₁ h₂ h₃ : Heap S) (hh : ∀ r, inv (h r)) (hh₂ : ∀ r, inv (h₂ r))
    (hle : ∀ r, le (h₁ r) (h₂ r)) (u : Nat × List Nat)
    (he₁ : (derived m D d).encode g₁ h = (.ok (some u), h₁))
    (he₂ : (derived m D d).encode g₂ h₂ = (.ok (some u), h₃)) : g₁ = g₂ := by
  have round : ∀ (g : d.Group) (h h' : Heap S), HeapInv inv h → (derived m D d).encode g h = (.ok (some u), h') →
      DynValid valid h' d.dynamics u.2 ∧ derivedDecode m D d h' u = .ok g := by
    intro g h h' hh he
    cases m with
    | debug => exact derived_debug_round_trip L d hl g h h' hh u he
    | release =>
      rcases hm with hc | hm
      · exact derived_release_round_trip L d hl hc g h h' hh u he
      · cases hm
  obtain ⟨v1, d1⟩ := round g₁ h h₁ hh he₁
  obtain ⟨v2, d2⟩ := round g₂ h₂ h₃ hh₂ he₂
  have i1 := encodeDyn_inv L g₁ d.dynamics h hh
  have i3 := encodeDyn_inv L g₂ d.dynamics h₂ hh₂
  rw [(derivedEncode_some he₁).2] at i1
  rw [(derivedEncode_some he₂).2] at i3
  have hs : derivedDecode m D d h₃ u = derivedDecode m D d h₁ u := by
    unfold derivedDecode
    congr 1
    funext ⟨index, env⟩
    simp only [(dynValid_stable L i1.1 i3.1 (heapLe_trans L hle i3.2) _ _ v1 env).2]
  rw [hs, d1] at d2
  cases d2; rfl

example : combinations exampleDef ≤ W64 := by decide
example : (derived .debug threadedRodeo hugeDef).encode ![0, 0, 7] (fun _ => ⟨[], 10⟩)
    = (.panic, (fun _ => ⟨[], 10⟩)) := rfl

/-- C05, exactly when it fails: as soon as any group can be encoded, some two groups get the same id in a release build if
and only if there are more than `2^64` combinations of the fixed fields. -/
theorem C05_collide_iff (D : DynSet S V) (inv : S → Prop) (le : S → S → Prop)
    (valid : S → Nat → Prop) (L : DynSetLaws D inv le valid) (d : GroupDef V) (hl : FieldsLawful FixedSetLaws d)
    (h h₁ : Heap S) (hh : ∀ r, inv (h r)) (g₀ : d.Group) (u₀ : Nat × List Nat)
    (h₀ : (derived .release D d).encode g₀ h = (.ok (some u₀), h₁)) :
    (∃ g g' u h' h'', g ≠ g' ∧ (derived .release D d).encode g h = (.ok (some u), h') ∧
      (derived .release D d).encode g' h' = (.ok (some u), h'')) ↔ W64 < combinations d := by
  constructor
  · rintro ⟨g, g', u, h', h'', hne, e1, e2⟩
    by_contra hc
    have i1 := encodeDyn_inv L g d.dynamics h hh
    rw [(derivedEncode_some e1).2] at i1
    exact hne (C05_ids_injective_partial .release D inv le valid L d hl (.inl (Nat.not_lt.1 hc)) g g' h h' h' h'' hh i1.1
      (fun r => L.le_refl _) u e1 e2)
  · intro hc
    obtain ⟨g, hg, hgd⟩ := group_of_number d hl g₀ 0 (Nat.lt_trans (by decide) hc)
    obtain ⟨g', hg', hgd'⟩ := group_of_number d hl g₀ W64 hc
    have hd := (derivedEncode_some h₀).2
    have again : encodeDyn D g₀ d.dynamics h₁ = (some u₀.2, h₁) := by
      obtain ⟨v, hv⟩ := encodeDyn_dec L g₀ d.dynamics h h₁ hh _ hd (fun _ => none)
      have i1 := encodeDyn_inv L g₀ d.dynamics h hh
      rw [hd] at i1
      obtain ⟨env, e1, _, _, e4⟩ := decodeDyn_total L h₁ i1.1 d.dynamics d.dynamics_nodup u₀.2 v (fun _ => none)
      rw [hv] at e1
      cases e1
      exact e4 g₀ fun j hj => if_pos hj
    refine ⟨g, g', (0, u₀.2), h₁, h₁, ?_, ?_, ?_⟩
    · rintro rfl
      exact absurd (hg.unique hg') (by decide)
    · simp only [derived, derivedEncode, encodeFixed_release g _ 0 hg 1 0 (by decide),
        encodeDyn_congr g g₀ d.dynamics hgd, hd]
      rfl
    · simp only [derived, derivedEncode, encodeFixed_release g' _ W64 hg' 1 0 (by decide),
        encodeDyn_congr g' g₀ d.dynamics hgd', again]
      rfl

/-- Three fields of `2^32` values: too many. -/
example (h : Heap (Rodeo Nat)) (hh : ∀ r, (h r).Inv) :
    ∃ g g' u h' h'', g ≠ g' ∧ (derived .release threadedRodeo hugeDef).encode g h = (.ok (some u), h') ∧
      (derived .release threadedRodeo hugeDef).encode g' h' = (.ok (some u), h'') :=
  (C05_collide_iff threadedRodeo _ _ _ threadedRodeo_laws hugeDef
    (fun i s h => by simp only [hugeDef] at h; cases h; exact rangeSet_laws _) h h hh ![0, 0, 7]
    (7, []) rfl).2 (by decide)

/-- Two fields of `2^32` values: `2^64` combinations, whose ids still differ in a release build. -/
example (h : Heap (Rodeo Nat)) (hh : ∀ r, (h r).Inv) :
    ¬ ∃ g g' u h' h'', g ≠ g' ∧
      (derived .release threadedRodeo ⟨2, fun _ => ⟨b!"f", .fixed (rangeSet 4294967296)⟩⟩).encode g h = (.ok (some u), h') ∧
      (derived .release threadedRodeo ⟨2, fun _ => ⟨b!"f", .fixed (rangeSet 4294967296)⟩⟩).encode g' h' = (.ok (some u), h'') :=
  fun hc => absurd ((C05_collide_iff threadedRodeo _ _ _ threadedRodeo_laws ⟨2, fun _ => ⟨b!"f", .fixed (rangeSet 4294967296)⟩⟩
    (fun i s h => by simp only at h; cases h; exact rangeSet_laws _) h h hh ![5, 7] (7 + 5 * 4294967296, []) rfl).1 hc) (by decide)

/-! ## C07 -/

/-- C07. Composition of faithful numberings is a faithful numbering (so every nesting is); its cardinality
is the product, absent iff one part has none or the product does not fit; `Arc`/`&'static` change nothing;
a `StaticLabelSet` is a faithful numbering. -/
theorem C07_composed {G₁ U₁ G₂ U₂ : Type} (m : Mode) (a : GroupSet S G₁ U₁) (b : GroupSet S G₂ U₂)
    (inv : S → Prop) (le : S → S → Prop) (va : S → U₁ → Prop) (vb : S → U₂ → Prop)
    (A : GroupSetLaws a inv le va) (B : GroupSetLaws b inv le vb) :
    GroupSetLaws (composed m a b) inv le (fun s u => va s u.1 ∧ vb s u.2) ∧
    (∀ c, (composed m a b).cardinality = some c ↔
      ∃ x y, a.cardinality = some x ∧ b.cardinality = some y ∧ x * y < W64 ∧ c = x * y) ∧
    ((composed m a b).cardinality = none ↔ a.cardinality = none ∨ b.cardinality = none ∨
      ∃ x y, a.cardinality = some x ∧ b.cardinality = some y ∧ W64 ≤ x * y) ∧
    refGroupSet (composed m a b) = composed m a b := by
  refine ⟨composed_laws m A B, ?_, ?_, rfl⟩
  · intro c
    simp only [composed, composedCardinality, checkedMul]
    cases a.cardinality <;> cases b.cardinality <;> simp
    intro _
    exact eq_comm
  · simp only [composed, composedCardinality, checkedMul]
    cases a.cardinality <;> cases b.cardinality <;> simp

/-- C07, for the members themselves: what the laws say about encode/decode of a composed group. -/
theorem C07_composed_dense {G₁ U₁ G₂ U₂ : Type} (m : Mode) (a : GroupSet S G₁ U₁) (b : GroupSet S G₂ U₂)
    (inv : S → Prop) (le : S → S → Prop) (va : S → U₁ → Prop) (vb : S → U₂ → Prop)
    (A : GroupSetLaws a inv le va) (B : GroupSetLaws b inv le vb) (s : S) (hs : inv s) (c : Nat)
    (hc : (composed m a b).cardinality = some c) :
    (∀ g u s', (composed m a b).encode g s = (.ok (some u), s') →
      (composed m a b).decode s' u = .ok g ∧
      ∃ i, i < c ∧ (composed m a b).encodeDense u = .ok (some i) ∧ (composed m a b).decodeDense s' i = .ok g) ∧
    (∀ i, i < c → ∃ g u, (composed m a b).decodeDense s i = .ok g ∧
      (composed m a b).encode g s = (.ok (some u), s) ∧ (composed m a b).encodeDense u = .ok (some i)) := by
  have L := composed_laws m A B
  constructor
  · intro g u s' he
    obtain ⟨hv, hd⟩ := L.enc_dec s g u s' hs he
    have hs' : inv s' := by have := (L.enc_inv s g hs).1; rw [he] at this; exact this
    obtain ⟨i, h1, h2, h3⟩ := L.dense s' u c hs' hc hv
    exact ⟨hd, i, h1, h2, by rw [h3, hd]⟩
  · intro i hi
    obtain ⟨u, hv, he⟩ := L.dense_surj s i c hs hc hi
    obtain ⟨g, hd, hge⟩ := L.valid_enc s u hs hv
    obtain ⟨j, _, h2, h3⟩ := L.dense s u c hs hc hv
    rw [he] at h2; cases h2
    exact ⟨g, u, by rw [h3, hd], hge, he⟩

/-- The example of the repository (`composed_label_set`). -/
example : (composed .debug (staticGroupSet (S := Unit) ["Get", "Post"])
      (staticGroupSet ["User", "Internal", "Network"])).encodeDense (1, 1) = .ok (some 4) ∧
    (composed .debug (staticGroupSet (S := Unit) ["Get", "Post"])
      (staticGroupSet ["User", "Internal", "Network"])).decodeDense () 4 = .ok ("Post", "Internal") ∧
    (composed .debug (staticGroupSet (S := Unit) ["Get", "Post"])
      (staticGroupSet ["User", "Internal", "Network"])).cardinality = some 6 := by decide

/-! ## C16 (order of ids) -/

/-- C16. For derived groups with fixed fields only, comparing dense ids is comparing the field numbers
lexicographically in declaration order, first field most significant. (Collection walks the ids in
increasing order, see `C15_…` in `Props/MetricVec.lean`.) -/
theorem C16_dense_order (m : Mode) (D : DynSet S V) (d : GroupDef V)
    (hl : FieldsLawful FixedSetLaws d) (c : Nat) (hc : (derived m D d).cardinality = some c)
    (g g' : d.Group) (u u' : Nat × List Nat) (i i' : Nat) (h h₁ h₂ : Heap S)
    (he : (derived m D d).encode g h = (.ok (some u), h₁))
    (he' : (derived m D d).encode g' h = (.ok (some u'), h₂))
    (hi : (derived m D d).encodeDense u = .ok (some i))
    (hi' : (derived m D d).encodeDense u' = .ok (some i')) :
    ∃ ds ds' : List Nat, fixedNumbers d g = ds.map some ∧ fixedNumbers d g' = ds'.map some ∧
      (i < i' ↔ List.Lex (· < ·) ds ds') := by
  have hl' := allLawful_of_fields hl
  have hcc : checkedCards d.fixed (some 1) = some c ∧ d.dynamics.isEmpty = true := by
    simp only [derived, derivedCardinality] at hc
    split at hc
    · rename_i hd; exact ⟨hc, hd⟩
    · cases hc
  have key : ∀ (g : d.Group) (u : Nat × List Nat) (i : Nat) (h₁ : Heap S),
      (derived m D d).encode g h = (.ok (some u), h₁) →
      (derived m D d).encodeDense u = .ok (some i) → Rep g d.fixed i := by
    intro g u i h₁ he hi
    have h1 := (derivedEncode_some he).1
    simp only [derived, derivedEncodeDense, hcc.2, if_true, Out.ok.injEq, Option.some.injEq] at hi
    rcases encodeFixed_spec m g d.fixed hl' 1 0 _ hcc.1 (by omega) (by decide) with ⟨N, hN, e⟩ | ⟨_, e⟩
    · rw [e] at h1
      simp only [Out.ok.injEq, Option.some.injEq] at h1
      have : N = i := by omega
      rw [← this]; exact hN
    · rw [e] at h1; cases h1
  have r := key g u i h₁ he hi
  have r' := key g' u' i' h₂ he' hi'
  obtain ⟨ds, hds, _⟩ := r.digits
  obtain ⟨ds', hds', _⟩ := r'.digits
  have e1 : fixedNumbers d g = ds.reverse.map some := by
    rw [← List.reverse_inj, fixedNumbers_eq, hds, ← List.map_reverse, List.reverse_reverse]
  have e2 : fixedNumbers d g' = ds'.reverse.map some := by
    rw [← List.reverse_inj, fixedNumbers_eq, hds', ← List.map_reverse, List.reverse_reverse]
  exact ⟨ds.reverse, ds'.reverse, e1, e2, (r.lt_iff_lex r' hds hds').1⟩

example : (derived .debug threadedRodeo exampleFixed).encode ![ "Get", "slow" ] exampleHeap
      = (.ok (some (2, [])), exampleHeap) ∧
    (derived .debug threadedRodeo exampleFixed).encode ![ "Post", "ok" ] exampleHeap
      = (.ok (some (3, [])), exampleHeap) := ⟨rfl, rfl⟩

end Measured
