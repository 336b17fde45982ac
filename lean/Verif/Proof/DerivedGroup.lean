import Verif.Proof.LabelGroup
import Verif.Spec.Group
import Mathlib.Algebra.BigOperators.Group.List.Basic
import Mathlib.Tactic.Linarith

/-! Helper lemmas connecting the generated code to the vocabulary of `Spec.Group`. -/

namespace Measured
open Measured.Spec
variable {S V : Type}

theorem allLawful_of_fields {d : GroupDef V} (h : FieldsLawful FixedSetLaws d) : AllLawful d.fixed := by
  rintro ⟨s, i⟩ hp
  exact h i s ((d.mem_fixed s i).1 hp)

theorem fixedCards_eq (d : GroupDef V) :
    fixedCards d = ((List.finRange d.n).filterMap (fixedRef d)).map (fun p => p.1.card) := by
  unfold fixedCards
  rw [List.map_filterMap]
  congr 1
  funext i
  unfold fixedRef
  cases (d.field i).kind <;> rfl

theorem cardProd_eq {n : Nat} (l : List (FixedSet V × Fin n)) :
    cardProd l = (l.map (fun p => p.1.card)).prod := by
  induction l with
  | nil => rfl
  | cons x xs ih => obtain ⟨s, i⟩ := x; simp [cardProd, ih]

theorem fixed_cards_reverse (d : GroupDef V) : (d.fixed.map (fun p => p.1.card)) = (fixedCards d).reverse := by
  rw [d.fixed_eq, fixedCards_eq, List.map_reverse]

theorem combinations_eq (d : GroupDef V) : combinations d = cardProd d.fixed := by
  rw [cardProd_eq, fixed_cards_reverse, List.prod_reverse]
  rfl

/-- `checkedCards` succeeds iff all prefix products fit. -/
theorem checkedCards_iff {n : Nat} (l : List (FixedSet V × Fin n)) (mul : Nat) (hm : mul < W64) :
    (∃ P, checkedCards l (some mul) = some P) ↔
      ∀ k, mul * ((l.map (fun p => p.1.card)).take k).prod < W64 := by
  induction l generalizing mul with
  | nil => simp [checkedCards, hm]
  | cons x xs ih =>
    obtain ⟨s, i⟩ := x
    by_cases hc : mul * s.card < W64
    · have : checkedCards ((s, i) :: xs) (some mul) = checkedCards xs (some (mul * s.card)) := by
        simp [checkedCards, checkedMul, hc]
      rw [this, ih _ hc]
      constructor
      · intro h k
        cases k with
        | zero => simpa using hm
        | succ k => simpa [Nat.mul_assoc] using h k
      · intro h k
        simpa [Nat.mul_assoc] using h (k + 1)
    · have : checkedCards ((s, i) :: xs) (some mul) = none := by
        simp [checkedCards, checkedMul, hc, checkedCards_none]
      rw [this]
      constructor
      · rintro ⟨P, hP⟩; cases hP
      · intro h
        have := h 1
        simp at this
        omega

theorem fits_iff (d : GroupDef V) : Fits d ↔ ∃ P, checkedCards d.fixed (some 1) = some P := by
  rw [checkedCards_iff _ _ (by decide), fixed_cards_reverse]
  simp only [Nat.one_mul]
  constructor
  · intro h k
    rw [List.take_reverse, List.prod_reverse]
    exact h _
  · intro h k
    by_cases hk : k ≤ (fixedCards d).length
    · have := h ((fixedCards d).length - k)
      rw [List.take_reverse, List.prod_reverse] at this
      rw [show (fixedCards d).length - ((fixedCards d).length - k) = k by omega] at this
      exact this
    · rw [List.drop_eq_nil_of_le (by omega)]; decide

theorem fits_checked {d : GroupDef V} (h : Fits d) : checkedCards d.fixed (some 1) = some (combinations d) := by
  obtain ⟨P, hP⟩ := (fits_iff d).1 h
  rw [hP, combinations_eq, checkedCards_eq hP, Nat.one_mul]

theorem prod_pos (l : List Nat) (hpos : ∀ x ∈ l, 0 < x) : 0 < l.prod := by
  induction l with
  | nil => simp
  | cons x xs ih =>
    rw [List.prod_cons]
    exact Nat.mul_pos (hpos x (by simp)) (ih fun y hy => hpos y (by simp [hy]))

theorem prod_drop_le (l : List Nat) (hpos : ∀ x ∈ l, 0 < x) (k : Nat) : (l.drop k).prod ≤ l.prod := by
  have h := List.prod_take_mul_prod_drop l k
  have h1 : 0 < (l.take k).prod := prod_pos _ fun x hx => hpos x (List.mem_of_mem_take hx)
  calc (l.drop k).prod ≤ (l.take k).prod * (l.drop k).prod := Nat.le_mul_of_pos_left _ h1
    _ = l.prod := h

theorem fits_of_pos {d : GroupDef V} (hpos : ∀ c ∈ fixedCards d, 0 < c) (h : combinations d < W64) : Fits d :=
  fun k => Nat.lt_of_le_of_lt (prod_drop_le _ hpos k) h

theorem fixedCards_pos_of_enc {d : GroupDef V} (hl : FieldsLawful FixedSetLaws d) (g : d.Group)
    (h : ∀ i s, (d.field i).kind = .fixed s → s.encode (g i) ≠ none) : ∀ c ∈ fixedCards d, 0 < c := by
  intro c hc
  unfold fixedCards at hc
  obtain ⟨i, _, hi⟩ := List.mem_filterMap.1 hc
  cases hk : (d.field i).kind with
  | dynamic r => simp [hk] at hi
  | fixed s =>
    simp [hk] at hi
    subst hi
    cases he : s.encode (g i) with
    | none => exact absurd he (h i s hk)
    | some e => have := ((hl i s hk).enc_dec _ _ he).1; omega

theorem encodeFixed_some_all {n : Nat} (m : Mode) (g : Fin n → V) (l : List (FixedSet V × Fin n))
    (mul index r : Nat) (h : encodeFixed m g l mul index = .ok (some r)) :
    ∀ p ∈ l, p.1.encode (g p.2) ≠ none := by
  induction l generalizing mul index with
  | nil => simp
  | cons x xs ih =>
    obtain ⟨s, i⟩ := x
    simp only [encodeFixed] at h
    cases he : s.encode (g i) with
    | none => simp [he] at h
    | some e =>
      simp only [he, Out.bind_eq_ok] at h
      obtain ⟨p, _, ix, _, mu, _, h'⟩ := h
      intro q hq
      simp only [List.mem_cons] at hq
      rcases hq with rfl | hq
      · simp [he]
      · exact ih _ _ h' q hq

theorem derivedEncode_some {m : Mode} {D : DynSet S V} {d : GroupDef V} {g : d.Group} {h h' : Heap S}
    {u : Nat × List Nat} (he : derivedEncode m D d g h = (.ok (some u), h')) :
    encodeFixed m g d.fixed 1 0 = .ok (some u.1) ∧ encodeDyn D g d.dynamics h = (some u.2, h') := by
  unfold derivedEncode at he
  cases hf : encodeFixed m g d.fixed 1 0 with
  | ok o =>
    cases o with
    | none => simp [hf] at he
    | some N =>
      simp only [hf] at he
      cases hd : encodeDyn D g d.dynamics h with
      | mk o h'' =>
        cases o with
        | none => simp [hd] at he
        | some ks =>
          simp only [hd, Prod.mk.injEq, Out.ok.injEq, Option.some.injEq] at he
          obtain ⟨rfl, rfl⟩ := he
          exact ⟨rfl, rfl⟩
  | err => simp [hf] at he
  | panic => simp [hf] at he

theorem derivedEncode_some_fixed {m : Mode} {D : DynSet S V} {d : GroupDef V} {g : d.Group} {h h' : Heap S}
    {u : Nat × List Nat} (he : derivedEncode m D d g h = (.ok (some u), h')) :
    ∀ i s, (d.field i).kind = .fixed s → s.encode (g i) ≠ none := by
  intro i s hk
  exact encodeFixed_some_all _ _ _ _ _ _ (derivedEncode_some he).1 (s, i) ((d.mem_fixed s i).2 hk)

/-- If an id is produced and the number of combinations fits, nothing overflowed. -/
theorem fits_of_encoded {m : Mode} {D : DynSet S V} {d : GroupDef V} (hl : FieldsLawful FixedSetLaws d)
    (hc : combinations d < W64) {g : d.Group} {h h' : Heap S} {u : Nat × List Nat}
    (he : derivedEncode m D d g h = (.ok (some u), h')) : Fits d :=
  fits_of_pos (fixedCards_pos_of_enc hl g (derivedEncode_some_fixed he)) hc

/-! ## Overflow-checked builds -/

theorem mulU_debug {a b c : Nat} (h : mulU .debug a b = .ok c) : c = a * b := by
  unfold mulU at h; split at h <;> simp_all

theorem addU_debug {a b c : Nat} (h : addU .debug a b = .ok c) : c = a + b := by
  unfold addU at h; split at h <;> simp_all

theorem encodeFixed_debug {n : Nat} (g : Fin n → V) (l : List (FixedSet V × Fin n)) (hl : AllLawful l)
    (mul index r : Nat) (h : encodeFixed .debug g l mul index = .ok (some r)) :
    ∃ N, Rep g l N ∧ r = index + mul * N := by
  induction l generalizing mul index with
  | nil => simp [encodeFixed] at h; exact ⟨0, rfl, by omega⟩
  | cons x xs ih =>
    obtain ⟨s, i⟩ := x
    simp only [encodeFixed] at h
    cases he : s.encode (g i) with
    | none => simp [he] at h
    | some e =>
      simp only [he, Out.bind_eq_ok] at h
      obtain ⟨p, hp, ix, hix, mu, hmu, h'⟩ := h
      obtain ⟨N, hN, rfl⟩ := ih (fun p hp => hl p (by simp [hp])) _ _ h'
      refine ⟨e + s.card * N, ⟨e, N, he, ((hl (s, i) (by simp)).enc_dec _ _ he).1, rfl, hN⟩, ?_⟩
      rw [addU_debug hix, mulU_debug hp, mulU_debug hmu, Nat.mul_add, Nat.mul_assoc, Nat.mul_comm e mul]
      omega

/-- In an overflow-checked build every produced id decodes to its group, whatever the cardinalities. -/
theorem derived_debug_round_trip {D : DynSet S V} {inv : S → Prop} {le : S → S → Prop}
    {valid : S → Nat → Prop} (L : DynSetLaws D inv le valid) (d : GroupDef V)
    (hl : FieldsLawful FixedSetLaws d) (g : d.Group) (h h' : Heap S) (hh : HeapInv inv h) (u : Nat × List Nat)
    (he : derivedEncode .debug D d g h = (.ok (some u), h')) :
    DynValid valid h' d.dynamics u.2 ∧ derivedDecode .debug D d h' u = .ok g := by
  obtain ⟨h1, h2⟩ := derivedEncode_some he
  obtain ⟨N, hN, hr⟩ := encodeFixed_debug g d.fixed (allLawful_of_fields hl) 1 0 _ h1
  have hu : u = (N, u.2) := by
    apply Prod.ext
    · simp only [hr]; omega
    · rfl
  refine ⟨(encodeDyn_dec L g _ h h' hh _ h2 (fun _ => none)).1, ?_⟩
  rw [hu]
  exact derivedDecode_of_rep _ D d (allLawful_of_fields hl) g N hN h' _
    (fun env => (encodeDyn_dec L g _ h h' hh _ h2 env).2)

/-! ## Wrapping builds -/

theorem mulU_release (a b : Nat) : mulU .release a b = .ok (a * b % W64) := by
  unfold mulU
  split
  · rename_i h; rw [Nat.mod_eq_of_lt h]
  · rfl

theorem addU_release (a b : Nat) : addU .release a b = .ok ((a + b) % W64) := by
  unfold addU
  split
  · rename_i h; rw [Nat.mod_eq_of_lt h]
  · rfl

theorem encodeFixed_release {n : Nat} (g : Fin n → V) (l : List (FixedSet V × Fin n)) (N : Nat) (hN : Rep g l N)
    (mul index : Nat) (hi : index < W64) : encodeFixed .release g l mul index = .ok (some ((index + mul * N) % W64)) := by
  induction l generalizing N mul index with
  | nil =>
    simp only [Rep] at hN
    subst hN
    simp [encodeFixed, Nat.mod_eq_of_lt hi]
  | cons x xs ih =>
    obtain ⟨s, i⟩ := x
    obtain ⟨e, N', he, _, rfl, hN'⟩ := hN
    simp only [encodeFixed, he, mulU_release, addU_release, Out.ok_bind]
    rw [ih N' hN' _ _ (Nat.mod_lt _ (by decide))]
    congr 2
    have hx : ∀ a x y : Nat, (a + x % W64 * y) % W64 = (a + x * y) % W64 := fun a x y => by
      rw [Nat.add_mod, Nat.mul_mod, Nat.mod_mod, ← Nat.mul_mod, ← Nat.add_mod]
    rw [hx, Nat.mod_add_mod, Nat.add_right_comm, Nat.add_mod_mod]
    congr 1
    rw [Nat.add_right_comm, Nat.mul_add, ← Nat.mul_assoc, Nat.mul_comm e mul, Nat.add_assoc]

theorem rep_of_encodes {n : Nat} (g : Fin n → V) (l : List (FixedSet V × Fin n)) (hl : AllLawful l)
    (h : ∀ p ∈ l, p.1.encode (g p.2) ≠ none) : ∃ N, Rep g l N := by
  induction l with
  | nil => exact ⟨0, rfl⟩
  | cons x xs ih =>
    obtain ⟨s, i⟩ := x
    obtain ⟨N, hN⟩ := ih (fun p hp => hl p (by simp [hp])) (fun p hp => h p (by simp [hp]))
    obtain ⟨e, he⟩ := Option.ne_none_iff_exists'.1 (h (s, i) (by simp))
    exact ⟨e + s.card * N, e, N, he, ((hl (s, i) (by simp)).enc_dec _ _ he).1, rfl, hN⟩

/-- In a wrapping build every produced id decodes to its group, up to `2^64` combinations. -/
theorem derived_release_round_trip {D : DynSet S V} {inv : S → Prop} {le : S → S → Prop}
    {valid : S → Nat → Prop} (L : DynSetLaws D inv le valid) (d : GroupDef V)
    (hl : FieldsLawful FixedSetLaws d) (hc : combinations d ≤ W64) (g : d.Group) (h h' : Heap S) (hh : HeapInv inv h)
    (u : Nat × List Nat) (he : derivedEncode .release D d g h = (.ok (some u), h')) :
    DynValid valid h' d.dynamics u.2 ∧ derivedDecode .release D d h' u = .ok g := by
  obtain ⟨h1, h2⟩ := derivedEncode_some he
  obtain ⟨N, hN⟩ := rep_of_encodes g d.fixed (allLawful_of_fields hl)
    (fun p hp => derivedEncode_some_fixed he _ _ ((d.mem_fixed _ _).1 hp))
  rw [encodeFixed_release g _ N hN 1 0 (by decide)] at h1
  have hlt : N < W64 := Nat.lt_of_lt_of_le hN.lt (combinations_eq d ▸ hc)
  have hu : u = (N, u.2) := by
    apply Prod.ext
    · simp only [Out.ok.injEq, Option.some.injEq] at h1
      rw [← h1]
      simp [Nat.mod_eq_of_lt hlt]
    · rfl
  refine ⟨(encodeDyn_dec L g _ h h' hh _ h2 (fun _ => none)).1, ?_⟩
  rw [hu]
  exact derivedDecode_of_rep _ D d (allLawful_of_fields hl) g N hN h' _
    (fun env => (encodeDyn_dec L g _ h h' hh _ h2 env).2)

theorem encodeDyn_congr {D : DynSet S V} {n : Nat} (g g' : Fin n → V) (l : List (Nat × Fin n))
    (hg : ∀ p ∈ l, g p.2 = g' p.2) (h : Heap S) : encodeDyn D g l h = encodeDyn D g' l h := by
  induction l generalizing h with
  | nil => rfl
  | cons x xs ih =>
    obtain ⟨r, i⟩ := x
    simp only [encodeDyn]
    have e : g i = g' i := hg (r, i) (by simp)
    rw [e]
    simp only [ih (fun p hp => hg p (by simp [hp]))]

/-- A group with the given number and otherwise like `g`. -/
theorem group_of_number (d : GroupDef V) (hl : FieldsLawful FixedSetLaws d) (g : d.Group) (N : Nat)
    (hN : N < combinations d) : ∃ g' : d.Group, Rep g' d.fixed N ∧ ∀ p ∈ d.dynamics, g' p.2 = g p.2 := by
  obtain ⟨env, _, h2, _, h4⟩ := decodeFixed_total d.fixed (allLawful_of_fields hl) d.fixed_nodup N
    (combinations_eq d ▸ hN) (fun _ => none)
  have hfix : ∀ j, j ∈ d.fixed.map Prod.snd ↔ ∃ s, (d.field j).kind = .fixed s := by
    intro j
    simp only [List.mem_map, Prod.exists, exists_eq_right]
    exact exists_congr fun s => d.mem_fixed s j
  refine ⟨fun j => if j ∈ d.fixed.map Prod.snd then (env j).getD (g j) else g j, h4 _ fun j hj => ?_, ?_⟩
  · obtain ⟨v, hv⟩ := Option.isSome_iff_exists.1 (h2 j hj)
    rw [if_pos hj, hv]
    rfl
  · rintro ⟨r, j⟩ hp
    have : j ∉ d.fixed.map Prod.snd := by
      rw [hfix]
      rintro ⟨s, hs⟩
      rw [(d.mem_dynamics r j).1 hp] at hs
      cases hs
    exact if_neg this

/-! ## Refusals -/

theorem encodeDyn_none_iff (D : DynSet S V) (d : GroupDef V) (g : d.Group) (l : List (Fin d.n)) (h : Heap S) :
    (encodeDyn D g (l.filterMap (dynRef d)) h).1 = none ↔
      ∃ pre i post r, l = pre ++ i :: post ∧ (d.field i).kind = .dynamic r ∧
        (D.encode (internFields D d g pre h r) (g i)).1 = none := by
  induction l generalizing h with
  | nil => simp [encodeDyn]
  | cons x xs ih =>
    cases hk : (d.field x).kind with
    | fixed s =>
      have hx : dynRef d x = none := by simp [dynRef, hk]
      rw [List.filterMap_cons, hx, ih]
      constructor
      · rintro ⟨pre, i, post, r, rfl, h1, h2⟩
        exact ⟨x :: pre, i, post, r, rfl, h1, by simpa [internFields, hk] using h2⟩
      · rintro ⟨pre, i, post, r, h0, h1, h2⟩
        cases pre with
        | nil =>
          simp only [List.nil_append, List.cons.injEq] at h0
          rw [← h0.1, hk] at h1; cases h1
        | cons y ys =>
          simp only [List.cons_append, List.cons.injEq] at h0
          obtain ⟨rfl, rfl⟩ := h0
          exact ⟨ys, i, post, r, rfl, h1, by simpa [internFields, hk] using h2⟩
    | dynamic r0 =>
      have hx : dynRef d x = some (r0, x) := by simp [dynRef, hk]
      rw [List.filterMap_cons, hx]
      simp only [encodeDyn]
      cases he : D.encode (h r0) (g x) with
      | mk o s =>
        cases o with
        | none =>
          constructor
          · intro _
            exact ⟨[], x, xs, r0, rfl, hk, by simp [internFields, he]⟩
          · intro _; rfl
        | some k =>
          have ih' := ih (h.set r0 s)
          refine Iff.trans ?_ (Iff.trans ih' ?_)
          · simp only
            cases encodeDyn D g (xs.filterMap (dynRef d)) (h.set r0 s) with
            | mk o h' => cases o <;> simp
          constructor
          · rintro ⟨pre, i, post, r, rfl, h1, h2⟩
            exact ⟨x :: pre, i, post, r, rfl, h1, by simpa [internFields, hk, he] using h2⟩
          · rintro ⟨pre, i, post, r, h0, h1, h2⟩
            cases pre with
            | nil =>
              simp only [List.nil_append, List.cons.injEq] at h0
              obtain ⟨rfl, rfl⟩ := h0
              rw [hk] at h1; cases h1
              simp [internFields, he] at h2
            | cons y ys =>
              simp only [List.cons_append, List.cons.injEq] at h0
              obtain ⟨rfl, rfl⟩ := h0
              exact ⟨ys, i, post, r, rfl, h1, by simpa [internFields, hk, he] using h2⟩

/-! ## Order of dense ids -/

/-- `Rep` in terms of a list of digits, least significant first. -/
theorem Rep.digits {n : Nat} {g : Fin n → V} {l : List (FixedSet V × Fin n)} {N : Nat} (h : Rep g l N) :
    ∃ ds : List Nat, l.map (fun p => p.1.encode (g p.2)) = ds.map some ∧ ds.length = l.length := by
  induction l generalizing N with
  | nil => exact ⟨[], rfl, rfl⟩
  | cons x xs ih =>
    obtain ⟨s, i⟩ := x
    obtain ⟨e, N', h1, _, _, h2⟩ := h
    obtain ⟨ds, hds, hlen⟩ := ih h2
    exact ⟨e :: ds, by simp [h1, hds], by simp [hlen]⟩

theorem lex_snoc {a b : List Nat} (hlen : a.length = b.length) (x y : Nat) :
    List.Lex (· < ·) (a ++ [x]) (b ++ [y]) ↔ List.Lex (· < ·) a b ∨ (a = b ∧ x < y) := by
  induction a generalizing b with
  | nil =>
    cases b with
    | nil =>
      simp only [List.nil_append, true_and]
      constructor
      · intro h
        cases h with
        | rel h => exact .inr h
        | cons h => cases h
      · rintro (h | h)
        · cases h
        · exact .rel h
    | cons _ _ => simp at hlen
  | cons p ps ih =>
    cases b with
    | nil => simp at hlen
    | cons q qs =>
      simp only [List.length_cons, Nat.add_right_cancel_iff] at hlen
      simp only [List.cons_append]
      rw [List.cons_lex_cons_iff, List.cons_lex_cons_iff, ih hlen]
      simp only [List.cons.injEq]
      grind

theorem Rep.lt_iff_lex {n : Nat} {g g' : Fin n → V} {l : List (FixedSet V × Fin n)} {N N' : Nat}
    (h : Rep g l N) (h' : Rep g' l N') {ds ds' : List Nat}
    (hd : l.map (fun p => p.1.encode (g p.2)) = ds.map some)
    (hd' : l.map (fun p => p.1.encode (g' p.2)) = ds'.map some) :
    (N < N' ↔ List.Lex (· < ·) ds.reverse ds'.reverse) ∧ (N = N' ↔ ds = ds') := by
  induction l generalizing N N' ds ds' with
  | nil =>
    simp only [Rep] at h h'
    simp only [List.map_nil] at hd hd'
    have e1 := (List.map_eq_nil_iff.1 hd.symm)
    have e2 := (List.map_eq_nil_iff.1 hd'.symm)
    subst e1; subst e2; subst h; subst h'
    simp
  | cons x xs ih =>
    obtain ⟨s, i⟩ := x
    obtain ⟨e, M, h1, he, rfl, h2⟩ := h
    obtain ⟨e', M', h1', he', rfl, h2'⟩ := h'
    cases ds with
    | nil => simp at hd
    | cons a as =>
      cases ds' with
      | nil => simp at hd'
      | cons b bs =>
        simp only [List.map_cons, List.cons.injEq, h1, h1', Option.some.injEq] at hd hd'
        obtain ⟨rfl, hd⟩ := hd
        obtain ⟨rfl, hd'⟩ := hd'
        obtain ⟨i1, i2⟩ := ih h2 h2' hd hd'
        have hlen : as.reverse.length = bs.reverse.length := by
          have q1 := congrArg List.length hd
          have q2 := congrArg List.length hd'
          simp at q1 q2; simp; omega
        constructor
        · rw [List.reverse_cons, List.reverse_cons, lex_snoc hlen, ← i1, List.reverse_inj, ← i2]
          constructor
          · intro hlt
            rcases Nat.lt_trichotomy M M' with hm | hm | hm
            · exact .inl hm
            · subst hm; exact .inr ⟨rfl, by omega⟩
            · exfalso
              have : s.card * (M' + 1) ≤ s.card * M := Nat.mul_le_mul_left _ hm
              rw [Nat.mul_add] at this; omega
          · rintro (hm | ⟨rfl, hm⟩)
            · have : s.card * (M + 1) ≤ s.card * M' := Nat.mul_le_mul_left _ hm
              rw [Nat.mul_add] at this; omega
            · omega
        · rw [List.cons.injEq, ← i2]
          constructor
          · intro heq
            have h3 : e = e' := by
              have := congrArg (· % s.card) heq
              simpa [Nat.add_mul_mod_self_left, Nat.mod_eq_of_lt he, Nat.mod_eq_of_lt he'] using this
            subst h3
            refine ⟨rfl, ?_⟩
            have : s.card * M = s.card * M' := by omega
            exact Nat.eq_of_mul_eq_mul_left (by omega) this
          · rintro ⟨rfl, rfl⟩; rfl

theorem fixedNumbers_eq (d : GroupDef V) (g : d.Group) :
    (fixedNumbers d g).reverse = d.fixed.map (fun p => p.1.encode (g p.2)) := by
  rw [d.fixed_eq, List.map_reverse]
  congr 1
  unfold fixedNumbers
  rw [List.map_filterMap]
  congr 1
  funext i
  unfold fixedRef
  cases (d.field i).kind <;> rfl

end Measured
