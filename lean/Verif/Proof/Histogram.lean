import Verif.Model.Histogram
import Verif.Proof.F64
import Mathlib.Data.List.Basic
import Mathlib.Tactic.Ring

/-! Lemmas about thresholds, binary search and bucket counts. -/

set_option exponentiation.threshold 3000

namespace Measured
open F64

/-! ## Binary search -/

theorem searchLoop_ok {α : Type} (l : List α) (pred : α → Bool) :
    ∀ fuel base size, 0 < size → base + size ≤ l.length →
      ∃ b, searchLoop l pred fuel base size = .ok b ∧ base ≤ b ∧ b < base + size := by
  intro fuel
  induction fuel with
  | zero => intro base size h0 h; exact ⟨base, rfl, Nat.le_refl _, by omega⟩
  | succ fuel ih =>
    intro base size h0 h
    unfold searchLoop
    by_cases hs : 1 < size
    · rw [if_pos hs]
      have hm : base + size / 2 < l.length := by omega
      simp only [List.getElem?_eq_getElem hm, expect, Out.ok_bind]
      split
      · obtain ⟨b, e, h1, h2⟩ := ih (base + size / 2) (size - size / 2) (by omega) (by omega)
        exact ⟨b, e, by omega, by omega⟩
      · obtain ⟨b, e, h1, h2⟩ := ih base (size - size / 2) (by omega) (by omega)
        exact ⟨b, e, by omega, by omega⟩
    · rw [if_neg hs]; exact ⟨base, rfl, Nat.le_refl _, by omega⟩

/-- Whatever the slice and predicate: no read out of bounds, and the result is at most the length. -/
theorem slicePartitionPoint_le {α : Type} (l : List α) (pred : α → Bool) :
    ∃ b, slicePartitionPoint l pred = .ok b ∧ b ≤ l.length := by
  unfold slicePartitionPoint
  by_cases h : l.length = 0
  · exact ⟨0, by rw [if_pos h], by omega⟩
  · rw [if_neg h]
    obtain ⟨b, e, _, h2⟩ := searchLoop_ok l pred l.length 0 l.length (by omega) (by omega)
    rw [e]
    simp only [Out.ok_bind, List.getElem?_eq_getElem (show b < l.length by omega), expect]
    exact ⟨_, rfl, by split <;> omega⟩

/-- The predicate holds on a prefix of the slice only. -/
def Partitioned {α : Type} (l : List α) (pred : α → Bool) (k : Nat) : Prop :=
  ∀ i x, l[i]? = some x → (pred x = true ↔ i < k)

theorem searchLoop_partitioned {α : Type} (l : List α) (pred : α → Bool) (k : Nat) (hp : Partitioned l pred k) :
    ∀ fuel base size, 0 < size → base + size ≤ l.length → size ≤ fuel →
      (base < k ∨ base = 0) → k ≤ base + size →
      ∃ b, searchLoop l pred fuel base size = .ok b ∧ b < l.length ∧ (b < k ∨ b = 0) ∧ k ≤ b + 1 := by
  intro fuel
  induction fuel with
  | zero => intro base size h0 _ hf; omega
  | succ fuel ih =>
    intro base size h0 h hf hb hk
    unfold searchLoop
    by_cases hs : 1 < size
    · rw [if_pos hs]
      have hm : base + size / 2 < l.length := by omega
      have hpm := hp _ _ (List.getElem?_eq_getElem hm)
      simp only [List.getElem?_eq_getElem hm, expect, Out.ok_bind]
      split
      · rename_i hc
        have := hpm.1 hc
        exact ih (base + size / 2) (size - size / 2) (by omega) (by omega) (by omega) (by omega) (by omega)
      · rename_i hc
        have : ¬ base + size / 2 < k := fun h => hc (hpm.2 h)
        exact ih base (size - size / 2) (by omega) (by omega) (by omega) hb (by omega)
    · rw [if_neg hs]
      exact ⟨base, rfl, by omega, hb, by omega⟩

theorem slicePartitionPoint_eq {α : Type} (l : List α) (pred : α → Bool) (k : Nat) (hk : k ≤ l.length)
    (hp : Partitioned l pred k) : slicePartitionPoint l pred = .ok k := by
  unfold slicePartitionPoint
  by_cases h : l.length = 0
  · rw [if_pos h]; congr 1; omega
  · rw [if_neg h]
    obtain ⟨b, e, h1, h2, h3⟩ :=
      searchLoop_partitioned l pred k hp l.length 0 l.length (by omega) (by omega) (Nat.le_refl _) (.inr rfl)
        (by omega)
    have hpb := hp _ _ (List.getElem?_eq_getElem h1)
    rw [e]
    simp only [Out.ok_bind, List.getElem?_eq_getElem h1, expect]
    congr 1
    split
    · rename_i hc; have := hpb.1 hc; omega
    · rename_i hc
      have : ¬ b < k := fun h => hc (hpb.2 h)
      omega

/-! ## Order facts -/

theorem flt_trans {x y z : F64} (h1 : flt x y = true) (h2 : flt y z = true) : flt x z = true := by
  rw [flt_iff] at *
  exact ⟨h1.1, h2.2.1, by omega⟩

theorem fle_trans {x y z : F64} (h1 : fle x y = true) (h2 : fle y z = true) : fle x z = true := by
  rw [fle_iff] at *
  exact ⟨h1.1, h2.2.1, by omega⟩

theorem flt_fle {x y : F64} (h : flt x y = true) : fle x y = true := by
  rw [flt_iff] at h; rw [fle_iff]; exact ⟨h.1, h.2.1, by omega⟩

theorem flt_of_le_of_lt {x y z : F64} (h1 : fle x y = true) (h2 : flt y z = true) : flt x z = true := by
  rw [flt_iff] at *; rw [fle_iff] at h1
  exact ⟨h1.1, h2.2.1, by omega⟩

theorem not_flt {x y : F64} (hx : x.isNaN = false) (hy : y.isNaN = false) : flt x y = false ↔ fle y x = true := by
  simp [flt, fle, hx, hy]

/-! ## Bucket counts -/

/-- The bucket of `x` for non-decreasing thresholds: the number of thresholds below `x`. -/
def bucketOf (le : List F64) (x : F64) : Nat := (le.takeWhile fun t => flt t x).length

theorem bucketOf_le (le : List F64) (x : F64) : bucketOf le x ≤ le.length :=
  (List.takeWhile_prefix _).length_le

theorem partitioned_takeWhile {α : Type} (pred : α → Bool) : ∀ (l : List α),
    l.Pairwise (fun a b => pred b = true → pred a = true) →
    Partitioned l pred (l.takeWhile pred).length := by
  intro l
  induction l with
  | nil => intro _ i x h; simp at h
  | cons a as ih =>
    intro hp i x hx
    rw [List.pairwise_cons] at hp
    by_cases ha : pred a = true
    · rw [List.takeWhile_cons_of_pos ha, List.length_cons]
      cases i with
      | zero =>
        simp only [List.getElem?_cons_zero, Option.some.injEq] at hx
        subst hx
        simp [ha]
      | succ i =>
        rw [List.getElem?_cons_succ] at hx
        rw [ih hp.2 i x hx]; omega
    · rw [List.takeWhile_cons_of_neg ha, List.length_nil]
      constructor
      · intro hpx
        cases i with
        | zero =>
          simp only [List.getElem?_cons_zero, Option.some.injEq] at hx
          subst hx
          exact absurd hpx ha
        | succ i =>
          rw [List.getElem?_cons_succ] at hx
          exact absurd (hp.1 x (List.mem_of_getElem? hx) hpx) ha
      · intro h; omega

theorem nondecreasing_pred {le : List F64} (h : le.Pairwise fun a b => fle a b = true) (x : F64) :
    le.Pairwise (fun a b => flt b x = true → flt a x = true) :=
  h.imp fun hab hb => flt_of_le_of_lt hab hb

theorem partition_bucketOf {le : List F64} (h : le.Pairwise fun a b => fle a b = true) (x : F64) :
    slicePartitionPoint le (fun t => flt t x) = .ok (bucketOf le x) :=
  slicePartitionPoint_eq _ _ _ (bucketOf_le le x) (partitioned_takeWhile _ _ (nondecreasing_pred h x))

/-- `x` counts for bucket `i` and all later ones exactly when the bound is not below `x`. -/
theorem bucketOf_le_iff {le : List F64} (h : le.Pairwise fun a b => fle a b = true) (x : F64) {i : Nat} {b : F64}
    (hi : le[i]? = some b) : bucketOf le x ≤ i ↔ flt b x = false := by
  have := partitioned_takeWhile (fun t => flt t x) _ (nondecreasing_pred h x) i b hi
  simp only at this
  unfold bucketOf
  rw [← Nat.not_lt, ← this]
  simp

/-- Number of observations put in bucket `j`. -/
def hits (le : List F64) (xs : List F64) (j : Nat) : Nat := xs.countP fun x => bucketOf le x == j

theorem hits_nil (le : List F64) (j : Nat) : hits le [] j = 0 := rfl

theorem hits_append (le xs ys : List F64) (j : Nat) : hits le (xs ++ ys) j = hits le xs j + hits le ys j :=
  List.countP_append ..

theorem hits_le (le xs : List F64) (j : Nat) : hits le xs j ≤ xs.length := List.countP_le_length

/-- What a state looks like after observations `xs`, starting from zero. -/
structure HistAfter (le xs : List F64) (h : HistInner) : Prop where
  buckets : h.buckets = (List.range le.length).map fun j => hits le xs j % W64
  inf : h.inf = hits le xs le.length % W64
  sum : h.sum = xs.foldl F64.add F64.pzero

theorem histAfter_default (le : List F64) : HistAfter le [] (HistInner.default le.length) := by
  refine ⟨?_, rfl, rfl⟩
  simp only [HistInner.default, hits_nil]
  apply List.ext_getElem <;> simp

theorem hits_single (le : List F64) (x : F64) (j : Nat) :
    hits le [x] j = if bucketOf le x = j then 1 else 0 := by
  simp [hits, List.countP_cons]

theorem histAfter_observe {le xs : List F64} {h : HistInner} (hle : le.Pairwise fun a b => fle a b = true)
    (ha : HistAfter le xs h) (x : F64) :
    ∃ h', histObserve le h x = .ok h' ∧ HistAfter le (xs ++ [x]) h' := by
  have hlen : h.buckets.length = le.length := by rw [ha.buckets]; simp
  have hb := bucketOf_le le x
  unfold histObserve
  rw [partition_bucketOf hle]
  simp only [Out.ok_bind, HistInner.observe, hlen, hb, if_true]
  refine ⟨_, rfl, ?_⟩
  by_cases hlt : bucketOf le x < le.length
  · simp only [hlt, if_true]
    constructor
    · simp only [ha.buckets]
      apply List.ext_getElem
      · simp
      · intro j h1 h2
        simp only [List.getElem_modify, List.getElem_map, List.getElem_range, hits_append, hits_single]
        split
        · simp only [incU64, W64]; omega
        · rfl
    · simp only [ha.inf, hits_append, hits_single]
      rw [if_neg (by omega)]; rfl
    · simp [ha.sum]
  · simp only [hlt, if_false]
    constructor
    · simp only [ha.buckets]
      apply List.map_congr_left
      intro j hj
      rw [List.mem_range] at hj
      rw [hits_append, hits_single, if_neg (by omega)]; rfl
    · simp only [ha.inf, hits_append, hits_single]
      rw [if_pos (by omega)]
      simp only [incU64, W64]; omega
    · simp [ha.sum]

theorem histAfter_all {le : List F64} (hle : le.Pairwise fun a b => fle a b = true) :
    ∀ (ys xs : List F64) (h : HistInner), HistAfter le xs h →
      ∃ h', histObserveAll le h ys = .ok h' ∧ HistAfter le (xs ++ ys) h' := by
  intro ys
  induction ys with
  | nil => intro xs h ha; exact ⟨h, rfl, by simpa using ha⟩
  | cons y ys ih =>
    intro xs h ha
    obtain ⟨h1, e1, a1⟩ := histAfter_observe hle ha y
    obtain ⟨h2, e2, a2⟩ := ih (xs ++ [y]) h1 a1
    refine ⟨h2, ?_, by simpa using a2⟩
    simp [histObserveAll, e1, e2]

/-- Sums of bucket counts count the observations in the first buckets. -/
theorem sum_hits (le xs : List F64) (i : Nat) :
    ((List.range i).map fun j => hits le xs j).sum = xs.countP fun x => decide (bucketOf le x < i) := by
  induction i with
  | zero => simp
  | succ i ih =>
    rw [List.range_succ, List.map_append, List.sum_append, ih]
    simp only [List.map_cons, List.map_nil, List.sum_cons, List.sum_nil, Nat.add_zero, hits]
    clear ih
    induction xs with
    | nil => rfl
    | cons x xs ih =>
      simp only [List.countP_cons, ← ih, decide_eq_true_eq, beq_iff_eq]
      split <;> split <;> split <;> omega

/-! ## `with_buckets` -/

theorem withBucketsLoop_spec (b : List F64) : ∀ fuel i, i + fuel + 1 ≤ b.length →
    (withBucketsLoop b i fuel = .ok () ↔
      ∀ j x y, i ≤ j → j < i + fuel → b[j]? = some x → b[j + 1]? = some y → flt x y = true) ∧
    (withBucketsLoop b i fuel = .ok () ∨ withBucketsLoop b i fuel = .panic) := by
  intro fuel
  induction fuel with
  | zero =>
    intro i _
    refine ⟨⟨fun _ j x y h1 h2 => by omega, fun _ => rfl⟩, .inl rfl⟩
  | succ fuel ih =>
    intro i h
    unfold withBucketsLoop
    have h1 : i < b.length := by omega
    have h2 : i + 1 < b.length := by omega
    simp only [List.getElem?_eq_getElem h1, List.getElem?_eq_getElem h2, expect, Out.ok_bind]
    obtain ⟨ih1, ih2⟩ := ih (i + 1) (by omega)
    by_cases hc : flt b[i] b[i + 1] = true
    · rw [if_pos hc]
      refine ⟨?_, ih2⟩
      rw [ih1]
      constructor
      · intro hh j x y hj1 hj2 hx hy
        by_cases hji : j = i
        · subst hji
          rw [List.getElem?_eq_getElem h1] at hx
          rw [List.getElem?_eq_getElem h2] at hy
          cases hx; cases hy; exact hc
        · exact hh j x y (by omega) (by omega) hx hy
      · intro hh j x y hj1 hj2 hx hy
        exact hh j x y (by omega) (by omega) hx hy
    · rw [if_neg hc]
      refine ⟨⟨fun h => (by cases h), fun hh => ?_⟩, .inr rfl⟩
      exact absurd (hh i _ _ (Nat.le_refl _) (by omega) (List.getElem?_eq_getElem h1)
        (List.getElem?_eq_getElem h2)) hc

theorem pairwise_of_consecutive {α : Type} {R : α → α → Prop} (htr : ∀ {a b c}, R a b → R b c → R a c) :
    ∀ (l : List α), (∀ j x y, l[j]? = some x → l[j + 1]? = some y → R x y) → l.Pairwise R := by
  intro l
  induction l with
  | nil => intro _; exact .nil
  | cons a as ih =>
    intro h
    have has := ih fun j x y hx hy => h (j + 1) x y (by simpa using hx) (by simpa using hy)
    refine List.pairwise_cons.2 ⟨?_, has⟩
    cases as with
    | nil => intro b hb; cases hb
    | cons c cs =>
      have hac : R a c := h 0 a c rfl rfl
      intro b hb
      rcases List.mem_cons.1 hb with rfl | hb
      · exact hac
      · exact htr hac ((List.pairwise_cons.1 has).1 b hb)

theorem consecutive_of_pairwise {α : Type} {R : α → α → Prop} {l : List α} (h : l.Pairwise R)
    {j : Nat} {x y : α} (hx : l[j]? = some x) (hy : l[j + 1]? = some y) : R x y := by
  rw [List.pairwise_iff_getElem] at h
  obtain ⟨h1, e1⟩ := List.getElem?_eq_some_iff.1 hx
  obtain ⟨h2, e2⟩ := List.getElem?_eq_some_iff.1 hy
  rw [← e1, ← e2]
  exact h j (j + 1) h1 h2 (by omega)

/-! ## Generated thresholds -/

theorem pairwise_map_range {f : Nat → F64} (n : Nat) (h : ∀ i, i + 1 < n → fle (f i) (f (i + 1)) = true) :
    ((List.range n).map f).Pairwise fun a b => fle a b = true := by
  apply pairwise_of_consecutive (R := fun a b => fle a b = true) fle_trans
  intro j x y hx hy
  obtain ⟨h1, e1⟩ := List.getElem?_eq_some_iff.1 hx
  obtain ⟨h2, e2⟩ := List.getElem?_eq_some_iff.1 hy
  simp only [List.getElem_map, List.getElem_range] at e1 e2
  rw [← e1, ← e2]
  simp only [List.length_map, List.length_range] at h2
  exact h j h2

namespace F64

/-- Above `1.0`, not NaN. -/
def GeOne (x : F64) : Prop := NonNeg x ∧ one.mag ≤ x.mag

theorem one_mag_pos : 0 < one.mag := by decide

theorem GeOne.pos {x : F64} (h : GeOne x) : 0 < x.mag := Nat.lt_of_lt_of_le one_mag_pos h.2

theorem GeOne.mul {x y : F64} (hx : GeOne x) (hy : GeOne y) : GeOne (mul x y) :=
  ⟨(mul_pos_mag hx.1 hy.1 hx.pos hy.pos).1, Nat.le_trans hx.2 (le_mul hx.1 hy.1 hx.pos hy.2)⟩

theorem powiLoop_zero (fuel : Nat) (a r : F64) : powiLoop fuel a 0 r = r := by
  cases fuel <;> simp [powiLoop]

/-- One round, without the early exit. -/
theorem powiLoop_succ (fuel : Nat) (a : F64) (b : Nat) (r : F64) :
    powiLoop (fuel + 1) a b r = powiLoop fuel (mul a a) (b / 2) (if b % 2 = 1 then mul r a else r) := by
  rw [powiLoop]
  by_cases h : b / 2 = 0
  · rw [h, powiLoop_zero]; simp
  · simp [h]

theorem powiLoop_ge (fuel : Nat) : ∀ (a : F64) (b : Nat) (r : F64), GeOne a → GeOne r →
    GeOne (powiLoop fuel a b r) := by
  induction fuel with
  | zero => intro a b r _ hr; exact hr
  | succ fuel ih =>
    intro a b r ha hr
    rw [powiLoop_succ]
    apply ih _ _ _ (ha.mul ha)
    split
    · exact hr.mul ha
    · exact hr

theorem powiLoop_mono_r (fuel : Nat) : ∀ (a : F64) (b : Nat) (r r' : F64), GeOne a → GeOne r → GeOne r' →
    r.mag ≤ r'.mag → (powiLoop fuel a b r).mag ≤ (powiLoop fuel a b r').mag := by
  induction fuel with
  | zero => intro a b r r' _ _ _ h; exact h
  | succ fuel ih =>
    intro a b r r' ha hr hr' h
    rw [powiLoop_succ, powiLoop_succ]
    split
    · exact ih _ _ _ _ (ha.mul ha) (hr.mul ha) (hr'.mul ha)
        (mul_mono hr.1 ha.1 hr'.1 ha.1 hr.pos ha.pos h (Nat.le_refl _))
    · exact ih _ _ _ _ (ha.mul ha) hr hr' h

/-- Incrementing the exponent: a carried `r'` is at most the base it is carried into. -/
theorem powiLoop_succ_exp (fuel : Nat) : ∀ (a : F64) (c : Nat) (r' : F64), GeOne a → GeOne r' →
    r'.mag ≤ a.mag → c + 1 < 2 ^ fuel → (powiLoop fuel a c r').mag ≤ (powiLoop fuel a (c + 1) one).mag := by
  induction fuel with
  | zero => intro a c r' _ _ _ h; simp at h
  | succ fuel ih =>
    intro a c r' ha hr' hle hc
    have h1 : GeOne one := ⟨one_nonneg, Nat.le_refl _⟩
    rw [powiLoop_succ, powiLoop_succ]
    by_cases hodd : c % 2 = 1
    · have e1 : (c + 1) / 2 = c / 2 + 1 := by omega
      have e2 : ¬ (c + 1) % 2 = 1 := by omega
      rw [if_pos hodd, if_neg e2, e1]
      refine ih _ _ _ (ha.mul ha) (hr'.mul ha) ?_ ?_
      · exact mul_mono hr'.1 ha.1 ha.1 ha.1 hr'.pos ha.pos hle (Nat.le_refl _)
      · rw [Nat.pow_succ] at hc; omega
    · have e1 : (c + 1) / 2 = c / 2 := by omega
      have e2 : (c + 1) % 2 = 1 := by omega
      rw [if_neg hodd, if_pos e2, e1]
      exact powiLoop_mono_r _ _ _ _ _ (ha.mul ha) hr' (h1.mul ha) (by rw [one_mul_mag ha.1 ha.pos]; exact hle)

theorem powi_ge {a : F64} (ha : GeOne a) (n : Nat) : GeOne (powi a n) :=
  powiLoop_ge _ _ _ _ ha ⟨one_nonneg, Nat.le_refl _⟩

theorem powi_mono {a : F64} (ha : GeOne a) {n : Nat} (hn : n + 1 < 2 ^ 32) : (powi a n).mag ≤ (powi a (n + 1)).mag :=
  powiLoop_succ_exp 32 a n one ha ⟨one_nonneg, Nat.le_refl _⟩ ha.2 hn

theorem pzero_val : pzero.val = 0 := by
  simp [pzero, zero, make_val, unit_zero]

/-- What `0.0 < x` says. -/
theorem pos_iff {x : F64} : flt pzero x = true ↔ NonNeg x ∧ 0 < x.mag := by
  rw [flt_iff, pzero_val]
  constructor
  · rintro ⟨_, h2, h3⟩
    have hs : x.sign = false := by
      by_contra hc
      simp only [Bool.not_eq_false] at hc
      simp only [val, hc, if_true] at h3
      omega
    simp only [isNaN, decide_eq_false_iff_not, Nat.not_lt] at h2
    refine ⟨⟨hs, h2⟩, ?_⟩
    simp only [val, hs, Bool.false_eq_true, if_false] at h3
    by_contra hc
    have : x.mag = 0 := by omega
    rw [this, unit_zero] at h3
    omega
  · rintro ⟨h1, h2⟩
    refine ⟨by decide, h1.not_nan, ?_⟩
    rw [h1.val]
    have := (unit_lt_iff (a := 0) (b := x.mag)).2 h2
    rw [unit_zero] at this
    omega

theorem gt_one {x : F64} (h : flt one x = true) : GeOne x := by
  have h0 : flt pzero x = true := flt_trans (by rw [pos_iff]; exact ⟨one_nonneg, one_mag_pos⟩) h
  obtain ⟨h1, _⟩ := pos_iff.1 h0
  exact ⟨h1, (NonNeg.le_iff one_nonneg h1).1 (flt_fle h)⟩

/-! ### `linear_buckets` -/

theorem ofNat_nonneg (n : Nat) : NonNeg (ofNat n) := ⟨round_sign _ _ _, by rw [ofNat, round_mag]; exact roundMag_le_INF _ _⟩

theorem ofNat_mono {n k : Nat} (h : n ≤ k) : (ofNat n).mag ≤ (ofNat k).mag := by
  simp only [ofNat, round_mag]
  exact roundMag_mono 0 (Nat.mul_le_mul_right _ h)

/-- Finite times finite, both non-negative. -/
theorem mul_nonneg {x y : F64} (hx : NonNeg x) (hy : NonNeg y) (fx : x.mag < INF) (fy : y.mag < INF) :
    NonNeg (mul x y) ∧ (mul x y).mag = roundMag (unit x.mag * unit y.mag) 1074 := by
  have i1 : x.isInf = false := by simp [isInf]; omega
  have i2 : y.isInf = false := by simp [isInf]; omega
  unfold mul
  simp only [hx.not_nan, hy.not_nan, Bool.or_false, Bool.false_eq_true, if_false, hx.1, hy.1, bne_self_eq_false, i1, i2]
  exact ⟨⟨round_sign _ _ _, by rw [round_mag]; exact roundMag_le_INF _ _⟩, round_mag _ _ _⟩

theorem mul_nonneg_mono {x y y' : F64} (hx : NonNeg x) (hy : NonNeg y) (hy' : NonNeg y') (fx : x.mag < INF)
    (fy' : y'.mag < INF) (h : y.mag ≤ y'.mag) : (mul x y).mag ≤ (mul x y').mag := by
  rw [(mul_nonneg hx hy fx (by omega)).2, (mul_nonneg hx hy' fx fy').2]
  exact roundMag_mono _ (Nat.mul_le_mul_left _ (unit_le_iff.2 h))

theorem isFinite_iff {x : F64} : x.isFinite = true ↔ x.mag < INF := by simp [isFinite]

/-- Adding to a finite number is monotone, also up to `+∞`. -/
theorem add_mono_nonneg {x y z : F64} (hx : x.isFinite = true) (hy : NonNeg y) (hz : NonNeg z)
    (h : y.mag ≤ z.mag) : fle (add x y) (add x z) = true := by
  have fx := isFinite_iff.1 hx
  have nx : x.isNaN = false := by simp [isNaN]; omega
  have ix : x.isInf = false := by simp [isInf]; omega
  have addInf : ∀ w : F64, NonNeg w → w.mag = INF → add x w = w := by
    intro w hw he
    have iw : w.isInf = true := by simp [isInf, he]
    simp [add, nx, hw.not_nan, ix, iw]
  have hmax : ∀ w : F64, w.isNaN = false → w.val ≤ unit INF := by
    intro w hw
    simp only [isNaN, decide_eq_false_iff_not, Nat.not_lt] at hw
    have := unit_le_iff.2 hw
    unfold val
    split <;> omega
  by_cases hzi : z.mag = INF
  · rw [addInf z hz hzi, fle_iff]
    refine ⟨?_, hz.not_nan, ?_⟩
    · by_cases hyi : y.mag = INF
      · rw [addInf y hy hyi]; exact hy.not_nan
      · exact (add_val hx (isFinite_iff.2 (by have := hy.2; omega))).1
    · rw [hz.val, hzi]
      apply hmax
      by_cases hyi : y.mag = INF
      · rw [addInf y hy hyi]; exact hy.not_nan
      · exact (add_val hx (isFinite_iff.2 (by have := hy.2; omega))).1
  · have hz2 := hz.2
    have fz : z.isFinite = true := isFinite_iff.2 (by omega)
    have fy : y.isFinite = true := isFinite_iff.2 (by omega)
    apply add_mono hx fy fz
    rw [hy.val, hz.val]
    have := unit_le_iff.2 h
    omega

theorem roundMag_ofNat_lt {n : Nat} (h : n < 2 ^ 64) : (ofNat n).mag < INF := by
  simp only [ofNat, round_mag]
  have h1 : roundMag (n * 2 ^ 1074) 0 ≤ roundMag (unit (1087 * 2 ^ 52) * 2 ^ 0) 0 := by
    apply roundMag_mono
    rw [unit_big (by decide)]
    have e1 : 1087 * 2 ^ 52 % 2 ^ 52 = 0 := by decide
    have e2 : 1087 * 2 ^ 52 / 2 ^ 52 - 1 = 1086 := by decide
    rw [e1, e2, Nat.add_zero, Nat.pow_zero, Nat.mul_one, ← Nat.pow_add]
    calc n * 2 ^ 1074 ≤ 2 ^ 64 * 2 ^ 1074 := Nat.mul_le_mul_right _ (Nat.le_of_lt h)
      _ = 2 ^ (52 + 1086) := by rw [← Nat.pow_add]
  rw [roundMag_unit (by decide)] at h1
  exact Nat.lt_of_le_of_lt h1 (by decide)

end F64
end Measured
