import Verif.Spec.GroupLaws
import Verif.Proof.Label

/-! Helper lemmas about derived and composed label group sets. -/

namespace Measured
open Measured.Spec

theorem mulU_ok {m : Mode} {a b : Nat} (h : a * b < W64) : mulU m a b = .ok (a * b) := by
  simp [mulU, h]

theorem addU_ok {m : Mode} {a b : Nat} (h : a + b < W64) : addU m a b = .ok (a + b) := by
  simp [addU, h]

theorem checkedMul_some {a b c : Nat} (h : checkedMul a b = some c) : a * b < W64 ∧ c = a * b := by
  unfold checkedMul at h
  split at h <;> simp_all

/-! ## The macro's sorting and partitioning -/

section sort
variable {α : Type} (key : α → Nat)

theorem insertByKey_zero {x : α} (hx : key x = 0) (l : List α) : insertByKey key x l = x :: l := by
  cases l <;> simp [insertByKey, hx]

theorem insertByKey_one {x : α} (hx : key x = 1) (a b : List α) (ha : ∀ y ∈ a, key y = 0)
    (hb : ∀ y ∈ b, key y = 1) : insertByKey key x (a ++ b) = a ++ x :: b := by
  induction a with
  | nil =>
    cases b with
    | nil => simp [insertByKey]
    | cons y ys => simp [insertByKey, hx, hb y (by simp)]
  | cons y ys ih =>
    have hy := ha y (by simp)
    simp [insertByKey, hx, hy, ih (fun z hz => ha z (by simp [hz]))]

theorem sortByKey_eq (hk : ∀ x, key x = 0 ∨ key x = 1) (l : List α) :
    sortByKey key l = l.filter (fun x => key x == 0) ++ l.filter (fun x => key x == 1) := by
  induction l with
  | nil => simp [sortByKey]
  | cons x xs ih =>
    rw [sortByKey, ih]
    rcases hk x with h | h
    · rw [insertByKey_zero key h]; simp [h]
    · rw [insertByKey_one key h]
      · simp [h]
      · intro y hy; simpa using (List.mem_filter.1 hy).2
      · intro y hy; simpa using (List.mem_filter.1 hy).2

theorem partitionPoint_eq (a b : List α) (p : α → Bool) (ha : ∀ y ∈ a, p y = true)
    (hb : ∀ y ∈ b, p y = false) : partitionPoint p (a ++ b) = a.length := by
  unfold partitionPoint
  induction a with
  | nil =>
    cases b with
    | nil => simp
    | cons y ys => simp [hb y (by simp)]
  | cons y ys ih =>
    have hy := ha y (by simp)
    have := ih (fun z hz => ha z (by simp [hz]))
    simp [hy, this]

end sort

section derive
variable {S V : Type}

theorem sortKey_cases (k : FieldKind V) : sortKey k = 0 ∨ sortKey k = 1 := by
  cases k <;> simp [sortKey]

theorem GroupDef.sortedFields_eq (d : GroupDef V) : d.sortedFields =
    (List.finRange d.n).filter (fun i => sortKey (d.field i).kind == 0) ++
    (List.finRange d.n).filter (fun i => sortKey (d.field i).kind == 1) :=
  sortByKey_eq _ (fun _ => sortKey_cases _) _

theorem GroupDef.part_eq (d : GroupDef V) : d.part =
    ((List.finRange d.n).filter (fun i => sortKey (d.field i).kind == 0)).length := by
  unfold GroupDef.part
  rw [d.sortedFields_eq]
  apply partitionPoint_eq
  · intro y hy; exact (List.mem_filter.1 hy).2
  · intro y hy
    have := (List.mem_filter.1 hy).2
    simp at this; simp [this]

theorem filterMap_filter_eq {α β : Type} (f : α → Option β) (p : α → Bool) (l : List α)
    (h : ∀ x, p x = false → f x = none) : (l.filter p).filterMap f = l.filterMap f := by
  induction l with
  | nil => rfl
  | cons x xs ih =>
    by_cases hp : p x = true
    · simp [hp, List.filterMap_cons, ih]
    · simp only [Bool.not_eq_true] at hp
      simp [hp, ih, h x hp]

/-- Dynamic fields in declaration order. -/
theorem GroupDef.dynamics_eq (d : GroupDef V) : d.dynamics = (List.finRange d.n).filterMap (dynRef d) := by
  unfold GroupDef.dynamics
  rw [d.part_eq, d.sortedFields_eq, List.take_left]
  apply filterMap_filter_eq
  intro x hx
  unfold dynRef
  cases hk : (d.field x).kind <;> simp_all [sortKey]

/-- Fixed fields in reverse declaration order. -/
theorem GroupDef.fixed_eq (d : GroupDef V) :
    d.fixed = ((List.finRange d.n).filterMap (fixedRef d)).reverse := by
  unfold GroupDef.fixed
  rw [d.part_eq, d.sortedFields_eq, List.drop_left, List.filterMap_reverse]
  congr 1
  apply filterMap_filter_eq
  intro x hx
  unfold fixedRef
  cases hk : (d.field x).kind <;> simp_all [sortKey]

theorem GroupDef.mem_fixed (d : GroupDef V) (s : FixedSet V) (i : Fin d.n) :
    (s, i) ∈ d.fixed ↔ (d.field i).kind = .fixed s := by
  rw [d.fixed_eq, List.mem_reverse, List.mem_filterMap]
  constructor
  · rintro ⟨j, _, hj⟩
    unfold fixedRef at hj
    cases hk : (d.field j).kind <;> simp_all
  · intro h
    exact ⟨i, List.mem_finRange i, by simp [fixedRef, h]⟩

theorem GroupDef.mem_dynamics (d : GroupDef V) (r : Nat) (i : Fin d.n) :
    (r, i) ∈ d.dynamics ↔ (d.field i).kind = .dynamic r := by
  rw [d.dynamics_eq, List.mem_filterMap]
  constructor
  · rintro ⟨j, _, hj⟩
    unfold dynRef at hj
    cases hk : (d.field j).kind <;> simp_all
  · intro h
    exact ⟨i, List.mem_finRange i, by simp [dynRef, h]⟩

theorem nodup_filterMap_snd {n : Nat} {β : Type} (f : Fin n → Option (β × Fin n))
    (hf : ∀ i p, f i = some p → p.2 = i) (l : List (Fin n)) (hl : l.Nodup) :
    ((l.filterMap f).map Prod.snd).Nodup := by
  induction l with
  | nil => simp
  | cons x xs ih =>
    rw [List.nodup_cons] at hl
    rw [List.filterMap_cons]
    split
    · exact ih hl.2
    · rename_i p hp
      simp only [List.map_cons, List.nodup_cons]
      refine ⟨?_, ih hl.2⟩
      rw [hf x p hp]
      intro hmem
      obtain ⟨q, hq, hqx⟩ := List.mem_map.1 hmem
      obtain ⟨j, hj, hfj⟩ := List.mem_filterMap.1 hq
      have := hf j q hfj
      rw [hqx] at this
      exact hl.1 (this ▸ hj)

theorem GroupDef.fixed_nodup (d : GroupDef V) : (d.fixed.map Prod.snd).Nodup := by
  rw [d.fixed_eq, List.map_reverse, List.nodup_reverse]
  apply nodup_filterMap_snd _ _ _ (List.nodup_finRange _)
  intro i p hp
  unfold fixedRef at hp
  split at hp <;> simp_all
  rw [← hp]

theorem GroupDef.dynamics_nodup (d : GroupDef V) : (d.dynamics.map Prod.snd).Nodup := by
  rw [d.dynamics_eq]
  apply nodup_filterMap_snd _ _ _ (List.nodup_finRange _)
  intro i p hp
  unfold dynRef at hp
  split at hp <;> simp_all
  rw [← hp]

/-! ## Mixed radix numbers -/

/-- `N` is the mixed radix number of the fixed fields of `g` (least significant field first). -/
def Rep {n : Nat} (g : Fin n → V) : List (FixedSet V × Fin n) → Nat → Prop
  | [], N => N = 0
  | (s, i) :: rest, N => ∃ e N', s.encode (g i) = some e ∧ e < s.card ∧ N = e + s.card * N' ∧ Rep g rest N'

/-- Product of the cardinalities. -/
def cardProd {n : Nat} : List (FixedSet V × Fin n) → Nat
  | [] => 1
  | (s, _) :: rest => s.card * cardProd rest

theorem checkedCards_none {n : Nat} (l : List (FixedSet V × Fin n)) : checkedCards l none = none := by
  induction l with
  | nil => rfl
  | cons x xs ih => obtain ⟨s, i⟩ := x; simpa [checkedCards] using ih

theorem checkedCards_cons {n : Nat} {s : FixedSet V} {i : Fin n} {rest : List (FixedSet V × Fin n)}
    {mul P : Nat} (h : checkedCards ((s, i) :: rest) (some mul) = some P) :
    mul * s.card < W64 ∧ checkedCards rest (some (mul * s.card)) = some P := by
  simp only [checkedCards, Option.bind_some] at h
  by_cases hc : mul * s.card < W64
  · simp only [checkedMul, hc, if_true] at h; exact ⟨hc, h⟩
  · simp only [checkedMul, hc, if_false, checkedCards_none] at h; cases h

theorem checkedCards_eq {n : Nat} {l : List (FixedSet V × Fin n)} {mul P : Nat}
    (h : checkedCards l (some mul) = some P) : P = mul * cardProd l := by
  induction l generalizing mul with
  | nil => simp [checkedCards, cardProd] at h ⊢; exact h.symm
  | cons x xs ih =>
    obtain ⟨s, i⟩ := x
    obtain ⟨_, h'⟩ := checkedCards_cons h
    rw [ih h', cardProd, Nat.mul_assoc]

theorem checkedCards_lt {n : Nat} {l : List (FixedSet V × Fin n)} {mul P : Nat} (hm : mul < W64)
    (h : checkedCards l (some mul) = some P) : P < W64 := by
  induction l generalizing mul with
  | nil => simp [checkedCards] at h; omega
  | cons x xs ih =>
    obtain ⟨s, i⟩ := x
    obtain ⟨h1, h'⟩ := checkedCards_cons h
    exact ih h1 h'

theorem Rep.lt {n : Nat} {g : Fin n → V} {l : List (FixedSet V × Fin n)} {N : Nat} (h : Rep g l N) :
    N < cardProd l := by
  induction l generalizing N with
  | nil => simp only [Rep] at h; simp [h, cardProd]
  | cons x xs ih =>
    obtain ⟨s, i⟩ := x
    obtain ⟨e, N', _, he, rfl, h'⟩ := h
    have := ih h'
    simp only [cardProd]
    calc e + s.card * N' < s.card + s.card * N' := by omega
      _ = s.card * (N' + 1) := by rw [Nat.mul_add]; omega
      _ ≤ s.card * cardProd xs := Nat.mul_le_mul_left _ this

theorem Rep.unique {n : Nat} {g : Fin n → V} {l : List (FixedSet V × Fin n)} {N M : Nat}
    (h : Rep g l N) (h' : Rep g l M) : N = M := by
  induction l generalizing N M with
  | nil => simp only [Rep] at h h'; omega
  | cons x xs ih =>
    obtain ⟨s, i⟩ := x
    obtain ⟨e, N', h1, _, rfl, h2⟩ := h
    obtain ⟨e', M', h1', _, rfl, h2'⟩ := h'
    rw [h1] at h1'; cases h1'
    rw [ih h2 h2']

/-- Lawful fixed sets in the list. -/
def AllLawful {n : Nat} (l : List (FixedSet V × Fin n)) : Prop := ∀ p ∈ l, FixedSetLaws p.1

theorem encodeFixed_spec {n : Nat} (m : Mode) (g : Fin n → V) (l : List (FixedSet V × Fin n))
    (hl : AllLawful l) (mul index P : Nat) (hP : checkedCards l (some mul) = some P)
    (hi : index < mul) (hmul : mul < W64) :
    (∃ N, Rep g l N ∧ encodeFixed m g l mul index = .ok (some (index + mul * N))) ∨
    ((∃ p ∈ l, p.1.encode (g p.2) = none) ∧ encodeFixed m g l mul index = .ok none) := by
  induction l generalizing mul index with
  | nil => exact .inl ⟨0, rfl, by simp [encodeFixed]⟩
  | cons x xs ih =>
    obtain ⟨s, i⟩ := x
    obtain ⟨hc, hP'⟩ := checkedCards_cons hP
    simp only [encodeFixed]
    cases he : s.encode (g i) with
    | none => exact .inr ⟨⟨(s, i), by simp, he⟩, rfl⟩
    | some e =>
      have hlaw := hl (s, i) (by simp)
      have hlt : e < s.card := (hlaw.enc_dec _ _ he).1
      have hb : index + e * mul < mul * s.card := by
        calc index + e * mul < mul + e * mul := by omega
          _ = (e + 1) * mul := by rw [Nat.add_mul]; omega
          _ ≤ s.card * mul := Nat.mul_le_mul_right _ hlt
          _ = mul * s.card := Nat.mul_comm _ _
      have h1 : e * mul < W64 := by omega
      have h2 : index + e * mul < W64 := by omega
      simp only [mulU_ok h1, Out.ok_bind, addU_ok h2, mulU_ok hc]
      rcases ih (fun p hp => hl p (by simp [hp])) _ _ hP' hb hc with ⟨N, hN, hr⟩ | ⟨⟨p, hp, hpn⟩, hr⟩
      · refine .inl ⟨e + s.card * N, ⟨e, N, he, hlt, rfl, hN⟩, ?_⟩
        rw [hr]
        congr 2
        rw [Nat.mul_add, ← Nat.mul_assoc, Nat.mul_comm e mul]; omega
      · exact .inr ⟨⟨p, by simp [hp], hpn⟩, hr⟩

theorem decodeFixed_rep {n : Nat} (g : Fin n → V) (l : List (FixedSet V × Fin n)) (hl : AllLawful l)
    (N : Nat) (h : Rep g l N) (env : Env V n) :
    decodeFixed l N env = .ok (0, fun j => if j ∈ l.map Prod.snd then some (g j) else env j) := by
  induction l generalizing N env with
  | nil => simp only [Rep] at h; subst h; simp [decodeFixed]
  | cons x xs ih =>
    obtain ⟨s, i⟩ := x
    obtain ⟨e, N', h1, he, rfl, h2⟩ := h
    have hc : s.card ≠ 0 := by omega
    have hd : s.decode e = .ok (g i) := ((hl (s, i) (by simp)).enc_dec _ _ h1).2
    have hdiv : (e + s.card * N') / s.card = N' := by
      rw [Nat.add_mul_div_left _ _ (by omega), Nat.div_eq_of_lt he]; omega
    have hmod : (e + s.card * N') % s.card = e := by
      rw [Nat.add_mul_mod_self_left, Nat.mod_eq_of_lt he]
    simp only [decodeFixed, divU, modU, hc, if_false, Out.ok_bind, hmod, hdiv, hd]
    rw [ih (fun p hp => hl p (by simp [hp])) N' h2]
    congr 2
    funext j
    by_cases hj : j ∈ xs.map Prod.snd
    · simp [hj]
    · by_cases hji : j = i
      · subst hji; simp [hj, Env.bind]
      · simp [hj, hji, Env.bind]

/-- Every number below the product decodes; what is decoded encodes back to that number. -/
theorem decodeFixed_total {n : Nat} (l : List (FixedSet V × Fin n)) (hl : AllLawful l)
    (hnd : (l.map Prod.snd).Nodup) (N : Nat) (h : N < cardProd l) (env : Env V n) :
    ∃ env', decodeFixed l N env = .ok (0, env') ∧
      (∀ j ∈ l.map Prod.snd, (env' j).isSome) ∧
      (∀ j, j ∉ l.map Prod.snd → env' j = env j) ∧
      (∀ g : Fin n → V, (∀ j ∈ l.map Prod.snd, env' j = some (g j)) → Rep g l N) := by
  induction l generalizing N env with
  | nil =>
    simp only [cardProd] at h
    have : N = 0 := by omega
    subst this
    exact ⟨env, by simp [decodeFixed], by simp, by simp, fun g _ => rfl⟩
  | cons x xs ih =>
    obtain ⟨s, i⟩ := x
    simp only [cardProd] at h
    have hc : 0 < s.card := Nat.pos_of_ne_zero (by rintro h0; simp [h0] at h)
    have hq : N / s.card < cardProd xs := by
      rw [Nat.div_lt_iff_lt_mul hc, Nat.mul_comm]; exact h
    have hr : N % s.card < s.card := Nat.mod_lt _ hc
    obtain ⟨v, hv, hve⟩ := (hl (s, i) (by simp)).dec_enc _ hr
    simp only [List.map_cons, List.nodup_cons] at hnd
    obtain ⟨env', h1, h2, h3, h4⟩ := ih (fun p hp => hl p (by simp [hp])) hnd.2 _ hq (env.bind i v)
    have hi : env' i = some v := by rw [h3 i hnd.1]; simp [Env.bind]
    refine ⟨env', ?_, ?_, ?_, ?_⟩
    · simp only [decodeFixed, divU, modU, Nat.pos_iff_ne_zero.1 hc, if_false, Out.ok_bind]
      rw [hv]; exact h1
    · intro j hj
      simp only [List.map_cons, List.mem_cons] at hj
      rcases hj with rfl | hj
      · simp [hi]
      · exact h2 j hj
    · intro j hj
      simp only [List.map_cons, List.mem_cons, not_or] at hj
      rw [h3 j hj.2]; simp [Env.bind, hj.1]
    · intro g hg
      refine ⟨N % s.card, N / s.card, ?_, hr, ?_, ?_⟩
      · have := hg i (by simp)
        rw [hi] at this; cases this; exact hve
      · rw [Nat.mod_add_div]
      · exact h4 g (fun j hj => hg j (by simp only [List.map_cons, List.mem_cons]; exact .inr hj))

/-! ## Dynamic fields -/

section dyn
variable {D : DynSet S V} {inv : S → Prop} {le : S → S → Prop} {valid : S → Nat → Prop}

/-- Well-formed heap. -/
def HeapInv (inv : S → Prop) (h : Heap S) : Prop := ∀ r, inv (h r)

/-- Pointwise growth. -/
def HeapLe (le : S → S → Prop) (h h' : Heap S) : Prop := ∀ r, le (h r) (h' r)

/-- The ids of the dynamic fields have been handed out. -/
def DynValid (valid : S → Nat → Prop) {n : Nat} (h : Heap S) : List (Nat × Fin n) → List Nat → Prop
  | [], [] => True
  | (r, _) :: rest, k :: ks => valid (h r) k ∧ DynValid valid h rest ks
  | _, _ => False

theorem heapLe_refl (L : DynSetLaws D inv le valid) (h : Heap S) : HeapLe le h h := fun _ => L.le_refl _

theorem heapLe_trans (L : DynSetLaws D inv le valid) {a b c : Heap S} (h1 : HeapLe le a b)
    (h2 : HeapLe le b c) : HeapLe le a c := fun r => L.le_trans _ _ _ (h1 r) (h2 r)

theorem heap_set_step (L : DynSetLaws D inv le valid) {h : Heap S} (hh : HeapInv inv h) (r : Nat) (v : V) :
    HeapInv inv (h.set r (D.encode (h r) v).2) ∧ HeapLe le h (h.set r (D.encode (h r) v).2) := by
  have := L.enc_inv (h r) v (hh r)
  constructor
  · intro k
    unfold Heap.set
    split
    · exact this.1
    · exact hh k
  · intro k
    unfold Heap.set
    split
    · rename_i hk; rw [hk]; exact this.2
    · exact L.le_refl _

theorem Heap.set_self (h : Heap S) (r : Nat) : h.set r (h r) = h := by
  funext k; simp only [Heap.set]; split <;> simp_all

theorem encodeDyn_inv (L : DynSetLaws D inv le valid) {n : Nat} (g : Fin n → V)
    (l : List (Nat × Fin n)) (h : Heap S) (hh : HeapInv inv h) :
    HeapInv inv (encodeDyn D g l h).2 ∧ HeapLe le h (encodeDyn D g l h).2 := by
  induction l generalizing h with
  | nil => exact ⟨hh, heapLe_refl L h⟩
  | cons x xs ih =>
    obtain ⟨r, i⟩ := x
    obtain ⟨h1, h2⟩ := heap_set_step L hh r (g i)
    simp only [encodeDyn]
    cases he : D.encode (h r) (g i) with
    | mk k s =>
      rw [he] at h1 h2
      cases k with
      | none => exact ⟨h1, h2⟩
      | some k =>
        obtain ⟨h3, h4⟩ := ih _ h1
        simp only
        cases hr : encodeDyn D g xs (h.set r s) with
        | mk ks h' =>
          rw [hr] at h3 h4
          cases ks with
          | none => exact ⟨h3, heapLe_trans L h2 h4⟩
          | some ks => exact ⟨h3, heapLe_trans L h2 h4⟩

theorem dynValid_stable (L : DynSetLaws D inv le valid) {n : Nat} {h h' : Heap S} (hh : HeapInv inv h)
    (hh' : HeapInv inv h') (hle : HeapLe le h h') (l : List (Nat × Fin n)) (ks : List Nat)
    (hv : DynValid valid h l ks) (env : Env V n) :
    DynValid valid h' l ks ∧ decodeDyn D h' l ks env = decodeDyn D h l ks env := by
  induction l generalizing ks env with
  | nil =>
    cases ks with
    | nil => exact ⟨trivial, rfl⟩
    | cons _ _ => exact hv.elim
  | cons x xs ih =>
    obtain ⟨r, i⟩ := x
    cases ks with
    | nil => exact hv.elim
    | cons k ks =>
      obtain ⟨hv1, hv2⟩ := hv
      obtain ⟨s1, s2⟩ := L.stable (h r) (h' r) k (hh r) (hh' r) (hle r) hv1
      refine ⟨⟨s1, (ih ks hv2 env).1⟩, ?_⟩
      simp only [decodeDyn, s2]
      cases D.decode (h r) k with
      | ok v => exact (ih ks hv2 _).2
      | err => rfl
      | panic => rfl

theorem encodeDyn_dec (L : DynSetLaws D inv le valid) {n : Nat} (g : Fin n → V)
    (l : List (Nat × Fin n)) (h h' : Heap S) (hh : HeapInv inv h) (ks : List Nat)
    (he : encodeDyn D g l h = (some ks, h')) (env : Env V n) :
    DynValid valid h' l ks ∧
    decodeDyn D h' l ks env = .ok (fun j => if j ∈ l.map Prod.snd then some (g j) else env j) := by
  induction l generalizing h ks env with
  | nil =>
    simp only [encodeDyn, Prod.mk.injEq, Option.some.injEq] at he
    obtain ⟨rfl, rfl⟩ := he
    exact ⟨trivial, by simp [decodeDyn]⟩
  | cons x xs ih =>
    obtain ⟨r, i⟩ := x
    simp only [encodeDyn] at he
    obtain ⟨h1, h2⟩ := heap_set_step L hh r (g i)
    cases hd : D.encode (h r) (g i) with
    | mk k s =>
      rw [hd] at he h1 h2
      cases k with
      | none => simp at he
      | some k =>
        simp only at he
        cases hr : encodeDyn D g xs (h.set r s) with
        | mk o h'' =>
          rw [hr] at he
          cases o with
          | none => simp at he
          | some ks' =>
            simp only [Prod.mk.injEq, Option.some.injEq] at he
            obtain ⟨rfl, rfl⟩ := he
            obtain ⟨v1, v2⟩ := L.enc_dec _ _ _ _ (hh r) hd
            have hinv := encodeDyn_inv L g xs _ h1
            rw [hr] at hinv
            have hset : (h.set r s) r = s := by simp [Heap.set]
            have hst := L.stable ((h.set r s) r) (h'' r) k (h1 r) (hinv.1 r) (hinv.2 r) (by rw [hset]; exact v1)
            rw [hset, v2] at hst
            obtain ⟨w1, w2⟩ := ih _ h1 ks' hr (env.bind i (g i))
            refine ⟨⟨hst.1, w1⟩, ?_⟩
            simp only [decodeDyn, hst.2, Out.ok_bind, w2]
            congr 1
            funext j
            by_cases hj : j ∈ xs.map Prod.snd
            · simp [hj]
            · by_cases hji : j = i
              · subst hji; simp [hj, Env.bind]
              · simp [hj, hji, Env.bind]

theorem decodeDyn_total (L : DynSetLaws D inv le valid) {n : Nat} (h : Heap S) (hh : HeapInv inv h)
    (l : List (Nat × Fin n)) (hnd : (l.map Prod.snd).Nodup) (ks : List Nat) (hv : DynValid valid h l ks)
    (env : Env V n) :
    ∃ env', decodeDyn D h l ks env = .ok env' ∧
      (∀ j ∈ l.map Prod.snd, (env' j).isSome) ∧
      (∀ j, j ∉ l.map Prod.snd → env' j = env j) ∧
      (∀ g : Fin n → V, (∀ j ∈ l.map Prod.snd, env' j = some (g j)) →
        encodeDyn D g l h = (some ks, h)) := by
  induction l generalizing ks env with
  | nil =>
    cases ks with
    | nil => exact ⟨env, by simp [decodeDyn], by simp, by simp, fun g _ => rfl⟩
    | cons _ _ => exact hv.elim
  | cons x xs ih =>
    obtain ⟨r, i⟩ := x
    cases ks with
    | nil => exact hv.elim
    | cons k ks =>
      obtain ⟨hv1, hv2⟩ := hv
      simp only [List.map_cons, List.nodup_cons] at hnd
      obtain ⟨v, hdv, hev⟩ := L.valid_enc (h r) k (hh r) hv1
      obtain ⟨env', h1, h2, h3, h4⟩ := ih hnd.2 ks hv2 (env.bind i v)
      have hi : env' i = some v := by rw [h3 i hnd.1]; simp [Env.bind]
      refine ⟨env', ?_, ?_, ?_, ?_⟩
      · simp only [decodeDyn, hdv, Out.ok_bind]; exact h1
      · intro j hj
        simp only [List.map_cons, List.mem_cons] at hj
        rcases hj with rfl | hj
        · simp [hi]
        · exact h2 j hj
      · intro j hj
        simp only [List.map_cons, List.mem_cons, not_or] at hj
        rw [h3 j hj.2]; simp [Env.bind, hj.1]
      · intro g hg
        have hgi := hg i (by simp)
        rw [hi] at hgi; cases hgi
        have := h4 g (fun j hj => hg j (by simp only [List.map_cons, List.mem_cons]; exact .inr hj))
        simp only [encodeDyn, hev, Heap.set_self, this]

end dyn

/-! ## The derived set -/

/-- Ids of a derived set: a number below the product of the fixed cardinalities and handed-out dynamic ids. -/
def DerivedValid (valid : S → Nat → Prop) (d : GroupDef V) (h : Heap S) (u : Nat × List Nat) : Prop :=
  u.1 < cardProd d.fixed ∧ DynValid valid h d.dynamics u.2

theorem buildGroup_some {n : Nat} (g : Fin n → V) : buildGroup (fun j => some (g j)) = .ok g := by
  unfold buildGroup
  have : ∀ i : Fin n, (some (g i)).isSome := fun _ => rfl
  simp

theorem debugAssert_true (m : Mode) : debugAssert m true = .ok () := by cases m <;> rfl

theorem GroupDef.covered (d : GroupDef V) (j : Fin d.n) :
    j ∈ d.fixed.map Prod.snd ∨ j ∈ d.dynamics.map Prod.snd := by
  cases hk : (d.field j).kind with
  | fixed s => exact .inl (List.mem_map.2 ⟨(s, j), (d.mem_fixed s j).2 hk, rfl⟩)
  | dynamic r => exact .inr (List.mem_map.2 ⟨(r, j), (d.mem_dynamics r j).2 hk, rfl⟩)

theorem GroupDef.disjoint (d : GroupDef V) (j : Fin d.n) (h1 : j ∈ d.fixed.map Prod.snd)
    (h2 : j ∈ d.dynamics.map Prod.snd) : False := by
  obtain ⟨⟨s, i⟩, h1', hi⟩ := List.mem_map.1 h1
  obtain ⟨⟨r, k⟩, h2', hk⟩ := List.mem_map.1 h2
  simp only at hi hk
  subst hi; subst hk
  rw [d.mem_fixed] at h1'
  rw [d.mem_dynamics] at h2'
  rw [h1'] at h2'; cases h2'

theorem derivedDecode_of_rep (m : Mode) (D : DynSet S V) (d : GroupDef V) (hl : AllLawful d.fixed)
    (g : d.Group) (N : Nat) (hN : Rep g d.fixed N) (h : Heap S) (ks : List Nat)
    (hk : ∀ env, decodeDyn D h d.dynamics ks env
      = .ok (fun j => if j ∈ d.dynamics.map Prod.snd then some (g j) else env j)) :
    derivedDecode m D d h (N, ks) = .ok g := by
  unfold derivedDecode
  rw [decodeFixed_rep g d.fixed hl N hN]
  simp only [Out.ok_bind, decide_true, debugAssert_true, hk]
  rw [← buildGroup_some g]
  congr 1
  funext j
  rcases d.covered j with hj | hj
  · by_cases hj' : j ∈ d.dynamics.map Prod.snd
    · exact (d.disjoint j hj hj').elim
    · rw [if_neg hj', if_pos hj]
  · rw [if_pos hj]

theorem derivedEncode_cases (m : Mode) (D : DynSet S V) (d : GroupDef V) (hl : AllLawful d.fixed) (P : Nat)
    (hP : checkedCards d.fixed (some 1) = some P) (g : d.Group) (h : Heap S) :
    (∃ N, Rep g d.fixed N ∧
      ((∃ ks h', encodeDyn D g d.dynamics h = (some ks, h') ∧ derivedEncode m D d g h = (.ok (some (N, ks)), h')) ∨
       (∃ h', encodeDyn D g d.dynamics h = (none, h') ∧ derivedEncode m D d g h = (.ok none, h')))) ∨
    ((∃ p ∈ d.fixed, p.1.encode (g p.2) = none) ∧ derivedEncode m D d g h = (.ok none, h)) := by
  rcases encodeFixed_spec m g d.fixed hl 1 0 P hP (by omega) (by decide) with ⟨N, hN, he⟩ | ⟨hn, he⟩
  · refine .inl ⟨N, hN, ?_⟩
    unfold derivedEncode
    rw [he]
    simp only [Nat.zero_add, Nat.one_mul]
    cases hd : encodeDyn D g d.dynamics h with
    | mk o h' =>
      cases o with
      | none => exact .inr ⟨h', rfl, rfl⟩
      | some ks => exact .inl ⟨ks, h', rfl, rfl⟩
  · refine .inr ⟨hn, ?_⟩
    unfold derivedEncode
    rw [he]

theorem dynValid_nil {valid : S → Nat → Prop} {n : Nat} {h : Heap S} {ks : List Nat}
    (hv : DynValid (n := n) valid h [] ks) : ks = [] := by
  cases ks with
  | nil => rfl
  | cons _ _ => exact hv.elim

variable {D : DynSet S V} {inv : S → Prop} {le : S → S → Prop} {valid : S → Nat → Prop}

/-- A derived set over lawful field sets is lawful as soon as the fixed cardinalities multiply without
overflow (whether or not there are dynamic fields). -/
theorem derived_laws (m : Mode) (L : DynSetLaws D inv le valid) (d : GroupDef V) (hl : AllLawful d.fixed)
    (P : Nat) (hP : checkedCards d.fixed (some 1) = some P) :
    GroupSetLaws (derived m D d) (HeapInv inv) (HeapLe le) (DerivedValid valid d) where
  le_refl h := heapLe_refl L h
  le_trans _ _ _ h1 h2 := heapLe_trans L h1 h2
  card_lt c hc := by
    simp only [derived, derivedCardinality] at hc
    split at hc
    · rw [hP] at hc; cases hc; exact checkedCards_lt (by decide) hP
    · cases hc
  enc_total h g hh := by
    simp only [derived]
    rcases derivedEncode_cases m D d hl P hP g h with
      ⟨N, _, ⟨ks, h', _, h2⟩ | ⟨h', _, h2⟩⟩ | ⟨_, h2⟩ <;> rw [h2] <;> exact ⟨_, rfl⟩
  enc_inv h g hh := by
    simp only [derived]
    have := encodeDyn_inv L g d.dynamics h hh
    rcases derivedEncode_cases m D d hl P hP g h with
      ⟨N, _, ⟨ks, h', h1, h2⟩ | ⟨h', h1, h2⟩⟩ | ⟨_, h2⟩ <;> rw [h2]
    · rw [h1] at this; exact this
    · rw [h1] at this; exact this
    · exact ⟨hh, heapLe_refl L h⟩
  enc_dec h g u h' hh he := by
    simp only [derived] at he ⊢
    rcases derivedEncode_cases m D d hl P hP g h with
      ⟨N, hN, ⟨ks, h'', h1, h2⟩ | ⟨h'', h1, h2⟩⟩ | ⟨_, h2⟩ <;> rw [h2] at he
    · simp only [Prod.mk.injEq, Out.ok.injEq, Option.some.injEq] at he
      obtain ⟨rfl, rfl⟩ := he
      refine ⟨⟨hN.lt, (encodeDyn_dec L g _ h h'' hh ks h1 (fun _ => none)).1⟩, ?_⟩
      exact derivedDecode_of_rep m D d hl g N hN h'' ks
        (fun env => (encodeDyn_dec L g _ h h'' hh ks h1 env).2)
    · simp at he
    · simp at he
  valid_enc h u hh hu := by
    simp only [derived]
    obtain ⟨N, ks⟩ := u
    obtain ⟨hN, hks⟩ := hu
    simp only at hN hks
    obtain ⟨env1, a1, a2, a3, a4⟩ := decodeFixed_total d.fixed hl d.fixed_nodup N hN (fun _ => none)
    obtain ⟨env2, b1, b2, b3, b4⟩ := decodeDyn_total L h hh d.dynamics d.dynamics_nodup ks hks env1
    have hall : ∀ i, (env2 i).isSome := by
      intro i
      rcases d.covered i with hi | hi
      · rw [b3 i (fun hi' => d.disjoint i hi hi')]; exact a2 i hi
      · exact b2 i hi
    have hget : ∀ i, env2 i = some ((env2 i).get (hall i)) := fun i => by simp
    refine ⟨fun i => (env2 i).get (hall i), ?_, ?_⟩
    · unfold derivedDecode
      rw [a1]
      simp only [Out.ok_bind, decide_true, debugAssert_true, b1]
      unfold buildGroup
      rw [dif_pos hall]
    · have hR : Rep (fun i => (env2 i).get (hall i)) d.fixed N := by
        apply a4
        intro j hj
        rw [← b3 j (fun hj' => d.disjoint j hj hj')]
        exact hget j
      have hD := b4 (fun i => (env2 i).get (hall i)) (fun j _ => hget j)
      rcases derivedEncode_cases m D d hl P hP (fun i => (env2 i).get (hall i)) h with
        ⟨N', hN', ⟨ks', h'', h1, h2⟩ | ⟨h'', h1, h2⟩⟩ | ⟨⟨p, hp, hpn⟩, h2⟩
      · rw [hD] at h1
        simp only [Prod.mk.injEq, Option.some.injEq] at h1
        obtain ⟨rfl, rfl⟩ := h1
        rw [h2, hR.unique hN']
      · rw [hD] at h1; simp at h1
      · exfalso
        clear h2 hD
        have : ∀ (l : List (FixedSet V × Fin d.n)) (M : Nat),
            Rep (fun i => (env2 i).get (hall i)) l M → ∀ q ∈ l, q.1.encode ((env2 q.2).get (hall q.2)) ≠ none := by
          intro l
          induction l with
          | nil => simp
          | cons x xs ih =>
            obtain ⟨s, i⟩ := x
            rintro M ⟨e, M', he, _, _, hr⟩ q hq
            simp only [List.mem_cons] at hq
            rcases hq with rfl | hq
            · simp only; rw [he]; simp
            · exact ih M' hr q hq
        exact this _ _ hR p hp hpn
  stable h h' u hh hh' hle hu := by
    obtain ⟨hN, hks⟩ := hu
    simp only [derived]
    refine ⟨⟨hN, (dynValid_stable L hh hh' hle _ _ hks (fun _ => none)).1⟩, ?_⟩
    unfold derivedDecode
    congr 1
    funext ⟨index, env⟩
    simp only [(dynValid_stable L hh hh' hle _ _ hks env).2]
  dense h u c hh hc hu := by
    simp only [derived, derivedCardinality] at hc ⊢
    split at hc
    · rename_i hd
      obtain ⟨hN, hks⟩ := hu
      rw [checkedCards_eq hc, Nat.one_mul]
      refine ⟨u.1, hN, by simp [derivedEncodeDense, hd], ?_⟩
      rw [List.isEmpty_iff.1 hd] at hks
      have := dynValid_nil hks
      simp only [derivedDecodeDense, hd, if_true]
      rw [← this]
    · cases hc
  dense_surj h i c hh hc hi := by
    simp only [derived, derivedCardinality] at hc ⊢
    split at hc
    · rename_i hd
      rw [checkedCards_eq hc, Nat.one_mul] at hi
      refine ⟨(i, []), ⟨hi, ?_⟩, by simp [derivedEncodeDense, hd]⟩
      rw [List.isEmpty_iff.1 hd]; trivial
    · cases hc

end derive

/-! ## Composed sets -/

section composed
variable {S G₁ U₁ G₂ U₂ : Type} {a : GroupSet S G₁ U₁} {b : GroupSet S G₂ U₂} {inv : S → Prop}
  {le : S → S → Prop} {va : S → U₁ → Prop} {vb : S → U₂ → Prop}

theorem composedCardinality_some {c : Nat} (h : composedCardinality a b = some c) :
    ∃ ca cb, a.cardinality = some ca ∧ b.cardinality = some cb ∧ ca * cb < W64 ∧ c = ca * cb := by
  unfold composedCardinality at h
  cases ha : a.cardinality with
  | none => simp [ha] at h
  | some ca =>
    cases hb : b.cardinality with
    | none => simp [ha, hb] at h
    | some cb =>
      simp only [ha, hb, Option.bind_some] at h
      obtain ⟨h1, h2⟩ := checkedMul_some h
      exact ⟨ca, cb, rfl, rfl, h1, h2⟩

theorem composed_encode_cases (A : GroupSetLaws a inv le va) (B : GroupSetLaws b inv le vb)
    (g : G₁ × G₂) (s : S) (hs : inv s) :
    (∃ s1 u s2 v, a.encode g.1 s = (.ok (some u), s1) ∧ b.encode g.2 s1 = (.ok (some v), s2) ∧
      composedEncode a b g s = (.ok (some (u, v)), s2) ∧ inv s1 ∧ inv s2 ∧ le s s1 ∧ le s1 s2) ∨
    (∃ s', composedEncode a b g s = (.ok none, s') ∧ inv s' ∧ le s s') := by
  obtain ⟨r, hr⟩ := A.enc_total s g.1 hs
  obtain ⟨i1, l1⟩ := A.enc_inv s g.1 hs
  cases he : a.encode g.1 s with
  | mk o s1 =>
    rw [he] at hr i1 l1
    simp only at hr i1 l1
    subst hr
    cases r with
    | none =>
      refine .inr ⟨s1, ?_, i1, l1⟩
      simp [composedEncode, RS.bind_run, he]
    | some u =>
      obtain ⟨r2, hr2⟩ := B.enc_total s1 g.2 i1
      obtain ⟨i2, l2⟩ := B.enc_inv s1 g.2 i1
      cases he2 : b.encode g.2 s1 with
      | mk o2 s2 =>
        rw [he2] at hr2 i2 l2
        simp only at hr2 i2 l2
        subst hr2
        cases r2 with
        | none =>
          refine .inr ⟨s2, ?_, i2, A.le_trans _ _ _ l1 l2⟩
          simp [composedEncode, RS.bind_run, he, he2]
        | some v =>
          refine .inl ⟨s1, u, s2, v, rfl, he2, ?_, i1, i2, l1, l2⟩
          simp [composedEncode, RS.bind_run, he, he2]

/-- Composition of lawful sets is lawful. -/
theorem composed_laws (m : Mode) (A : GroupSetLaws a inv le va) (B : GroupSetLaws b inv le vb) :
    GroupSetLaws (composed m a b) inv le (fun s u => va s u.1 ∧ vb s u.2) where
  le_refl := A.le_refl
  le_trans := A.le_trans
  card_lt c hc := by
    obtain ⟨_, _, _, _, h, rfl⟩ := composedCardinality_some hc; exact h
  enc_total s g hs := by
    simp only [composed]
    rcases composed_encode_cases A B g s hs with ⟨s1, u, s2, v, _, _, h, _⟩ | ⟨s', h, _⟩ <;> rw [h] <;>
      exact ⟨_, rfl⟩
  enc_inv s g hs := by
    simp only [composed]
    rcases composed_encode_cases A B g s hs with ⟨s1, u, s2, v, _, _, h, _, i2, l1, l2⟩ | ⟨s', h, i, l⟩ <;> rw [h]
    · exact ⟨i2, A.le_trans _ _ _ l1 l2⟩
    · exact ⟨i, l⟩
  enc_dec s g u s' hs he := by
    simp only [composed] at he ⊢
    rcases composed_encode_cases A B g s hs with ⟨s1, u1, s2, v, h1, h2, h, i1, i2, l1, l2⟩ | ⟨s', h, i, l⟩ <;>
      rw [h] at he
    · simp only [Prod.mk.injEq, Out.ok.injEq, Option.some.injEq] at he
      obtain ⟨rfl, rfl⟩ := he
      obtain ⟨w1, d1⟩ := A.enc_dec _ _ _ _ hs h1
      obtain ⟨w2, d2⟩ := B.enc_dec _ _ _ _ i1 h2
      obtain ⟨w1', d1'⟩ := A.stable _ _ _ i1 i2 l2 w1
      refine ⟨⟨w1', w2⟩, ?_⟩
      simp [composedDecode, d1', d1, d2]
    · simp at he
  valid_enc s u hs hu := by
    simp only [composed]
    obtain ⟨g1, d1, e1⟩ := A.valid_enc s u.1 hs hu.1
    obtain ⟨g2, d2, e2⟩ := B.valid_enc s u.2 hs hu.2
    refine ⟨(g1, g2), by simp [composedDecode, d1, d2], ?_⟩
    simp [composedEncode, RS.bind_run, e1, e2]
  stable s s' u hs hs' hle hu := by
    obtain ⟨a1, a2⟩ := A.stable _ _ _ hs hs' hle hu.1
    obtain ⟨b1, b2⟩ := B.stable _ _ _ hs hs' hle hu.2
    exact ⟨⟨a1, b1⟩, by simp only [composed, composedDecode, a2, b2]⟩
  dense s u c hs hc hu := by
    obtain ⟨ca, cb, hca, hcb, hlt, rfl⟩ := composedCardinality_some hc
    obtain ⟨i, hi, ei, di⟩ := A.dense s u.1 ca hs hca hu.1
    obtain ⟨j, hj, ej, dj⟩ := B.dense s u.2 cb hs hcb hu.2
    obtain ⟨g1, dg1, _⟩ := A.valid_enc s u.1 hs hu.1
    obtain ⟨g2, dg2, _⟩ := B.valid_enc s u.2 hs hu.2
    have hjw := B.card_lt cb hcb
    have hle : j + i * cb < ca * cb := by
      calc j + i * cb < cb + i * cb := by omega
        _ = (i + 1) * cb := by rw [Nat.add_mul]; omega
        _ ≤ ca * cb := Nat.mul_le_mul_right _ hi
    refine ⟨j + i * cb, hle, ?_, ?_⟩
    · simp only [composed, composedEncodeDense, tryOpt, ej, Out.ok_bind, hcb, ei]
      rw [mulU_ok (by omega), Out.ok_bind, addU_ok (by omega), Out.ok_bind, mulU_ok (by omega), Out.ok_bind]
      simp only [Nat.one_mul, Nat.mul_one, Nat.zero_add]
      rw [mulU_ok (by omega), Out.ok_bind, addU_ok (by omega), Out.ok_bind]
    · have hcb0 : cb ≠ 0 := by omega
      have hca0 : ca ≠ 0 := by omega
      have hdiv : (j + i * cb) / cb = i := by
        rw [Nat.add_mul_div_right _ _ (by omega), Nat.div_eq_of_lt hj]; omega
      have hmod : (j + i * cb) % cb = j := by
        rw [Nat.add_mul_mod_self_right, Nat.mod_eq_of_lt hj]
      simp only [composed, composedDecodeDense, composedDecode, hcb, hca, expect, Out.ok_bind, divU, modU,
        hcb0, hca0, if_false, hdiv, hmod, dj, Nat.div_eq_of_lt hi, Nat.mod_eq_of_lt hi, di, dg1, dg2,
        decide_true, debugAssert_true]
  dense_surj s i c hs hc hi := by
    obtain ⟨ca, cb, hca, hcb, hlt, rfl⟩ := composedCardinality_some hc
    have hcb0 : 0 < cb := Nat.pos_of_ne_zero (by rintro rfl; simp at hi)
    have hq : i / cb < ca := by rw [Nat.div_lt_iff_lt_mul hcb0]; exact hi
    have hr : i % cb < cb := Nat.mod_lt _ hcb0
    obtain ⟨u1, v1, e1⟩ := A.dense_surj s _ ca hs hca hq
    obtain ⟨u2, v2, e2⟩ := B.dense_surj s _ cb hs hcb hr
    refine ⟨(u1, u2), ⟨v1, v2⟩, ?_⟩
    have hsum : i % cb + i / cb * cb = i := by rw [Nat.mul_comm]; exact Nat.mod_add_div i cb
    have hW : i < W64 := by omega
    have h1 : i / cb * cb ≤ i := by omega
    have hcbw := B.card_lt cb hcb
    simp only [composed, composedEncodeDense, tryOpt, e2, Out.ok_bind, hcb, e1]
    rw [mulU_ok (by omega), Out.ok_bind, addU_ok (by omega), Out.ok_bind, mulU_ok (by omega), Out.ok_bind]
    simp only [Nat.one_mul, Nat.mul_one, Nat.zero_add]
    rw [mulU_ok (by omega), Out.ok_bind, addU_ok (by omega), Out.ok_bind, hsum]

end composed

/-- A `StaticLabelSet` used as a label group set is lawful. -/
theorem staticGroupSet_laws {S V : Type} [DecidableEq V] (variants : List V) (hd : variants.Nodup)
    (hlen : variants.length < W64) (inv : S → Prop) (le : S → S → Prop) (hr : ∀ s, le s s)
    (ht : ∀ s s' s'', le s s' → le s' s'' → le s s'') :
    GroupSetLaws (staticGroupSet (S := S) variants) inv le (fun _ u => u < variants.length) := by
  have L := indexSet_laws variants hd
  have hcard : (indexSet variants).card = variants.length := rfl
  refine { le_refl := hr, le_trans := ht, card_lt := ?_, enc_total := ?_, enc_inv := ?_, enc_dec := ?_,
           valid_enc := ?_, stable := ?_, dense := ?_, dense_surj := ?_ } <;>
    simp only [staticGroupSet, staticLabelSet_eq]
  · intro c hc; cases hc; exact hlen
  · intro s g _; exact ⟨_, rfl⟩
  · intro s g hs; exact ⟨hs, hr s⟩
  · intro s g u s' hs he
    simp only [Prod.mk.injEq, Out.ok.injEq] at he
    exact L.enc_dec _ _ he.1
  · intro s u hs hu
    obtain ⟨v, h1, h2⟩ := L.dec_enc u hu
    exact ⟨v, h1, by rw [h2]⟩
  · intro s s' u _ _ _ hu; exact ⟨hu, trivial⟩
  · intro s u c hs hc hu; cases hc; exact ⟨u, hu, rfl, rfl⟩
  · intro s i c hs hc hi; cases hc; exact ⟨i, hi, rfl⟩

/-! ## Consequences of the laws -/

section laws
variable {S G U : Type} {t : GroupSet S G U} {inv : S → Prop} {le : S → S → Prop} {valid : S → U → Prop}

theorem Spec.GroupSetLaws.unique (L : GroupSetLaws t inv le valid) {s : S} (hs : inv s) {u v : U}
    (hu : valid s u) (hv : valid s v) (h : t.decode s u = t.decode s v) : u = v := by
  obtain ⟨g, d, e⟩ := L.valid_enc s u hs hu
  obtain ⟨g', d', e'⟩ := L.valid_enc s v hs hv
  rw [d, d'] at h
  cases h
  rw [e] at e'
  simpa using e'

theorem Spec.GroupSetLaws.dense_inj (L : GroupSetLaws t inv le valid) {s : S} (hs : inv s) {u v : U} {c i : Nat}
    (hc : t.cardinality = some c) (hu : valid s u) (hv : valid s v)
    (h1 : t.encodeDense u = .ok (some i)) (h2 : t.encodeDense v = .ok (some i)) : u = v := by
  obtain ⟨i', _, e, d⟩ := L.dense s u c hs hc hu
  obtain ⟨j', _, e', d'⟩ := L.dense s v c hs hc hv
  rw [h1] at e; rw [h2] at e'
  simp only [Out.ok.injEq, Option.some.injEq] at e e'
  subst e; subst e'
  exact L.unique hs hu hv (d ▸ d')

end laws
end Measured
