import Verif.Proof.DeriveNames

/-! # When the generated `decode` compiles -/

namespace Measured.Names

variable {V : Type}

/-! ## The scope after the fixed fields -/

/-- After one fixed field. -/
def scopeOne {n : Nat} (ident : Fin n → Id) (Γ : Scope n) (i : Fin n) : Scope n :=
  bindVar (bindVar (bindVar (bindVar Γ b!"card" .usize) b!"index" .usize) b!"index1" .usize) (ident i) (.label i)

def scopeFixed {n : Nat} (ident : Fin n → Id) : List (FixedSet V × Fin n) → Scope n → Scope n
  | [], Γ => Γ
  | (_, i) :: L, Γ => scopeFixed ident L (scopeOne ident Γ i)

theorem scopeFixed_append {n : Nat} (ident : Fin n → Id) : ∀ (A B : List (FixedSet V × Fin n)) (Γ : Scope n),
    scopeFixed ident (A ++ B) Γ = scopeFixed ident B (scopeFixed ident A Γ)
  | [], _, _ => rfl
  | _ :: A, B, _ => scopeFixed_append ident A B _

theorem check_fixed_cons {n : Nat} (eqZero : Fin n → Option (V → Bool)) (ident : Fin n → Id) (s : FixedSet V) (i : Fin n)
    (L : List (FixedSet V × Fin n)) (rest : List (Stmt n)) (Γ : Scope n) :
    checkAll eqZero Γ (fixedStmts ident ((s, i) :: L) ++ rest) =
      if Γ b!"index" = some .usize then checkAll eqZero (scopeOne ident Γ i) (fixedStmts ident L ++ rest) else none := by
  simp only [fixedStmts, List.cons_append, checkAll, Stmt.check, Expr.ty, Option.map_some, Option.bind_some, bindVar_same,
    bindVar_ne _ _ (show (b!"index" : Id) ≠ b!"card" by decide), and_true]
  split
  · simp only [Option.bind_some, Option.map_some, if_true]
    rfl
  · simp

theorem scopeOne_index {n : Nat} {ident : Fin n → Id} {Γ : Scope n} {i : Fin n} {x : Id}
    (hx : x ∈ [b!"index", b!"index1", b!"card"]) (h : x ≠ ident i) : scopeOne ident Γ i x = some .usize := by
  rw [scopeOne, bindVar_ne _ _ h]
  simp only [List.mem_cons, List.not_mem_nil, or_false] at hx
  rcases hx with rfl | rfl | rfl
  · rw [bindVar_ne _ _ (by decide), bindVar_same]
  · rw [bindVar_same]
  · rw [bindVar_ne _ _ (by decide), bindVar_ne _ _ (by decide), bindVar_same]

theorem scopeOne_self {n : Nat} {ident : Fin n → Id} {Γ : Scope n} {i : Fin n} : scopeOne ident Γ i (ident i) = some (.label i) :=
  bindVar_same _ _ _

theorem scopeOne_other {n : Nat} {ident : Fin n → Id} {Γ : Scope n} {i : Fin n} {x : Id}
    (hx : x ∉ [b!"index", b!"index1", b!"card"]) (h : x ≠ ident i) : scopeOne ident Γ i x = Γ x := by
  simp only [List.mem_cons, List.not_mem_nil, or_false, not_or] at hx
  rw [scopeOne, bindVar_ne _ _ h, bindVar_ne _ _ hx.2.1, bindVar_ne _ _ hx.1, bindVar_ne _ _ hx.2.2]

theorem check_fixed {n : Nat} (eqZero : Fin n → Option (V → Bool)) (ident : Fin n → Id) (rest : List (Stmt n)) :
    ∀ (L : List (FixedSet V × Fin n)) (Γ : Scope n), Γ b!"index" = some .usize →
    checkAll eqZero Γ (fixedStmts ident L ++ rest) = if ∃ p ∈ L.dropLast, ident p.2 = b!"index" then none else
      checkAll eqZero (scopeFixed ident L Γ) rest
  | [], _, _ => by simp [fixedStmts, scopeFixed]
  | [(s, i)], Γ, h => by
    rw [check_fixed_cons, if_pos h]
    simp [fixedStmts, scopeFixed]
  | (s, i) :: q :: L, Γ, h => by
    rw [check_fixed_cons, if_pos h]
    by_cases hi : ident i = b!"index"
    · rw [if_pos ⟨(s, i), by simp, hi⟩]
      obtain ⟨s', i'⟩ := q
      rw [check_fixed_cons, if_neg]
      rw [← hi, scopeOne_self]
      simp
    · rw [check_fixed eqZero ident rest (q :: L) _ (scopeOne_index (by simp) (Ne.symm hi))]
      have : (∃ p ∈ ((s, i) :: q :: L).dropLast, ident p.2 = b!"index") ↔ ∃ p ∈ (q :: L).dropLast, ident p.2 = b!"index" := by
        rw [List.dropLast_cons₂]
        simp [hi]
      simp only [this]
      rfl

/-- The scope after the last fixed field. -/
theorem scopeFixed_last {n : Nat} (ident : Fin n → Id) (A : List (FixedSet V × Fin n)) (p : FixedSet V × Fin n) (Γ : Scope n) :
    scopeFixed ident (A ++ [p]) Γ = scopeOne ident (scopeFixed ident A Γ) p.2 := by
  rw [scopeFixed_append]
  rfl

theorem scopeFixed_other {n : Nat} {ident : Fin n → Id} {x : Id} (hx : x ∉ [b!"index", b!"index1", b!"card"]) :
    ∀ (L : List (FixedSet V × Fin n)) (Γ : Scope n), (∀ p ∈ L, ident p.2 ≠ x) → scopeFixed ident L Γ x = Γ x
  | [], _, _ => rfl
  | (s, i) :: L, Γ, h => by
    rw [scopeFixed, scopeFixed_other hx L _ fun p hp => h p (List.mem_cons_of_mem _ hp)]
    exact scopeOne_other hx (Ne.symm (h (s, i) (by simp)))

theorem scopeFixed_mem {n : Nat} {ident : Fin n → Id} (hi : Function.Injective ident) {p : FixedSet V × Fin n}
    (hx : ident p.2 ∉ [b!"index", b!"index1", b!"card"]) : ∀ (L : List (FixedSet V × Fin n)) (Γ : Scope n), p ∈ L →
    scopeFixed ident L Γ (ident p.2) = some (.label p.2)
  | (s, i) :: L, Γ, h => by
    rw [scopeFixed]
    by_cases hp : ∃ q ∈ L, q.2 = p.2
    · obtain ⟨q, hq, e⟩ := hp
      rw [← e] at hx ⊢
      exact scopeFixed_mem hi hx L _ hq
    · rw [scopeFixed_other hx L _ fun q hq e => hp ⟨q, hq, hi e⟩]
      rcases List.mem_cons.1 h with rfl | h
      · exact scopeOne_self
      · exact absurd ⟨p, h, rfl⟩ hp

/-! ## The scope after the dynamic fields -/

def scopeDyn {n : Nat} (ident : Fin n → Id) : List (Nat × Fin n) → Scope n → Scope n
  | [], Γ => Γ
  | (_, i) :: L, Γ => scopeDyn ident L (bindVar Γ (ident i) (.label i))

theorem scopeDyn_other {n : Nat} {ident : Fin n → Id} {x : Id} : ∀ (L : List (Nat × Fin n)) (Γ : Scope n),
    (∀ p ∈ L, ident p.2 ≠ x) → scopeDyn ident L Γ x = Γ x
  | [], _, _ => rfl
  | (s, i) :: L, Γ, h => by
    rw [scopeDyn, scopeDyn_other L _ fun p hp => h p (List.mem_cons_of_mem _ hp)]
    exact bindVar_ne _ _ (Ne.symm (h (s, i) (by simp)))

theorem scopeDyn_mem {n : Nat} {ident : Fin n → Id} (hi : Function.Injective ident) {p : Nat × Fin n} :
    ∀ (L : List (Nat × Fin n)) (Γ : Scope n), p ∈ L → scopeDyn ident L Γ (ident p.2) = some (.label p.2)
  | (s, i) :: L, Γ, h => by
    rw [scopeDyn]
    by_cases hp : ∃ q ∈ L, q.2 = p.2
    · obtain ⟨q, hq, e⟩ := hp
      rw [← e]
      exact scopeDyn_mem hi L _ hq
    · rw [scopeDyn_other L _ fun q hq e => hp ⟨q, hq, hi e⟩]
      rcases List.mem_cons.1 h with rfl | h
      · exact bindVar_same _ _ _
      · exact absurd ⟨p, h, rfl⟩ hp

/-- The variables with the ids are there when they are read. -/
def DynOk {n : Nat} (ident : Fin n → Id) (Γ : Scope n) (j : Nat) (L : List (Nat × Fin n)) : Prop :=
  ∀ t < L.length, Γ (dynIndex (j + t)) = some .usize ∧ ∀ r < t, ∀ p, L[r]? = some p → ident p.2 ≠ dynIndex (j + t)

theorem dynOk_cons {n : Nat} (ident : Fin n → Id) (Γ : Scope n) (j r : Nat) (i : Fin n) (L : List (Nat × Fin n)) :
    DynOk ident Γ j ((r, i) :: L) ↔ Γ (dynIndex j) = some .usize ∧ DynOk ident (bindVar Γ (ident i) (.label i)) (j + 1) L := by
  constructor
  · intro h
    refine ⟨(h 0 (by simp)).1, fun t ht => ?_⟩
    obtain ⟨h1, h2⟩ := h (t + 1) (by simpa using ht)
    have e : j + 1 + t = j + (t + 1) := by omega
    rw [e]
    refine ⟨?_, fun r hr p hp => h2 (r + 1) (by omega) p hp⟩
    rw [bindVar_ne _ _ (Ne.symm (h2 0 (by omega) (r, i) rfl))]
    exact h1
  · rintro ⟨h0, h⟩ t ht
    cases t with
    | zero => exact ⟨h0, fun r hr => absurd hr (by omega)⟩
    | succ t =>
      obtain ⟨h1, h2⟩ := h t (by simpa using ht)
      have e : j + 1 + t = j + (t + 1) := by omega
      rw [e] at h1 h2
      have hne : dynIndex (j + (t + 1)) ≠ ident i := by
        intro he
        rw [he, bindVar_same] at h1
        cases h1
      rw [bindVar_ne _ _ hne] at h1
      refine ⟨h1, fun r hr p hp => ?_⟩
      cases r with
      | zero => cases hp; exact Ne.symm hne
      | succ r => exact h2 r (by omega) p hp

theorem check_dyn {n : Nat} (eqZero : Fin n → Option (V → Bool)) (ident : Fin n → Id) : ∀ (L : List (Nat × Fin n)) (j : Nat)
    (Γ Γ' : Scope n), checkAll eqZero Γ (dynStmts ident j L) = some Γ' ↔ DynOk ident Γ j L ∧ Γ' = scopeDyn ident L Γ
  | [], j, Γ, Γ' => by simp [dynStmts, checkAll, DynOk, scopeDyn, eq_comm]
  | (r, i) :: L, j, Γ, Γ' => by
    rw [dynOk_cons, and_assoc, scopeDyn, ← check_dyn eqZero ident L (j + 1)]
    simp only [dynStmts, checkAll, Stmt.check, Expr.ty]
    split
    · rename_i h
      simp [h]
    · rename_i h
      simp [h]

/-! ## The order of the fields -/

theorem mem_tail_iff {n : Nat} {l : List (Fin n)} (h : l.Pairwise (· < ·)) (i : Fin n) : i ∈ l.tail ↔ i ∈ l ∧ ∃ j ∈ l, j < i := by
  cases l with
  | nil => simp
  | cons a l =>
    rw [List.pairwise_cons] at h
    simp only [List.tail_cons, List.mem_cons]
    constructor
    · intro hi
      exact ⟨.inr hi, a, .inl rfl, h.1 i hi⟩
    · rintro ⟨rfl | hi, j, rfl | hj, hlt⟩
      · exact absurd hlt (lt_irrefl _)
      · exact absurd hlt (not_lt.2 (h.1 j hj).le)
      · exact hi
      · exact hi

theorem finRange_sorted (n : Nat) : (List.finRange n).Pairwise (· < ·) := List.pairwise_lt_finRange n

theorem filterMap_sorted {n : Nat} {β : Type} (f : Fin n → Option (β × Fin n)) (hf : ∀ i p, f i = some p → p.2 = i) :
    ∀ l : List (Fin n), l.Pairwise (· < ·) → ((l.filterMap f).map Prod.snd).Pairwise (· < ·)
  | [], _ => by simp
  | a :: l, h => by
    rw [List.pairwise_cons] at h
    have ih := filterMap_sorted f hf l h.2
    rw [List.filterMap_cons]
    split
    · exact ih
    · rename_i p hp
      rw [List.map_cons, List.pairwise_cons]
      refine ⟨?_, ih⟩
      intro x hx
      obtain ⟨q, hq, rfl⟩ := List.mem_map.1 hx
      obtain ⟨b, hb, hfb⟩ := List.mem_filterMap.1 hq
      rw [hf a p hp, hf b q hfb]
      exact h.1 b hb

theorem fixedRef_snd (d : GroupDef V) (i : Fin d.n) (p : FixedSet V × Fin d.n) (h : fixedRef d i = some p) : p.2 = i := by
  unfold fixedRef at h
  split at h <;> simp_all
  rw [← h]

theorem dynRef_snd (d : GroupDef V) (i : Fin d.n) (p : Nat × Fin d.n) (h : dynRef d i = some p) : p.2 = i := by
  unfold dynRef at h
  split at h <;> simp_all
  rw [← h]

theorem mem_fixed_iff (d : Decl V) (i : Fin d.group.n) : i ∈ d.group.fixed.map Prod.snd ↔ IsFixed d i := by
  constructor
  · intro h
    obtain ⟨⟨s, j⟩, hp, rfl⟩ := List.mem_map.1 h
    exact ⟨s, (d.group.mem_fixed s j).1 hp⟩
  · rintro ⟨s, hs⟩
    exact List.mem_map.2 ⟨(s, i), (d.group.mem_fixed s i).2 hs, rfl⟩

theorem mem_dynamics_iff (d : Decl V) (i : Fin d.group.n) : i ∈ d.group.dynamics.map Prod.snd ↔ IsDynamic d i := by
  constructor
  · intro h
    obtain ⟨⟨s, j⟩, hp, rfl⟩ := List.mem_map.1 h
    exact ⟨s, (d.group.mem_dynamics s j).1 hp⟩
  · rintro ⟨s, hs⟩
    exact List.mem_map.2 ⟨(s, i), (d.group.mem_dynamics s i).2 hs, rfl⟩

/-- All but the last of the fixed fields, as they are read, are those that are not declared first. -/
theorem mem_dropLast_iff (d : Decl V) (i : Fin d.group.n) :
    i ∈ d.group.fixed.dropLast.map Prod.snd ↔ IsFixed d i ∧ ¬ IsFirst d i := by
  have hs := filterMap_sorted (fixedRef d.group) (fixedRef_snd d.group) _ (finRange_sorted d.group.n)
  have hm : ∀ j, j ∈ (List.filterMap (fixedRef d.group) (List.finRange d.group.n)).map Prod.snd ↔ IsFixed d j := by
    intro j
    rw [← mem_fixed_iff, d.group.fixed_eq, List.map_reverse, List.mem_reverse]
  rw [d.group.fixed_eq, List.dropLast_reverse, List.map_reverse, List.mem_reverse, List.map_tail, mem_tail_iff hs, hm]
  refine and_congr_right fun hf => ?_
  unfold IsFirst
  simp only [hm, hf, true_and, not_forall, not_not]
  constructor
  · rintro ⟨j, h1, h2⟩; exact ⟨j, h2, h1⟩
  · rintro ⟨j, h1, h2⟩; exact ⟨j, h2, h1⟩

theorem count_before {n : Nat} {β : Type} (f : Fin n → Option (β × Fin n)) (hf : ∀ i p, f i = some p → p.2 = i) (P : Fin n → Bool)
    (hP : ∀ i, P i = (f i).isSome) : ∀ (l : List (Fin n)) (t : Nat) (p : β × Fin n), l.Pairwise (· < ·) →
    (l.filterMap f)[t]? = some p → (l.filter fun j => P j && decide (j < p.2)).length = t
  | [], _, _, _, h => by simp at h
  | a :: l, t, p, hs, h => by
    rw [List.pairwise_cons] at hs
    rw [List.filterMap_cons] at h
    have hmem : ∀ t : Nat, (l.filterMap f)[t]? = some p → a < p.2 := by
      intro t ht
      obtain ⟨b, hb, hfb⟩ := List.mem_filterMap.1 (List.mem_of_getElem? ht)
      rw [hf b p hfb]
      exact hs.1 b hb
    split at h
    · rename_i ha
      rw [List.filter_cons_of_neg (by rw [hP, ha]; simp)]
      exact count_before f hf P hP l t p hs.2 h
    · rename_i q ha
      cases t with
      | zero =>
        simp only [List.getElem?_cons_zero, Option.some.injEq] at h
        subst h
        rw [hf a q ha, List.length_eq_zero_iff, List.filter_eq_nil_iff]
        intro j hj
        rcases List.mem_cons.1 hj with rfl | hj
        · simp
        · simp [(hs.1 j hj).le]
      | succ t =>
        rw [List.getElem?_cons_succ] at h
        rw [List.filter_cons_of_pos (by rw [hP, ha]; simpa using hmem t h), List.length_cons,
          count_before f hf P hP l t p hs.2 h]

theorem dynBefore_eq (d : Decl V) {t : Nat} {p : Nat × Fin d.group.n} (h : d.group.dynamics[t]? = some p) : dynBefore d p.2 = t := by
  classical
  rw [d.group.dynamics_eq] at h
  have := count_before (dynRef d.group) (dynRef_snd d.group) (fun j => decide (IsDynamic d j)) (fun i => ?_) _ t p
    (finRange_sorted _) h
  · rw [← this, dynBefore]
    congr 1
    apply List.filter_congr
    intro j _
    by_cases h1 : IsDynamic d j <;> by_cases h2 : j < p.2 <;> simp [h1, h2]
  · unfold IsDynamic dynRef
    cases hk : (d.group.field i).kind <;> simp

theorem dynamics_at (d : Decl V) {e : Fin d.group.n} (h : IsDynamic d e) :
    ∃ r, d.group.dynamics[dynBefore d e]? = some (r, e) := by
  obtain ⟨⟨r, j⟩, hp, rfl⟩ := List.mem_map.1 ((mem_dynamics_iff d e).2 h)
  obtain ⟨t, ht⟩ := List.mem_iff_getElem?.1 hp
  have := dynBefore_eq d ht
  exact ⟨r, by rw [this]; exact ht⟩

theorem before_lt (d : Decl V) {s t : Nat} {p q : Nat × Fin d.group.n} (hp : d.group.dynamics[s]? = some p)
    (hq : d.group.dynamics[t]? = some q) : p.2 < q.2 ↔ s < t := by
  have hs := filterMap_sorted (dynRef d.group) (dynRef_snd d.group) _ (finRange_sorted d.group.n)
  rw [← d.group.dynamics_eq] at hs
  have key : ∀ {s t : Nat} {p q : Nat × Fin d.group.n}, d.group.dynamics[s]? = some p → d.group.dynamics[t]? = some q → s < t →
      p.2 < q.2 := by
    intro s t p q hp hq hlt
    obtain ⟨h1, e1⟩ := List.getElem?_eq_some_iff.1 hp
    obtain ⟨h2, e2⟩ := List.getElem?_eq_some_iff.1 hq
    have := List.pairwise_iff_getElem.1 hs s t (by simpa using h1) (by simpa using h2) hlt
    simpa [e1, e2] using this
  constructor
  · intro hlt
    by_contra hle
    rcases Nat.lt_or_eq_of_le (Nat.le_of_not_lt hle) with h | rfl
    · exact absurd hlt (not_lt.2 (key hq hp h).le)
    · rw [hp] at hq
      cases hq
      exact absurd hlt (lt_irrefl _)
  · exact key hp hq

theorem fixed_or_dynamic (d : Decl V) (i : Fin d.group.n) : IsFixed d i ∨ IsDynamic d i := by
  cases h : (d.group.field i).kind with
  | fixed s => exact .inl ⟨s, h⟩
  | dynamic r => exact .inr ⟨r, h⟩

theorem not_both {d : Decl V} {i : Fin d.group.n} (h1 : IsFixed d i) (h2 : IsDynamic d i) : False := by
  obtain ⟨s, h1⟩ := h1
  obtain ⟨r, h2⟩ := h2
  rw [h1] at h2
  cases h2

theorem literal_all (d : Decl V) : (∀ i, i ∈ literal d) ∧ (literal d).Nodup := by
  constructor
  · intro i
    rw [literal, List.mem_append, mem_fixed_iff, mem_dynamics_iff]
    exact fixed_or_dynamic d i
  · rw [literal, List.nodup_append]
    refine ⟨d.group.fixed_nodup, d.group.dynamics_nodup, ?_⟩
    rintro a ha b hb rfl
    exact not_both ((mem_fixed_iff d a).1 ha) ((mem_dynamics_iff d a).1 hb)

/-! ## When it compiles -/

theorem special_not_dyn (j : Nat) : dynIndex j ∉ [b!"index", b!"index1", b!"card"] := by
  obtain ⟨h1, h2, h3⟩ := dynIndex_ne j
  simp [h1, h2, h3]

/-- The first declared fixed field is the last one decoded. -/
theorem last_first (d : Decl V) {A : List (FixedSet V × Fin d.group.n)} {p : FixedSet V × Fin d.group.n}
    (h : d.group.fixed = A ++ [p]) : IsFirst d p.2 := by
  by_contra hn
  have hf : IsFixed d p.2 := (mem_fixed_iff d _).1 (by rw [h]; simp)
  have := (mem_dropLast_iff d p.2).2 ⟨hf, hn⟩
  rw [h, List.dropLast_concat] at this
  have hnd := d.group.fixed_nodup
  rw [h, List.map_append, List.nodup_append] at hnd
  exact hnd.2.2 _ this _ (by simp) rfl

theorem first_unique {d : Decl V} {i j : Fin d.group.n} (hi : IsFirst d i) (hj : IsFirst d j) : i = j := by
  rcases lt_trichotomy i j with h | h | h
  · exact absurd hi.1 (hj.2 i h)
  · exact h
  · exact absurd hj.1 (hi.2 j h)

/-- The first scope. -/
abbrev scope₀ (d : Decl V) : Scope d.group.n := unpack .usize (d.group.dynamics.map fun _ => .usize)

theorem compiles_iff' (d : Decl V) : Compiles d ↔
    (∀ p ∈ d.group.fixed.dropLast, d.ident p.2 ≠ b!"index") ∧
    (∃ τ, scopeFixed d.ident d.group.fixed (scope₀ d) b!"index" = some τ ∧ ∀ i, τ = .label i → (d.eqZero i).isSome) ∧
    DynOk d.ident (scopeFixed d.ident d.group.fixed (scope₀ d)) 0 d.group.dynamics ∧
    ∀ i, ∃ j, scopeDyn d.ident d.group.dynamics (scopeFixed d.ident d.group.fixed (scope₀ d)) (d.ident i) = some (.label j) := by
  obtain ⟨hall, hnd⟩ := literal_all d
  have h0 : scope₀ d b!"index" = some .usize := by rw [scope₀, unpack, if_pos rfl]
  unfold Compiles body literalOk
  simp only [check_fixed d.eqZero d.ident _ d.group.fixed (scope₀ d) h0]
  by_cases hd : ∃ p ∈ d.group.fixed.dropLast, d.ident p.2 = b!"index"
  · simp only [hd, if_true]
    constructor
    · rintro ⟨_, h, _⟩; cases h
    · rintro ⟨h, _⟩
      obtain ⟨p, hp, e⟩ := hd
      exact absurd e (h p hp)
  · simp only [hd, if_false]
    have hd' : ∀ p ∈ d.group.fixed.dropLast, d.ident p.2 ≠ b!"index" := fun p hp e => hd ⟨p, hp, e⟩
    generalize scopeFixed d.ident d.group.fixed (scope₀ d) = G
    have hc : ∀ Γ, checkAll d.eqZero G (.assertZero b!"index" :: dynStmts d.ident 0 d.group.dynamics) = some Γ ↔
        (∃ τ, G b!"index" = some τ ∧ ∀ i, τ = .label i → (d.eqZero i).isSome) ∧
        checkAll d.eqZero G (dynStmts d.ident 0 d.group.dynamics) = some Γ := by
      intro Γ
      simp only [checkAll, Stmt.check]
      cases hG : G b!"index" with
      | none => simp
      | some τ =>
        cases τ with
        | usize => simp
        | label i => by_cases hz : (d.eqZero i).isSome <;> simp [hz]
    constructor
    · rintro ⟨Γ, h1, h2, -, h3⟩
      obtain ⟨h4, h5⟩ := (hc Γ).1 h1
      obtain ⟨h6, rfl⟩ := (check_dyn _ _ _ _ _ _).1 h5
      exact ⟨hd', h4, h6, fun i => h3 i (h2 i)⟩
    · rintro ⟨-, h4, h6, h7⟩
      exact ⟨_, (hc _).2 ⟨h4, (check_dyn _ _ _ _ _ _).2 ⟨h6, rfl⟩⟩, hall, hnd, fun i _ => h7 i⟩

theorem compiles_iff (d : Decl V) (hi : Function.Injective d.ident) : Compiles d ↔ ¬ Clash d := by
  have h0 : ∀ t < d.group.dynamics.length, scope₀ d (dynIndex t) = some .usize := by
    intro t ht
    rw [scope₀, unpack_dyn, List.getElem?_map, List.getElem?_eq_getElem ht]
    rfl
  have hdrop : ∀ i, (∃ p ∈ d.group.fixed.dropLast, p.2 = i) ↔ IsFixed d i ∧ ¬ IsFirst d i := by
    intro i
    rw [← mem_dropLast_iff, List.mem_map]
  have hfix : ∀ i, (∃ p ∈ d.group.fixed, p.2 = i) ↔ IsFixed d i := by
    intro i
    rw [← mem_fixed_iff, List.mem_map]
  have hlast : ∀ i, IsFixed d i → ∃ p A, d.group.fixed = A ++ [p] := by
    intro i hf
    rcases List.eq_nil_or_concat d.group.fixed with h | ⟨A, p, h⟩
    · obtain ⟨p, hp, -⟩ := (hfix i).2 hf
      rw [h] at hp
      cases hp
    · exact ⟨p, A, by rw [h, List.concat_eq_append]⟩
  have hndyn : ∀ i, IsFixed d i → ∀ {Γ : Scope d.group.n}, scopeDyn d.ident d.group.dynamics Γ (d.ident i) = Γ (d.ident i) := by
    intro i hf Γ
    refine scopeDyn_other _ _ fun p hp e => ?_
    exact not_both hf (hi e ▸ (mem_dynamics_iff d p.2).1 (List.mem_map.2 ⟨p, hp, rfl⟩))
  rw [compiles_iff']
  constructor
  · rintro ⟨hA, ⟨τ, hτ, hz⟩, hD, hlit⟩ hcl
    cases hcl with
    | temp i hf h1 hn =>
      obtain ⟨p, A, hA'⟩ := hlast i hf
      obtain ⟨j, hj⟩ := hlit i
      rw [hndyn i hf, hA', scopeFixed_last, scopeOne_index hn (fun e => h1 (hi e ▸ last_first d hA'))] at hj
      cases hj
    | index i hf hn he =>
      obtain ⟨p, A, hA'⟩ := hlast i hf.1
      have e := first_unique hf (last_first d hA')
      rw [hA', scopeFixed_last, ← e, ← hn, scopeOne_self] at hτ
      have := hz i (Option.some.inj hτ).symm
      rw [he] at this
      cases this
    | fixed i e hf he hn =>
      obtain ⟨r, hr⟩ := dynamics_at d he
      have ht := (hD _ (List.getElem?_eq_some_iff.1 hr).1).1
      obtain ⟨p, hp, rfl⟩ := (hfix i).2 hf
      rw [Nat.zero_add, ← hn, scopeFixed_mem hi (by rw [hn]; exact special_not_dyn _) _ _ hp] at ht
      cases ht
    | dyn i e hf he hl hn =>
      obtain ⟨r, hr⟩ := dynamics_at d he
      obtain ⟨r', hr'⟩ := dynamics_at d hf
      have ht := (hD _ (List.getElem?_eq_some_iff.1 hr).1).2 _ ((before_lt d hr' hr).1 hl) _ hr'
      rw [Nat.zero_add] at ht
      exact ht hn
  · intro hcl
    refine ⟨fun p hp e => ?_, ?_, fun t ht => ?_, fun i => ?_⟩
    · obtain ⟨h1, h2⟩ := (hdrop p.2).1 ⟨p, hp, rfl⟩
      exact hcl (.temp p.2 h1 h2 (by simp [e]))
    · rcases List.eq_nil_or_concat d.group.fixed with h | ⟨A, p, h⟩
      · rw [h]
        exact ⟨.usize, by rw [scopeFixed, scope₀, unpack, if_pos rfl], fun i e => by cases e⟩
      · rw [List.concat_eq_append] at h
        rw [h, scopeFixed_last]
        by_cases e : d.ident p.2 = b!"index"
        · refine ⟨.label p.2, by rw [← e]; exact scopeOne_self, fun i ei => ?_⟩
          cases ei
          cases hz : d.eqZero p.2 with
          | none => exact absurd (.index p.2 (last_first d h) e hz) hcl
          | some z => rfl
        · exact ⟨.usize, scopeOne_index (by simp) (Ne.symm e), fun i e => by cases e⟩
    · obtain ⟨⟨r, e⟩, he⟩ : ∃ q, d.group.dynamics[t]? = some q := ⟨_, List.getElem?_eq_getElem ht⟩
      have hb : dynBefore d e = t := dynBefore_eq d he
      have hde : IsDynamic d e := (mem_dynamics_iff d e).1 (List.mem_map.2 ⟨_, List.mem_of_getElem? he, rfl⟩)
      rw [Nat.zero_add]
      refine ⟨?_, fun r' hr' p hp en => ?_⟩
      · rw [scopeFixed_other (special_not_dyn t) _ _ fun p hp en => ?_]
        · exact h0 t ht
        · exact hcl (.fixed p.2 e ((hfix p.2).1 ⟨p, hp, rfl⟩) hde (by rw [hb]; exact en))
      · have hdp : IsDynamic d p.2 := (mem_dynamics_iff d p.2).1 (List.mem_map.2 ⟨_, List.mem_of_getElem? hp, rfl⟩)
        exact hcl (.dyn p.2 e hdp hde ((before_lt d hp he).2 hr') (by rw [hb]; exact en))
    · rcases fixed_or_dynamic d i with hf | hd
      · refine ⟨i, ?_⟩
        rw [hndyn i hf]
        by_cases hs : d.ident i ∈ [b!"index", b!"index1", b!"card"]
        · have h1 : IsFirst d i := by
            by_contra h1
            exact hcl (.temp i hf h1 hs)
          obtain ⟨p, A, hA'⟩ := hlast i hf
          have e := first_unique h1 (last_first d hA')
          rw [hA', scopeFixed_last, ← e]
          exact scopeOne_self
        · obtain ⟨p, hp, rfl⟩ := (hfix i).2 hf
          exact scopeFixed_mem hi hs _ _ hp
      · obtain ⟨p, hp, rfl⟩ := List.mem_map.1 ((mem_dynamics_iff d i).2 hd)
        exact ⟨p.2, scopeDyn_mem hi _ _ hp⟩

/-! ## A label in the place of the id -/

variable {S : Type}

theorem decodeDyn_other {D : DynSet S V} {h : Heap S} {n : Nat} {i : Fin n} : ∀ {L : List (Nat × Fin n)} {ks : List Nat}
    {env e : Env V n}, (∀ p ∈ L, p.2 ≠ i) → decodeDyn D h L ks env = .ok e → e i = env i
  | [], [], _, _, _, he => by cases he; rfl
  | (r, j) :: L, k :: ks, env, e, hn, he => by
    rw [decodeDyn] at he
    cases hd : D.decode (h r) k with
    | ok v =>
      rw [hd] at he
      simp only [Out.ok_bind] at he
      rw [decodeDyn_other (fun p hp => hn p (List.mem_cons_of_mem _ hp)) he, Env.bind, if_neg]
      exact Ne.symm (hn (r, j) (by simp))
    | err => rw [hd] at he; cases he
    | panic => rw [hd] at he; cases he
  | [], _ :: _, _, _, _, he => by cases he
  | _ :: _, [], _, _, _, he => by cases he

theorem buildGroup_at {n : Nat} {env : Env V n} {g : Fin n → V} (h : buildGroup env = .ok g) (i : Fin n) : env i = some (g i) := by
  unfold buildGroup at h
  split at h
  · cases h
    simp
  · cases h

/-- In a debug build, a first field called `index` is compared with zero instead of the rest of the id. -/
theorem decode_index {D : DynSet S V} {d : Decl V} {h : Heap S} {u : Nat × List Nat} (hi : Function.Injective d.ident)
    (hc : Compiles d) (hu : u.2.length = d.group.dynamics.length) {i : Fin d.group.n} (hf : IsFixed d i) (hn : d.ident i = b!"index")
    {z : V → Bool} (hz : d.eqZero i = some z) {g : d.group.Group} (hg : derivedDecode .release D d.group h u = .ok g) :
    decode .debug D d h u = if z (g i) then .ok g else .panic := by
  have hrel := decode_eq (m := .release) (D := D) (h := h) hi hc hu (.inl rfl)
  rw [hg] at hrel
  obtain ⟨Γ, hc, hm, -, hlab⟩ := hc
  have he : (d.group.dynamics.map fun _ => (Ty.usize : Ty d.group.n)) = u.2.map fun _ => .usize := by
    rw [List.map_const', List.map_const', hu]
  rw [he, ← tys_unpack (V := V) u.1] at hc
  unfold body at hc
  have hsame := fixed_same .debug D d h hi u.2 _ d.group.fixed u.1 _ (fun _ => none) (fun p hp => (d.group.mem_fixed p.1 p.2).1 hp) hc
    (fun k hk => by rw [unpack, if_pos rfl] at hk; cases hk; rfl) (fun j i v hv => absurd hv (unpack_num _ _ _ _ _))
    (fun j k hk => by
      rw [unpack_dyn, List.getElem?_map] at hk
      cases hg : u.2[j]? <;> rw [hg] at hk <;> cases hk
      rfl) (fun x i v hv => absurd hv (unpack_num _ _ _ _ _))
  unfold derivedDecode at hg
  unfold decode body
  generalize decodeFixed d.group.fixed u.1 (fun _ => none) = a at hsame hg
  generalize runAll Mode.debug D d h _ _ = b at hsame ⊢
  cases hsame with
  | err => cases hg
  | panic => cases hg
  | @ok q env vs hI hL hK hO hc' =>
    simp only [Out.ok_bind, debugAssert] at hg
    have hnd : ∀ p ∈ d.group.dynamics, p.2 ≠ i := fun p hp e =>
      not_both hf (e ▸ (mem_dynamics_iff d p.2).1 (List.mem_map.2 ⟨p, hp, rfl⟩))
    simp only [checkAll, Stmt.check] at hc'
    have hd : checkAll d.eqZero (tys vs) (dynStmts d.ident 0 d.group.dynamics) = some Γ := by
      cases hv : tys vs b!"index" with
      | none => rw [hv] at hc'; cases hc'
      | some τ =>
        cases τ with
        | usize => rw [hv] at hc'; exact hc'
        | label j =>
          rw [hv] at hc'
          by_cases hj : (d.eqZero j).isSome
          · simpa [hj] using hc'
          · simp [hj] at hc'
    obtain ⟨j, hj⟩ := hlab i (hm i)
    rw [((check_dyn _ _ _ _ _ _).1 hd).2, scopeDyn_other _ _ fun p hp e => hnd p hp (hi e)] at hj
    obtain ⟨v, hv⟩ : ∃ v, vs (d.ident i) = some (.label i v) := by
      cases hv : vs (d.ident i) with
      | none => simp [tys, hv] at hj
      | some a =>
        cases a with
        | num k => simp [tys, hv, Val.ty] at hj
        | label i' v => exact ⟨v, by rw [(hL i i' v hv).1]⟩
    have hdyn := dyn_same .debug D d h hi u.2 d.group.dynamics 0 vs env (fun p hp => (d.group.mem_dynamics p.1 p.2).1 hp) hd hL hK
      (by rw [hu, Nat.zero_add])
    rw [List.drop_zero] at hdyn
    simp only [runAll, Stmt.run, ← hn, hv, hz, debugAssert]
    cases hde : decodeDyn D h d.group.dynamics u.2 env with
    | err => rw [hde] at hg; cases hg
    | panic => rw [hde] at hg; cases hg
    | ok env' =>
      rw [hde] at hg hdyn
      simp only [Out.ok_bind] at hg
      have hv' : v = g i := by
        have h1 := buildGroup_at hg i
        rw [decodeDyn_other hnd hde, (hL i i v hv).2] at h1
        exact Option.some.inj h1
      rw [← hv']
      by_cases hzv : z v
      · simp only [hzv, if_true, Out.ok_bind]
        generalize runAll Mode.debug D d h vs _ = b at hdyn ⊢
        cases hdyn with
        | @ok _ vs' hL' hΓ =>
          simp only [Out.ok_bind]
          rw [← hg]
          congr 1
          funext i
          obtain ⟨j, hj⟩ := hlab i (hm i)
          rw [← hΓ] at hj
          cases hv : vs' (d.ident i) with
          | none => simp [tys, hv] at hj
          | some a =>
            cases a with
            | num k => simp [tys, hv, Val.ty] at hj
            | label i' v => rw [(hL' i i' v hv).2]; rfl
      · simp only [hzv]
        rfl

end Measured.Names
