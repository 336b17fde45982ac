import Verif.Spec.VecMap
import Verif.Proof.LabelGroup
import Mathlib.Data.List.Forall2

/-! Helper lemmas: the metric vector refines the abstract map. -/

namespace Measured
open Measured.Spec

variable {S G U M : Type}

set_option linter.unusedSectionVars false

/-! ## Tables -/

section table
variable [DecidableEq U]

/-- Elements are stored under the hash of their key, no key twice. -/
def TableWF (hasher : U → Nat) (t : Table U M) : Prop :=
  (∀ e ∈ t, e.hash = hasher e.key) ∧ (t.map Entry.key).Nodup

theorem Table.find_modify (t : Table U M) (hasher : U → Nat) (k k' : U) (f : M → M) :
    (t.modify (hasher k) k f).find (hasher k') k' =
      if k' = k then (t.find (hasher k) k).map f else t.find (hasher k') k' := by
  induction t with
  | nil => simp [Table.modify, Table.find]
  | cons e es ih =>
    simp only [Table.modify]
    by_cases he : e.hash = hasher k ∧ e.key = k
    · rw [if_pos he]
      simp only [Table.find, he.1, he.2]
      by_cases hk : k' = k
      · subst hk; simp
      · have : ¬ (hasher k = hasher k' ∧ k = k') := fun h => hk h.2.symm
        simp [hk, this]
    · rw [if_neg he]
      simp only [Table.find]
      rw [ih]
      by_cases hk : k' = k
      · subst hk; simp [he]
      · simp [hk]

theorem Table.modify_keys (t : Table U M) (h : Nat) (k : U) (f : M → M) :
    (t.modify h k f).map (fun e => (e.hash, e.key)) = t.map (fun e => (e.hash, e.key)) := by
  induction t with
  | nil => rfl
  | cons e es ih =>
    simp only [Table.modify]
    split
    · simp
    · simp [ih]

theorem Table.modify_wf {hasher : U → Nat} {t : Table U M} (h : TableWF hasher t) (n : Nat) (k : U) (f : M → M) :
    TableWF hasher (t.modify n k f) := by
  have hk := t.modify_keys n k f
  constructor
  · intro e he
    have : (e.hash, e.key) ∈ t.map (fun e => (e.hash, e.key)) := by
      rw [← hk]; exact List.mem_map.2 ⟨e, he, rfl⟩
    obtain ⟨e', he', heq⟩ := List.mem_map.1 this
    simp only [Prod.mk.injEq] at heq
    rw [← heq.1, ← heq.2]; exact h.1 e' he'
  · have : (t.modify n k f).map Entry.key = t.map Entry.key := by
      have := congrArg (List.map Prod.snd) hk
      simpa [List.map_map, Function.comp_def] using this
    rw [this]; exact h.2

theorem Table.modify_mem {t : Table U M} {n : Nat} {k : U} {f : M → M} {e : Entry U M}
    (he : e ∈ t.modify n k f) : ∃ e' ∈ t, e'.hash = e.hash ∧ e'.key = e.key := by
  have : (e.hash, e.key) ∈ t.map (fun e => (e.hash, e.key)) := by
    rw [← t.modify_keys n k f]; exact List.mem_map.2 ⟨e, he, rfl⟩
  obtain ⟨e', he', heq⟩ := List.mem_map.1 this
  simp only [Prod.mk.injEq] at heq
  exact ⟨e', he', heq.1, heq.2⟩

theorem Table.rehash_id {hasher : U → Nat} {t : Table U M} (h : TableWF hasher t) :
    (t.map fun e => { e with hash := hasher e.key }) = t := by
  rw [List.map_congr_left (g := id)]
  · simp
  · intro e he
    rw [← h.1 e he]; rfl

theorem Table.insert_eq {hasher : U → Nat} {t : Table U M} (h : TableWF hasher t) (n : Nat) (k : U) (v : M) :
    t.insertUnique n k v hasher = ⟨n, k, v⟩ :: t := by
  unfold Table.insertUnique
  rw [Table.rehash_id h]

theorem Table.find_iff {hasher : U → Nat} {t : Table U M} (h : TableWF hasher t) (k : U) (v : M) :
    t.find (hasher k) k = some v ↔ ∃ e ∈ t, e.key = k ∧ e.val = v := by
  induction t with
  | nil => simp [Table.find]
  | cons e es ih =>
    obtain ⟨h1, h2⟩ := h
    simp only [List.map_cons, List.nodup_cons] at h2
    have ih' := ih ⟨fun e he => h1 e (by simp [he]), h2.2⟩
    simp only [Table.find]
    by_cases hk : e.key = k
    · subst hk
      simp only [h1 e (by simp), and_self, if_true, Option.some.injEq, List.mem_cons, exists_eq_or_imp,
        true_and]
      constructor
      · intro hv; exact .inl hv
      · rintro (hv | ⟨e', he', hk', _⟩)
        · exact hv
        · exact absurd (List.mem_map.2 ⟨e', he', hk'⟩) h2.1
    · have : ¬ (e.hash = hasher k ∧ e.key = k) := fun h => hk h.2
      rw [if_neg this]
      refine ih'.trans ?_
      simp only [List.mem_cons, exists_eq_or_imp, hk, false_and, false_or]

theorem Table.find_none_key {hasher : U → Nat} {t : Table U M} (h : TableWF hasher t) {k : U}
    (hn : t.find (hasher k) k = none) : k ∉ t.map Entry.key := by
  intro hk
  obtain ⟨e, he, rfl⟩ := List.mem_map.1 hk
  have := (Table.find_iff h e.key e.val).2 ⟨e, he, rfl, rfl⟩
  rw [hn] at this; cases this

theorem Table.insert_wf {hasher : U → Nat} {t : Table U M} (h : TableWF hasher t) {k : U} {v : M}
    (hn : t.find (hasher k) k = none) : TableWF hasher (t.insertUnique (hasher k) k v hasher) := by
  rw [Table.insert_eq h]
  refine ⟨?_, ?_⟩
  · intro e he
    simp only [List.mem_cons] at he
    rcases he with rfl | he
    · rfl
    · exact h.1 e he
  · simp only [List.map_cons, List.nodup_cons]
    exact ⟨Table.find_none_key h hn, h.2⟩

theorem Table.find_insert {hasher : U → Nat} {t : Table U M} (h : TableWF hasher t) (k k' : U) (v : M) :
    (t.insertUnique (hasher k) k v hasher).find (hasher k') k' =
      if k' = k then some v else t.find (hasher k') k' := by
  rw [Table.insert_eq h]
  simp only [Table.find]
  by_cases hk : k' = k
  · subst hk; simp
  · have : ¬ (hasher k = hasher k' ∧ k = k') := fun h => hk h.2.symm
    simp [hk, this]

theorem Table.remove_sublist (t : Table U M) (n : Nat) (k : U) : (t.remove n k).Sublist t := by
  induction t with
  | nil => exact List.Sublist.slnil
  | cons e es ih =>
    simp only [Table.remove]
    split
    · exact List.sublist_cons_self e es
    · exact ih.cons_cons e

theorem Table.remove_wf {hasher : U → Nat} {t : Table U M} (h : TableWF hasher t) (n : Nat) (k : U) :
    TableWF hasher (t.remove n k) :=
  ⟨fun e he => h.1 e ((t.remove_sublist n k).subset he), h.2.sublist ((t.remove_sublist n k).map _)⟩

theorem Table.find_remove {hasher : U → Nat} {t : Table U M} (h : TableWF hasher t) (k k' : U) :
    (t.remove (hasher k) k).find (hasher k') k' =
      if k' = k then none else t.find (hasher k') k' := by
  induction t with
  | nil => simp [Table.remove, Table.find]
  | cons e es ih =>
    obtain ⟨h1, h2⟩ := h
    simp only [List.map_cons, List.nodup_cons] at h2
    have hes : TableWF hasher es := ⟨fun e he => h1 e (by simp [he]), h2.2⟩
    have ih' := ih hes
    simp only [Table.remove]
    by_cases he : e.hash = hasher k ∧ e.key = k
    · rw [if_pos he]
      simp only [Table.find]
      by_cases hk : k' = k
      · subst hk
        simp only [if_true]
        cases hf : Table.find es (hasher k') k' with
        | none => rfl
        | some v =>
          obtain ⟨e', he', hk', _⟩ := (Table.find_iff hes k' v).1 hf
          exact absurd (List.mem_map.2 ⟨e', he', hk'.trans he.2.symm⟩) h2.1
      · have : ¬ (e.hash = hasher k' ∧ e.key = k') := fun h => hk (h.2.symm.trans he.2)
        simp [hk, this]
    · rw [if_neg he]
      simp only [Table.find, ih']
      by_cases hk : k' = k
      · subst hk; simp [he]
      · simp [hk]

end table

/-! ## Shards -/

theorem shardIndex_lt {b : Nat} (hb : b ≤ 64) (h : Nat) : shardIndex (64 - b) h < 2 ^ b := by
  unfold shardIndex
  rw [Nat.shiftRight_eq_div_pow, Nat.div_lt_iff_lt_mul (Nat.pow_pos (by omega)), ← Nat.pow_add,
    show b + (64 - b) = 64 by omega, ← W64_eq]
  exact Nat.mod_lt _ (by decide)

/-! ## The vector as a map on ids -/

section vec
variable [DecidableEq U]

def VecInner.isDense : VecInner U M → Bool
  | .dense _ => true
  | .sparse _ => false

/-- The state stored for id `u`. -/
def cellOf (hasher : U → Nat) (t : GroupSet S G U) (v : VecInner U M) (u : U) : Option M :=
  match v with
  | .dense cells => match t.encodeDense u with
    | .ok (some i) => cells[i]?.join
    | _ => none
  | .sparse sm => sm.shards[shardIndex sm.shift (hasher u)]?.bind fun tb => tb.find (hasher u) u

/-- Representation invariant. -/
def VecWF (hasher : U → Nat) (t : GroupSet S G U) (valid : S → U → Prop) (s : S) : VecInner U M → Prop
  | .dense cells => t.cardinality = some cells.length
  | .sparse sm => ∃ b, b ≤ 64 ∧ sm.shift = 64 - b ∧ sm.shards.length = 2 ^ b ∧
      ∀ i tb, sm.shards[i]? = some tb → TableWF hasher tb ∧
        ∀ e ∈ tb, shardIndex sm.shift e.hash = i ∧ valid s e.key

/-- An id issued by this vector. -/
def IdOK (hasher : U → Nat) (t : GroupSet S G U) (valid : S → U → Prop) (s : S) (dense : Bool)
    (id : LabelId U) : Prop :=
  valid s id.id ∧ match dense with
    | true => t.encodeDense id.id = .ok (some id.hash)
    | false => id.hash = hasher id.id

set_option linter.unusedSectionVars false

variable {hasher : U → Nat} {t : GroupSet S G U} {inv : S → Prop} {le : S → S → Prop} {valid : S → U → Prop}

theorem VecWF.shard {s : S} {sm : ShardedMap U M} (h : VecWF hasher t valid s (.sparse sm)) (n : Nat) :
    ∃ tb, sm.shards[shardIndex sm.shift n]? = some tb := by
  obtain ⟨b, hb, hs, hl, _⟩ := h
  have := shardIndex_lt hb n
  rw [← hs, ← hl] at this
  exact ⟨_, List.getElem?_eq_getElem this⟩

theorem VecWF.setShard {s : S} {sm : ShardedMap U M} (h : VecWF hasher t valid s (.sparse sm)) (n : Nat)
    (tb : Table U M) (hw : TableWF hasher tb)
    (hm : ∀ e ∈ tb, shardIndex sm.shift e.hash = shardIndex sm.shift n ∧ valid s e.key) :
    VecWF hasher t valid s (.sparse (sm.setShard n tb)) := by
  obtain ⟨b, hb, hs, hl, hall⟩ := h
  refine ⟨b, hb, hs, by simpa [ShardedMap.setShard] using hl, ?_⟩
  intro i tb' hi
  simp only [ShardedMap.setShard] at hi ⊢
  by_cases hik : shardIndex sm.shift n = i
  · subst hik
    rw [List.getElem?_set_self' ] at hi
    cases h0 : sm.shards[shardIndex sm.shift n]? with
    | none => simp [h0] at hi
    | some x =>
      simp [h0] at hi
      subst hi
      exact ⟨hw, hm⟩
  · rw [List.getElem?_set_ne hik] at hi
    exact hall i tb' hi

theorem cellOf_setShard {sm : ShardedMap U M} (n : Nat) (tb : Table U M) (u : U)
    (hex : ∃ x, sm.shards[shardIndex sm.shift n]? = some x) :
    cellOf hasher t (.sparse (sm.setShard n tb)) u =
      if shardIndex sm.shift (hasher u) = shardIndex sm.shift n then tb.find (hasher u) u
      else cellOf hasher t (.sparse sm) u := by
  obtain ⟨x, hx⟩ := hex
  simp only [cellOf, ShardedMap.setShard]
  by_cases hk : shardIndex sm.shift (hasher u) = shardIndex sm.shift n
  · rw [if_pos hk, hk, List.getElem?_set_self', hx]; simp
  · rw [if_neg hk, List.getElem?_set_ne (fun h => hk h.symm)]

/-- Effect of `get_metric`/`get_metric_mut` on the map of cells. -/
def AccessOK (hasher : U → Nat) (t : GroupSet S G U) (valid : S → U → Prop) (s : S) (dflt : M)
    (v : VecInner U M) (id : LabelId U) (f : M → M) (r : Out (M × VecInner U M)) : Prop :=
  ∃ v', r = .ok ((cellOf hasher t v id.id).getD dflt, v') ∧ VecWF hasher t valid s v' ∧
    v'.isDense = v.isDense ∧
    ∀ u, valid s u → cellOf hasher t v' u =
      if u = id.id then some (f ((cellOf hasher t v id.id).getD dflt)) else cellOf hasher t v u

theorem dense_access (L : GroupSetLaws t inv le valid) {s : S} (hs : inv s) {cells : List (Option M)}
    (hwf : VecWF hasher t valid s (.dense cells)) {id : LabelId U} (hid : IdOK hasher t valid s true id)
    :
    ∃ c, cells[id.hash]? = some c ∧ cellOf hasher t (.dense cells) id.id = c ∧
      ∀ x, VecWF hasher t valid s (.dense (cells.set id.hash (some x))) ∧
        ∀ u, valid s u → cellOf hasher t (.dense (cells.set id.hash (some x))) u =
          if u = id.id then some x else cellOf hasher t (.dense cells) u := by
  obtain ⟨hv, hi⟩ := hid
  simp only at hi
  obtain ⟨i, hlt, hi', _⟩ := L.dense s id.id _ hs hwf hv
  rw [hi] at hi'
  simp only [Out.ok.injEq, Option.some.injEq] at hi'
  subst hi'
  refine ⟨cells[id.hash], List.getElem?_eq_getElem hlt, ?_, ?_⟩
  · simp [cellOf, hi, hlt]
  · intro x
    refine ⟨by simpa [VecWF] using hwf, ?_⟩
    intro u hu
    obtain ⟨j, hj, hje, _⟩ := L.dense s u _ hs hwf hu
    simp only [cellOf, hje]
    by_cases huid : u = id.id
    · subst huid
      rw [hi] at hje
      simp only [Out.ok.injEq, Option.some.injEq] at hje
      subst hje
      simp [hlt]
    · have hne : id.hash ≠ j := by
        rintro rfl
        exact huid (L.dense_inj hs hwf hu hv hje hi)
      rw [List.getElem?_set_ne hne]
      simp [huid]

theorem sparse_modify {s : S} {sm : ShardedMap U M} (hwf : VecWF hasher t valid s (.sparse sm))
    {id : LabelId U} (hid : IdOK hasher t valid s false id) (f : M → M) (tb0 tb : Table U M) (x : M)
    (h0 : sm.shards[shardIndex sm.shift id.hash]? = some tb0)
    (hw : TableWF hasher tb)
    (hm : ∀ e ∈ tb, shardIndex sm.shift e.hash = shardIndex sm.shift id.hash ∧ valid s e.key)
    (hf : tb.find id.hash id.id = some x)
    (hsame : ∀ u, u ≠ id.id → tb.find (hasher u) u = tb0.find (hasher u) u) :
    VecWF hasher t valid s (.sparse (sm.setShard id.hash (tb.modify id.hash id.id f))) ∧
    ∀ u, valid s u → cellOf hasher t (.sparse (sm.setShard id.hash (tb.modify id.hash id.id f))) u =
      if u = id.id then some (f x) else cellOf hasher t (.sparse sm) u := by
  obtain ⟨hv, hh⟩ := hid
  simp only at hh
  constructor
  · apply hwf.setShard _ _ (Table.modify_wf hw _ _ _)
    intro e he
    obtain ⟨e', he', h1, h2⟩ := Table.modify_mem he
    rw [← h1, ← h2]; exact hm e' he'
  · intro u hu
    rw [cellOf_setShard _ _ _ ⟨tb0, h0⟩, hh, Table.find_modify]
    by_cases huid : u = id.id
    · subst huid
      rw [hh] at hf
      simp [hf]
    · simp only [huid, if_false]
      by_cases hk : shardIndex sm.shift (hasher u) = shardIndex sm.shift (hasher id.id)
      · rw [if_pos hk, hsame u huid]
        simp only [cellOf]
        rw [hk, ← hh, h0]; rfl
      · rw [if_neg hk]

theorem getMetric_ok (L : GroupSetLaws t inv le valid) {s : S} (hs : inv s) {v : VecInner U M}
    (hwf : VecWF hasher t valid s v) {id : LabelId U} (hid : IdOK hasher t valid s v.isDense id)
    (dflt : M) (f : M → M) :
    AccessOK hasher t valid s dflt v id f (v.getMetric dflt hasher id f) := by
  cases v with
  | dense cells =>
    obtain ⟨c, hc, hcell, hset⟩ := dense_access L hs hwf hid
    refine ⟨.dense (cells.set id.hash (some (f (c.getD dflt)))), ?_, (hset _).1, rfl, ?_⟩
    · simp only [VecInner.getMetric, hc, expect, Out.ok_bind, hcell]
      cases c <;> rfl
    · intro u hu
      rw [(hset _).2 u hu, hcell]
  | sparse sm =>
    obtain ⟨tb, htb⟩ := hwf.shard id.hash
    obtain ⟨hv, hh⟩ := hid
    simp only [VecInner.isDense] at hh
    have hidok : IdOK hasher t valid s false id := ⟨hv, hh⟩
    have hall := hwf
    obtain ⟨b, hb, hsh, hl, hall⟩ := hall
    obtain ⟨htw, hte⟩ := hall _ _ htb
    have hcell : cellOf hasher t (.sparse sm) id.id = tb.find id.hash id.id := by
      simp only [cellOf, ← hh, htb]; rfl
    simp only [VecInner.getMetric, ShardedMap.getMetric, ShardedMap.shard, htb, expect, Out.ok_bind]
    cases hf : tb.find id.hash id.id with
    | some x =>
      obtain ⟨h1, h2⟩ := sparse_modify hwf hidok f tb tb x htb htw hte hf (fun _ _ => rfl)
      refine ⟨_, ?_, h1, rfl, ?_⟩
      · simp [hcell, hf]
      · intro u hu; rw [h2 u hu, hcell, hf]; rfl
    | none =>
      have hfh : tb.find (hasher id.id) id.id = none := hh ▸ hf
      have hins := Table.insert_wf (v := dflt) htw hfh
      have hfi : (tb.insertUnique id.hash id.id dflt hasher).find id.hash id.id = some dflt := by
        rw [hh, Table.find_insert htw]; simp
      obtain ⟨h1, h2⟩ := sparse_modify hwf hidok f tb (tb.insertUnique id.hash id.id dflt hasher) dflt htb
        (by rw [hh]; exact hins)
        (by
          intro e he
          rw [Table.insert_eq htw] at he
          simp only [List.mem_cons] at he
          rcases he with rfl | he
          · exact ⟨rfl, hv⟩
          · exact hte e he)
        hfi
        (by
          intro u hu
          rw [hh, Table.find_insert htw]
          simp [hu])
      simp only [hfi]
      refine ⟨_, ?_, h1, rfl, ?_⟩
      · simp [hcell, hf]
      · intro u hu; rw [h2 u hu, hcell, hf]; rfl

theorem getMetricMut_ok (L : GroupSetLaws t inv le valid) {s : S} (hs : inv s) {v : VecInner U M}
    (hwf : VecWF hasher t valid s v) {id : LabelId U} (hid : IdOK hasher t valid s v.isDense id)
    (dflt : M) (f : M → M) :
    AccessOK hasher t valid s dflt v id f (v.getMetricMut dflt hasher id f) := by
  have h := getMetric_ok L hs hwf hid dflt f
  suffices v.getMetricMut dflt hasher id f = v.getMetric dflt hasher id f by rw [this]; exact h
  cases v with
  | dense cells =>
    simp only [VecInner.getMetricMut, VecInner.getMetric]
    cases hc : cells[id.hash]? with
    | none => rfl
    | some c => cases c <;> rfl
  | sparse sm =>
    simp only [VecInner.getMetricMut, VecInner.getMetric, ShardedMap.getMetricMut, ShardedMap.getMetric,
      ShardedMap.shard]
    obtain ⟨tb, htb⟩ := hwf.shard id.hash
    obtain ⟨b, hb, hsh, hl, hall⟩ := hwf
    obtain ⟨htw, hte⟩ := hall _ _ htb
    have hh : id.hash = hasher id.id := hid.2
    simp only [htb, expect, Out.ok_bind]
    cases hf : tb.find id.hash id.id with
    | some x => rfl
    | none =>
      have hfi : (tb.insertUnique id.hash id.id dflt hasher).find id.hash id.id = some dflt := by
        rw [hh, Table.find_insert htw]; simp
      simp only [hfi]
      rfl

theorem removeMetric_ok {s : S} {v : MetricVec S U M}
    (hwf : VecWF hasher t valid s v.inner) {id : LabelId U} (hid : IdOK hasher t valid s v.inner.isDense id) :
    ∃ v', MetricVec.removeMetric id v =
        (.ok (if v.inner.isDense then none else cellOf hasher t v.inner id.id), { v with inner := v' }) ∧
      VecWF hasher t valid s v' ∧ v'.isDense = v.inner.isDense ∧
      ∀ u, valid s u → cellOf hasher t v' u =
        if u = id.id ∧ v.inner.isDense = false then none else cellOf hasher t v.inner u := by
  obtain ⟨inner, lab⟩ := v
  cases inner with
  | dense cells => exact ⟨.dense cells, rfl, hwf, rfl, fun u _ => by simp [VecInner.isDense]⟩
  | sparse sm =>
    obtain ⟨tb, htb⟩ := hwf.shard id.hash
    obtain ⟨hv, hh⟩ := hid
    simp only [VecInner.isDense] at hh
    have hall := hwf
    obtain ⟨b, hb, hsh, hl, hall⟩ := hall
    obtain ⟨htw, hte⟩ := hall _ _ htb
    have hcell : cellOf hasher t (.sparse sm) id.id = tb.find id.hash id.id := by
      simp only [cellOf, ← hh, htb]; rfl
    simp only [MetricVec.removeMetric, ShardedMap.removeMetric, ShardedMap.shard, htb, expect, Out.ok_bind,
      VecInner.isDense, hcell]
    cases hf : tb.find id.hash id.id with
    | none =>
      refine ⟨.sparse sm, rfl, hwf, rfl, ?_⟩
      intro u hu
      by_cases huid : u = id.id
      · subst huid; simp [hcell, hf]
      · simp [huid]
    | some x =>
      refine ⟨_, rfl, ?_, rfl, ?_⟩
      · apply hwf.setShard _ _ (Table.remove_wf htw _ _)
        intro e he
        exact hte e ((tb.remove_sublist _ _).subset he)
      · intro u hu
        rw [cellOf_setShard _ _ _ ⟨tb, htb⟩, hh, Table.find_remove htw]
        by_cases huid : u = id.id
        · subst huid; simp
        · simp only [huid, false_and, if_false]
          by_cases hk : shardIndex sm.shift (hasher u) = shardIndex sm.shift (hasher id.id)
          · rw [if_pos hk]
            simp only [cellOf]
            rw [hk, ← hh, htb]; rfl
          · rw [if_neg hk]

theorem cellOf_valid {s : S} {v : VecInner U M} (hd : v.isDense = false)
    (hwf : VecWF hasher t valid s v) {u : U} {x : M} (h : cellOf hasher t v u = some x) : valid s u := by
  cases v with
  | dense _ => cases hd
  | sparse sm =>
    obtain ⟨b, hb, hsh, hl, hall⟩ := hwf
    simp only [cellOf] at h
    rw [Option.bind_eq_some_iff] at h
    obtain ⟨tb, h1, h2⟩ := h
    obtain ⟨htw, hte⟩ := hall _ _ h1
    obtain ⟨e, he, hk, _⟩ := (Table.find_iff htw u x).1 h2
    rw [← hk]; exact (hte e he).2

theorem dense_valid_back (L : GroupSetLaws t inv le valid) {s s' : S} (hs : inv s) (hs' : inv s')
    (hle : le s s') {c : Nat} (hc : t.cardinality = some c) {u : U} (hu : valid s' u) : valid s u := by
  obtain ⟨i, hi, he, _⟩ := L.dense s' u c hs' hc hu
  obtain ⟨u0, hv0, he0⟩ := L.dense_surj s i c hs hc hi
  have := L.dense_inj hs' hc (L.stable s s' u0 hs hs' hle hv0).1 hu he0 he
  rw [← this]; exact hv0

/-! ## Simulation -/

structure Sim (hasher : U → Nat) (t : GroupSet S G U) (inv : S → Prop) (valid : S → U → Prop)
    (dense : Bool) (r : VecRun S U M) (st : MapState S G M) : Prop where
  labels : r.vec.labels = st.labels
  inv : inv st.labels
  wf : VecWF hasher t valid st.labels r.vec.inner
  kind : r.vec.inner.isDense = dense
  ids : List.Forall₂ (fun id g => IdOK hasher t valid st.labels dense id ∧ t.decode st.labels id.id = .ok g)
    r.ids st.issued
  cells : ∀ u g, valid st.labels u → t.decode st.labels u = .ok g → cellOf hasher t r.vec.inner u = st.live g
  live_valid : ∀ g x, st.live g = some x → ∃ u, valid st.labels u ∧ t.decode st.labels u = .ok g

theorem VecWF.mono (L : GroupSetLaws t inv le valid) {s s' : S} (hs : inv s) (hs' : inv s') (hle : le s s')
    {v : VecInner U M} (h : VecWF hasher t valid s v) : VecWF hasher t valid s' v := by
  cases v with
  | dense cells => exact h
  | sparse sm =>
    obtain ⟨b, hb, hsh, hl, hall⟩ := h
    refine ⟨b, hb, hsh, hl, fun i tb hi => ⟨(hall i tb hi).1, fun e he => ⟨((hall i tb hi).2 e he).1, ?_⟩⟩⟩
    exact (L.stable s s' _ hs hs' hle ((hall i tb hi).2 e he).2).1

/-- The label set may grow without the vector noticing. -/
theorem Sim.grow (L : GroupSetLaws t inv le valid) {dense : Bool} {r : VecRun S U M} {st : MapState S G M}
    (h : Sim hasher t inv valid dense r st) {s' : S} (hs' : inv s') (hle : le st.labels s') :
    Sim hasher t inv valid dense ⟨{ r.vec with labels := s' }, r.ids⟩ { st with labels := s' } where
  labels := rfl
  inv := hs'
  wf := h.wf.mono L h.inv hs' hle
  kind := h.kind
  ids := by
    refine List.Forall₂.imp ?_ h.ids
    rintro id g ⟨⟨h1, h2⟩, h3⟩
    obtain ⟨k1, k2⟩ := L.stable _ _ _ h.inv hs' hle h1
    exact ⟨⟨k1, h2⟩, by rw [k2]; exact h3⟩
  cells := by
    intro u g hu hg
    simp only at hu hg ⊢
    by_cases hv : valid st.labels u
    · refine h.cells u g hv ?_
      rw [← (L.stable _ _ _ h.inv hs' hle hv).2]; exact hg
    · have h1 : cellOf hasher t r.vec.inner u = none := by
        cases hc : cellOf hasher t r.vec.inner u with
        | none => rfl
        | some x =>
          exfalso
          cases hd : r.vec.inner.isDense with
          | false => exact hv (cellOf_valid hd h.wf hc)
          | true =>
            cases hin : r.vec.inner with
            | dense cells =>
              have hw := h.wf
              rw [hin] at hw
              exact hv (dense_valid_back L h.inv hs' hle hw hu)
            | sparse sm => rw [hin] at hd; cases hd
      have h2 : st.live g = none := by
        cases hl : st.live g with
        | none => rfl
        | some x =>
          obtain ⟨u0, hu0, hd0⟩ := h.live_valid g x hl
          obtain ⟨k1, k2⟩ := L.stable _ _ _ h.inv hs' hle hu0
          have := L.unique hs' k1 hu (by rw [k2, hd0, hg])
          exact absurd (this ▸ hu0) hv
      rw [h1, h2]
  live_valid := by
    intro g x hl
    obtain ⟨u0, hu0, hd0⟩ := h.live_valid g x hl
    obtain ⟨k1, k2⟩ := L.stable _ _ _ h.inv hs' hle hu0
    exact ⟨u0, k1, by simp only; rw [k2]; exact hd0⟩

/-- Replacing the state of the label behind one id. -/
theorem Sim.put [DecidableEq G] (L : GroupSetLaws t inv le valid) {dense : Bool} {r : VecRun S U M}
    {st : MapState S G M} (h : Sim hasher t inv valid dense r st) {id : LabelId U} {g : G}
    (hid : IdOK hasher t valid st.labels dense id) (hg : t.decode st.labels id.id = .ok g)
    {v' : VecInner U M} (hwf : VecWF hasher t valid st.labels v') (hk : v'.isDense = dense) (x : Option M)
    (hc : ∀ u, valid st.labels u → cellOf hasher t v' u = if u = id.id then x else cellOf hasher t r.vec.inner u) :
    Sim hasher t inv valid dense ⟨{ r.vec with inner := v' }, r.ids⟩ (st.setLive g x) where
  labels := h.labels
  inv := h.inv
  wf := hwf
  kind := hk
  ids := h.ids
  cells := by
    intro u g' hu hg'
    simp only [MapState.setLive] at hu hg' ⊢
    rw [hc u hu]
    by_cases huid : u = id.id
    · subst huid
      rw [hg] at hg'; cases hg'
      simp
    · have : g' ≠ g := by
        rintro rfl
        exact huid (L.unique h.inv hu hid.1 (by rw [hg', hg]))
      simp only [huid, this, if_false]
      exact h.cells u g' hu hg'
  live_valid := by
    intro g' y hl
    simp only [MapState.setLive] at hl ⊢
    by_cases hgg : g' = g
    · subst hgg; exact ⟨id.id, hid.1, hg⟩
    · simp only [hgg, if_false] at hl
      exact h.live_valid g' y hl

theorem Sim.lookupId {dense : Bool} {r : VecRun S U M} {st : MapState S G M}
    (h : Sim hasher t inv valid dense r st) (k : Nat) :
    (r.ids[k]? = none ∧ st.issued[k]? = none) ∨
    ∃ id g, r.ids[k]? = some id ∧ st.issued[k]? = some g ∧ IdOK hasher t valid st.labels dense id ∧
      t.decode st.labels id.id = .ok g := by
  have hlen := h.ids.length_eq
  by_cases hk : k < r.ids.length
  · refine .inr ⟨r.ids[k], st.issued[k]'(by omega), by simp [hk], by simp [hlen ▸ hk], ?_⟩
    have := (List.forall₂_iff_get.1 h.ids).2 k hk (by omega)
    exact this
  · exact .inl ⟨List.getElem?_eq_none (by omega), List.getElem?_eq_none (by omega)⟩

/-- Access through a known id, shared or exclusive. -/
theorem Sim.access [DecidableEq G] (L : GroupSetLaws t inv le valid) {dense : Bool} {r : VecRun S U M}
    {st : MapState S G M} (h : Sim hasher t inv valid dense r st) {id : LabelId U} {g : G}
    (hid : IdOK hasher t valid st.labels dense id) (hg : t.decode st.labels id.id = .ok g)
    (dflt : M) (f : M → M) :
    ∃ v', MetricVec.getMetric dflt hasher id f r.vec = (.ok ((st.live g).getD dflt), { r.vec with inner := v' }) ∧
      MetricVec.getMetricMut dflt hasher id f r.vec = (.ok ((st.live g).getD dflt), { r.vec with inner := v' }) ∧
      Sim hasher t inv valid dense ⟨{ r.vec with inner := v' }, r.ids⟩
        (st.setLive g (some (f ((st.live g).getD dflt)))) := by
  have hid' : IdOK hasher t valid st.labels r.vec.inner.isDense id := by rw [h.kind]; exact hid
  obtain ⟨v', h1, h2, h3, h4⟩ := getMetric_ok L h.inv h.wf hid' dflt f
  obtain ⟨v'', h1', h2', h3', h4'⟩ := getMetricMut_ok L h.inv h.wf hid' dflt f
  have heq : r.vec.inner.getMetricMut dflt hasher id f = r.vec.inner.getMetric dflt hasher id f := by
    have := getMetric_ok L h.inv h.wf hid' dflt f
    cases hin : r.vec.inner with
    | dense cells =>
      simp only [VecInner.getMetricMut, VecInner.getMetric]
      cases hc : cells[id.hash]? with
      | none => rfl
      | some c => cases c <;> rfl
    | sparse sm =>
      have hwf := h.wf
      rw [hin] at hwf
      simp only [VecInner.getMetricMut, VecInner.getMetric, ShardedMap.getMetricMut, ShardedMap.getMetric,
        ShardedMap.shard]
      obtain ⟨tb, htb⟩ := hwf.shard id.hash
      obtain ⟨b, hb, hsh, hl, hall⟩ := hwf
      obtain ⟨htw, hte⟩ := hall _ _ htb
      have hh : id.hash = hasher id.id := by rw [hin] at hid'; exact hid'.2
      simp only [htb, expect, Out.ok_bind]
      cases hf : tb.find id.hash id.id with
      | some x => rfl
      | none =>
        have hfi : (tb.insertUnique id.hash id.id dflt hasher).find id.hash id.id = some dflt := by
          rw [hh, Table.find_insert htw]; simp
        simp only [hfi]
        rfl
  have hcell := h.cells id.id g hid.1 hg
  rw [hcell] at h1 h4
  refine ⟨v', ?_, ?_, ?_⟩
  · simp only [MetricVec.getMetric, h1]
  · simp only [MetricVec.getMetricMut, heq, h1]
  · exact h.put L hid hg h2 (h3.trans h.kind) _ h4

/-- `try_with_labels`. -/
theorem Sim.tryWith (L : GroupSetLaws t inv le valid) {dense : Bool} {r : VecRun S U M}
    {st : MapState S G M} (h : Sim hasher t inv valid dense r st) (m : Mode) (g : G) :
    (¬ Encodable t st.labels g ∧
      MetricVec.tryWithLabels m hasher t g r.vec = (.ok none, { r.vec with labels := afterLookup t st.labels g }) ∧
      Sim hasher t inv valid dense ⟨{ r.vec with labels := afterLookup t st.labels g }, r.ids⟩
        { st with labels := afterLookup t st.labels g }) ∨
    (Encodable t st.labels g ∧ ∃ id,
      MetricVec.tryWithLabels m hasher t g r.vec = (.ok (some id), { r.vec with labels := afterLookup t st.labels g }) ∧
      IdOK hasher t valid (afterLookup t st.labels g) dense id ∧
      t.decode (afterLookup t st.labels g) id.id = .ok g ∧
      Sim hasher t inv valid dense ⟨{ r.vec with labels := afterLookup t st.labels g }, r.ids⟩
        { st with labels := afterLookup t st.labels g }) := by
  obtain ⟨o, ho⟩ := L.enc_total st.labels g h.inv
  obtain ⟨hi, hle⟩ := L.enc_inv st.labels g h.inv
  have hgrow := h.grow L hi hle
  have hlab := h.labels
  cases he : t.encode g st.labels with
  | mk o' s' =>
    have hs' : afterLookup t st.labels g = s' := by simp [afterLookup, he]
    rw [he] at ho hi hle hgrow
    simp only at ho hi hle
    subst ho
    rw [hs']
    cases o with
    | none =>
      refine .inl ⟨?_, ?_, hgrow⟩
      · rintro ⟨u, hu⟩; rw [he] at hu; cases hu
      · simp only [MetricVec.tryWithLabels, hlab, he]
    | some u =>
      obtain ⟨hv, hd⟩ := L.enc_dec _ _ _ _ h.inv he
      refine .inr ⟨⟨u, by rw [he]⟩, ?_⟩
      cases hin : r.vec.inner with
      | dense cells =>
        have hwf := h.wf
        rw [hin] at hwf
        have hk := h.kind
        rw [hin] at hk
        obtain ⟨i, hlt, hie, _⟩ := L.dense s' u _ hi hwf hv
        refine ⟨⟨u, i⟩, ?_, ⟨hv, by rw [← hk]; exact hie⟩, hd, hgrow⟩
        simp only [MetricVec.tryWithLabels, hlab, he, hin, hie, Out.ok_bind, expect]
        have : debugAssert m (decide (i < cells.length)) = .ok () := by
          cases m <;> simp [debugAssert, hlt]
        rw [this]; rfl
      | sparse sm =>
        have hk := h.kind
        rw [hin] at hk
        refine ⟨⟨u, hasher u⟩, ?_, ⟨hv, by rw [← hk]; rfl⟩, hd, hgrow⟩
        simp only [MetricVec.tryWithLabels, hlab, he, hin, Out.ok_bind]

theorem encodable_dense (L : GroupSetLaws t inv le valid) {s : S} (hs : inv s) {c : Nat}
    (hc : t.cardinality = some c) {g : G} :
    Encodable t s g ↔ ∃ u, valid s u ∧ t.decode s u = .ok g := by
  constructor
  · rintro ⟨u, hu⟩
    obtain ⟨hi, hle⟩ := L.enc_inv s g hs
    obtain ⟨hv, hd⟩ := L.enc_dec s g u _ hs (Prod.ext hu rfl)
    have hv0 := dense_valid_back L hs hi hle hc hv
    exact ⟨u, hv0, by rw [← (L.stable s _ u hs hi hle hv0).2]; exact hd⟩
  · rintro ⟨u, hv, hd⟩
    obtain ⟨g', hd', he⟩ := L.valid_enc s u hs hv
    rw [hd] at hd'; cases hd'
    exact ⟨u, by rw [he]⟩

theorem valid_encodable (L : GroupSetLaws t inv le valid) {s : S} (hs : inv s) {u : U} {g : G}
    (hv : valid s u) (hd : t.decode s u = .ok g) : Encodable t s g := by
  obtain ⟨g', hd', he⟩ := L.valid_enc s u hs hv
  rw [hd] at hd'; cases hd'
  exact ⟨u, by rw [he]⟩

/-- One step of the vector is one step of the map. -/
theorem sim_step [DecidableEq G] (L : GroupSetLaws t inv le valid) (m : Mode) (dflt : M) {dense : Bool}
    {r : VecRun S U M} {st : MapState S G M} (h : Sim hasher t inv valid dense r st) (op : VecOp G M) :
    (vecStep m hasher dflt t r op).1 = (mapStep dense dflt t st op).1 ∧
    Sim hasher t inv valid dense (vecStep m hasher dflt t r op).2 (mapStep dense dflt t st op).2 := by
  cases op with
  | lookup g =>
    rcases h.tryWith L m g with ⟨hn, h1, h2⟩ | ⟨hy, id, h1, h2, h3, h4⟩
    · simp only [vecStep, h1, mapStep, hn, if_false]
      exact ⟨trivial, h2⟩
    · simp only [vecStep, h1, mapStep, hy, if_true]
      refine ⟨trivial, { h4 with ids := ?_ }⟩
      simp only
      exact List.rel_append h4.ids (.cons ⟨h2, h3⟩ .nil)
  | access k f =>
    rcases h.lookupId k with ⟨h1, h2⟩ | ⟨id, g, h1, h2, h3, h4⟩
    · simp only [vecStep, h1, mapStep, h2]; exact ⟨trivial, h⟩
    · obtain ⟨v', k1, k2, k3⟩ := h.access L h3 h4 dflt f
      simp only [vecStep, h1, k1, mapStep, h2, VecRes.ofState]
      exact ⟨trivial, k3⟩
  | accessMut k f =>
    rcases h.lookupId k with ⟨h1, h2⟩ | ⟨id, g, h1, h2, h3, h4⟩
    · simp only [vecStep, h1, mapStep, h2]; exact ⟨trivial, h⟩
    · obtain ⟨v', k1, k2, k3⟩ := h.access L h3 h4 dflt f
      simp only [vecStep, h1, k2, mapStep, h2, VecRes.ofState]
      exact ⟨trivial, k3⟩
  | update g f =>
    rcases h.tryWith L m g with ⟨hn, h1, h2⟩ | ⟨hy, id, h1, h2, h3, h4⟩
    · simp only [vecStep, RS.bind_run, MetricVec.withLabels, h1, expect, mapStep, hn, if_false, VecRes.ofState]
      exact ⟨trivial, h2⟩
    · obtain ⟨v', k1, k2, k3⟩ := h4.access L h2 h3 dflt f
      simp only at k1
      simp only [vecStep, RS.bind_run, MetricVec.withLabels, h1, expect, mapStep, hy, if_true, k1, VecRes.ofState]
      exact ⟨trivial, k3⟩
  | updateMut g f =>
    rcases h.tryWith L m g with ⟨hn, h1, h2⟩ | ⟨hy, id, h1, h2, h3, h4⟩
    · simp only [vecStep, RS.bind_run, MetricVec.withLabels, h1, expect, mapStep, hn, if_false, VecRes.ofState]
      exact ⟨trivial, h2⟩
    · obtain ⟨v', k1, k2, k3⟩ := h4.access L h2 h3 dflt f
      simp only at k2
      simp only [vecStep, RS.bind_run, MetricVec.withLabels, h1, expect, mapStep, hy, if_true, k2, VecRes.ofState]
      exact ⟨trivial, k3⟩
  | remove k =>
    rcases h.lookupId k with ⟨h1, h2⟩ | ⟨id, g, h1, h2, h3, h4⟩
    · simp only [vecStep, h1, mapStep, h2]; exact ⟨trivial, h⟩
    · obtain ⟨v', k1, k2, k3, k4⟩ := removeMetric_ok h.wf (id := id) (by rw [h.kind]; exact h3)
      simp only [vecStep, h1, k1, mapStep, h2]
      rw [h.kind] at k3 k4 ⊢
      cases dense with
      | true =>
        simp only [if_true]
        refine ⟨trivial, ?_⟩
        refine { h with wf := k2, kind := k3, cells := ?_ }
        intro u g' hu hg'
        simp only
        rw [k4 u hu]
        simp
        exact h.cells u g' hu hg'
      | false =>
        simp only [Bool.false_eq_true, if_false]
        refine ⟨by rw [h.cells id.id g h3.1 h4], ?_⟩
        apply h.put L h3 h4 k2 k3
        intro u hu
        rw [k4 u hu]
        simp
  | initAllDense =>
    simp only [vecStep, MetricVec.initAllDense, mapStep]
    cases hin : r.vec.inner with
    | sparse sm =>
      have hk := h.kind
      rw [hin] at hk
      simp only [VecInner.isDense] at hk
      subst hk
      simp only [Bool.false_eq_true, if_false, VecInner.initAllDense]
      refine ⟨trivial, ?_⟩
      rw [← hin]; exact h
    | dense cells =>
      have hk := h.kind
      rw [hin] at hk
      simp only [VecInner.isDense] at hk
      subst hk
      have hwf := h.wf
      rw [hin] at hwf
      simp only [if_true, VecInner.initAllDense]
      refine ⟨trivial, ?_⟩
      refine { h with wf := ?_, kind := rfl, cells := ?_, live_valid := ?_ }
      · simpa [VecWF] using hwf
      · intro u g hu hg
        simp only at hu hg ⊢
        rw [if_pos (valid_encodable L h.inv hu hg), ← h.cells u g hu hg]
        obtain ⟨i, hlt, hie, _⟩ := L.dense _ u _ h.inv hwf hu
        simp only [cellOf, hin, hie]
        simp only [List.getElem?_map, List.getElem?_eq_getElem hlt]
        cases hc : cells[i] <;> simp
      · intro g x hl
        simp only at hl ⊢
        by_cases he : Encodable t st.labels g
        · exact (encodable_dense L h.inv hwf).1 he
        · rw [if_neg he] at hl
          exact h.live_valid g x hl

theorem sim_run [DecidableEq G] (L : GroupSetLaws t inv le valid) (m : Mode) (dflt : M) {dense : Bool}
    {r : VecRun S U M} {st : MapState S G M} (h : Sim hasher t inv valid dense r st) (ops : List (VecOp G M)) :
    (vecRun m hasher dflt t r ops).1 = (mapRun dense dflt t st ops).1 ∧
    Sim hasher t inv valid dense (vecRun m hasher dflt t r ops).2 (mapRun dense dflt t st ops).2 := by
  induction ops generalizing r st with
  | nil => exact ⟨rfl, h⟩
  | cons op ops ih =>
    obtain ⟨h1, h2⟩ := sim_step L m dflt h op
    obtain ⟨h3, h4⟩ := ih h2
    simp only [vecRun, mapRun]
    exact ⟨by rw [h1, h3], h4⟩

theorem mapRun_append [DecidableEq G] (dense : Bool) (dflt : M) (t : GroupSet S G U) (st : MapState S G M)
    (a b : List (VecOp G M)) :
    mapRun dense dflt t st (a ++ b) = ((mapRun dense dflt t st a).1 ++ (mapRun dense dflt t (mapRun dense dflt t st a).2 b).1,
      (mapRun dense dflt t (mapRun dense dflt t st a).2 b).2) := by
  induction a generalizing st with
  | nil => rfl
  | cons o os ih => simp only [List.cons_append, mapRun, ih]

/-! ## Fresh vectors -/

theorem sim_new_dense (t : GroupSet S G U) (s : S) (hs : inv s)
    (v : MetricVec S U M) (hv : MetricVec.newDense t s = .ok v) :
    Sim hasher t inv valid true ⟨v, []⟩ (MapState.empty s) := by
  unfold MetricVec.newDense at hv
  cases hc : t.cardinality with
  | none => simp [hc, expect] at hv
  | some c =>
    simp only [hc, expect, Out.ok_bind, Out.ok.injEq] at hv
    subst hv
    refine ⟨rfl, hs, ?_, rfl, .nil, ?_, ?_⟩
    · simp [VecWF, newDense, hc]
    · intro u g _ _
      simp only [cellOf, newDense, MapState.empty]
      cases t.encodeDense u with
      | ok o =>
        cases o with
        | none => rfl
        | some i =>
          simp only
          by_cases hi : i < c
          · simp [hi]
          · simp [hi]
      | err => rfl
      | panic => rfl
    · intro g x h; cases h

/-- The number of shards is a power of two. -/
def GoodShards (n : Nat) : Prop := ∃ b, 2 ≤ b ∧ b ≤ 64 ∧ n = 2 ^ b ∧ shardShift n = 64 - b

theorem sim_new_sparse (t : GroupSet S G U) (s : S) (hs : inv s) (n : Nat) (hn : GoodShards n) :
    Sim (M := M) hasher t inv valid false ⟨⟨.sparse ⟨List.replicate n [], shardShift n⟩, s⟩, []⟩
      (MapState.empty s) := by
  obtain ⟨b, _, hb, hnb, hsh⟩ := hn
  refine ⟨rfl, hs, ⟨b, hb, hsh, by simp [hnb], ?_⟩, rfl, .nil, ?_, ?_⟩
  · intro i tb hi
    simp only [List.getElem?_replicate] at hi
    split at hi
    · cases hi
      refine ⟨⟨by simp, by simp⟩, by simp⟩
    · cases hi
  · intro u g _ _
    simp only [cellOf, MapState.empty, List.getElem?_replicate]
    split <;> rfl
  · intro g x h; cases h

end vec

/-! ## Shard counts -/

theorem trailingZerosAux_pow (fuel k : Nat) (h : k < fuel) : trailingZerosAux fuel (2 ^ k) = k := by
  induction fuel generalizing k with
  | zero => omega
  | succ fuel ih =>
    cases k with
    | zero => simp [trailingZerosAux]
    | succ k =>
      have h1 : 2 ^ (k + 1) % 2 ≠ 1 := by rw [Nat.pow_succ]; omega
      have h2 : 2 ^ (k + 1) / 2 = 2 ^ k := by rw [Nat.pow_succ]; omega
      simp only [trailingZerosAux, h1, if_false, h2]
      rw [ih k (by omega)]

theorem maxShift (j : Nat) (hj : j ≤ 63) : (W64 - 1) >>> (63 - j) = 2 ^ (j + 1) - 1 := by
  rw [Nat.shiftRight_eq_div_pow, W64_eq]
  have h1 : (2 : Nat) ^ 64 = 2 ^ (j + 1) * 2 ^ (63 - j) := by
    rw [← Nat.pow_add]; congr 1; omega
  have hp : 0 < 2 ^ (63 - j) := Nat.pow_pos (by omega)
  have hq : 0 < 2 ^ (j + 1) := Nat.pow_pos (by omega)
  rw [h1]
  apply Nat.div_eq_of_lt_le
  · rw [Nat.mul_comm, Nat.mul_sub, Nat.mul_comm (2 ^ (63 - j))]; omega
  · rw [Nat.sub_add_cancel hq]
    have : 0 < 2 ^ (j + 1) * 2 ^ (63 - j) := Nat.mul_pos hq hp
    omega

theorem defaultShardAmount_ok (m : Mode) (p : Nat) (h0 : 0 < p) (h1 : p ≤ 2 ^ 55) :
    ∃ n, defaultShardAmount m p = .ok n ∧ GoodShards n ∧ 4 * p ≤ n ∧ n < 8 * p := by
  have hp4 : p * 4 < W64 := by
    rw [W64_eq]
    calc p * 4 ≤ 2 ^ 55 * 4 := Nat.mul_le_mul_right _ h1
      _ < 2 ^ 64 := by decide
  have hne : ¬ p * 4 ≤ 1 := by omega
  have hpos : p * 4 - 1 ≠ 0 := by omega
  have hlog : Nat.log2 (p * 4 - 1) ≤ 57 := by
    have : Nat.log2 (p * 4 - 1) < 58 := by
      rw [Nat.log2_lt hpos]
      calc p * 4 - 1 < p * 4 := by omega
        _ ≤ 2 ^ 55 * 4 := Nat.mul_le_mul_right _ h1
        _ < 2 ^ 58 := by decide
    omega
  have hlo := Nat.log2_self_le hpos
  have hhi := Nat.lt_log2_self (n := p * 4 - 1)
  generalize hj : Nat.log2 (p * 4 - 1) = j at *
  have hj1 : 1 ≤ j := by
    by_contra hcon
    have : j = 0 := by omega
    subst this
    simp at hhi; omega
  have hval : (W64 - 1) >>> leadingZeros64 (p * 4 - 1) = 2 ^ (j + 1) - 1 := by
    unfold leadingZeros64; rw [hj]; exact maxShift j (by omega)
  have hq : 0 < 2 ^ (j + 1) := Nat.pow_pos (by omega)
  have hlt : 2 ^ (j + 1) < W64 := by
    rw [W64_eq]; exact Nat.pow_lt_pow_right (by omega) (by omega)
  refine ⟨2 ^ (j + 1), ?_, ⟨j + 1, by omega, by omega, rfl, ?_⟩, by omega, ?_⟩
  · simp only [defaultShardAmount, mulU_ok hp4, Out.ok_bind, nextPowerOfTwo, hne, if_false, hval]
    rw [addU_ok (by omega)]
    congr 1; omega
  · unfold shardShift trailingZeros64
    rw [trailingZerosAux_pow _ _ (by omega)]
  · rw [Nat.pow_succ]; omega

/-! ## Created vectors -/

section created
variable [DecidableEq U] {hasher : U → Nat} {t : GroupSet S G U} {inv : S → Prop} {valid : S → U → Prop}

theorem sim_shardedMap {m : Mode} {p : Nat} (h0 : 0 < p) (h1 : p ≤ 2 ^ 55) (s : S) (hs : inv s)
    {sm : ShardedMap U M} (h : ShardedMap.new m p = .ok sm) :
    Sim hasher t inv valid false ⟨⟨.sparse sm, s⟩, []⟩ (MapState.empty s) := by
  obtain ⟨n, hn, hg, _⟩ := defaultShardAmount_ok m p h0 h1
  simp only [ShardedMap.new, hn, Out.ok_bind, Out.ok.injEq] at h
  subst h
  exact sim_new_sparse t s hs n hg

theorem sim_created {m : Mode} {p : Nat} (h0 : 0 < p) (h1 : p ≤ 2 ^ 55) {s : S} (hs : inv s) {dense : Bool}
    {v : MetricVec S U M} (hc : Created m p t s dense v) :
    Sim hasher t inv valid dense ⟨v, []⟩ (MapState.empty s) := by
  have hsp : ∀ v : MetricVec S U M, (ShardedMap.new m p >>= fun sm => Out.ok ⟨.sparse sm, s⟩) = .ok v →
      Sim hasher t inv valid false ⟨v, []⟩ (MapState.empty s) := by
    intro v h
    obtain ⟨sm, h2, h3⟩ := Out.bind_eq_ok.1 h
    cases h3
    exact sim_shardedMap h0 h1 s hs h2
  cases hc with
  | new h hin =>
    unfold MetricVec.new at h
    split at h
    · rename_i c hcard
      split at h
      · apply sim_new_dense t s hs v
        simp only [MetricVec.newDense, hcard, expect, Out.ok_bind]
        exact h
      · have := (hsp v h).kind; simp only [hin] at this; cases this
    · have := (hsp v h).kind; simp only [hin] at this; cases this
  | newSparse h hin =>
    unfold MetricVec.new at h
    split at h
    · split at h
      · cases h; cases hin
      · exact hsp v h
    · exact hsp v h
  | dense h => exact sim_new_dense t s hs v h
  | sparse h => exact hsp v h

end created

/-! ## Collection -/

section collect
variable {t : GroupSet S G U} {E : Type}

theorem RS.lift_bind {α β : Type} (a : α) (f : α → RS E β) : (RS.lift (.ok a) >>= f) = f a := rfl

theorem RS.bind_assoc' {α β γ : Type} (x : RS E α) (f : α → RS E β) (g : β → RS E γ) :
    (x >>= f) >>= g = x >>= fun a => f a >>= g := by
  funext s
  simp only [RS.bind_run]
  cases x s with
  | mk o s' => cases o <;> rfl

theorem RS.pure_bind' {α β : Type} (a : α) (f : α → RS E β) : ((pure a : RS E α) >>= f) = f a := rfl

theorem forEach_append {α : Type} (act : α → RS E Unit) (a b : List α) :
    forEach act (a ++ b) = forEach act a >>= fun _ => forEach act b := by
  induction a with
  | nil => rfl
  | cons x xs ih => simp only [List.cons_append, forEach, ih, RS.bind_assoc']

/-- Walking the cells from index `k`. -/
theorem collectDense_list (s : S) (cells : List (Option M)) (k : Nat)
    (hd : ∀ j, j < cells.length → ∃ g, t.decodeDense s (k + j) = .ok g) :
    ∃ l : List (Nat × G × M),
      (∀ (E : Type) (sample : G → M → RS E Unit), collectDense t s sample k cells =
        forEach (fun p : G × M => sample p.1 p.2) (l.map Prod.snd)) ∧
      (∀ p ∈ l, t.decodeDense s p.1 = .ok p.2.1 ∧ k ≤ p.1 ∧ cells[p.1 - k]? = some (some p.2.2)) ∧
      (∀ j v, cells[j]? = some (some v) → ∃ g, (k + j, g, v) ∈ l) ∧
      (l.map Prod.fst).Pairwise (· < ·) ∧
      l.length = (cells.filter Option.isSome).length := by
  induction cells generalizing k with
  | nil => exact ⟨[], fun _ _ => rfl, by simp, by simp, by simp, rfl⟩
  | cons c cs ih =>
    obtain ⟨l, h1, h2, h3, h4, h5⟩ := ih (k + 1) (fun j hj => by
      obtain ⟨g, hg⟩ := hd (j + 1) (by simp; omega)
      exact ⟨g, by rw [← hg]; congr 1; omega⟩)
    have h2' : ∀ p ∈ l, t.decodeDense s p.1 = .ok p.2.1 ∧ k < p.1 ∧
        (c :: cs)[p.1 - k]? = some (some p.2.2) := by
      intro p hp
      obtain ⟨a, b, c'⟩ := h2 p hp
      refine ⟨a, by omega, ?_⟩
      rw [show p.1 - k = (p.1 - (k + 1)) + 1 by omega, List.getElem?_cons_succ]; exact c'
    cases c with
    | none =>
      refine ⟨l, ?_, ?_, ?_, h4, by simpa using h5⟩
      · intro E sample; rw [← h1]; rfl
      · intro p hp
        obtain ⟨a, b, c'⟩ := h2' p hp
        exact ⟨a, by omega, c'⟩
      · intro j v hj
        cases j with
        | zero => simp at hj
        | succ j =>
          obtain ⟨g, hg⟩ := h3 j v (by simpa using hj)
          exact ⟨g, by rw [show k + (j + 1) = k + 1 + j by omega]; exact hg⟩
    | some x =>
      obtain ⟨g, hg⟩ := hd 0 (by simp)
      simp only [Nat.add_zero] at hg
      refine ⟨(k, g, x) :: l, ?_, ?_, ?_, ?_, by simp [h5]⟩
      · intro E sample
        simp only [collectDense, hg, RS.lift_bind, List.map_cons, forEach, h1]
      · intro p hp
        simp only [List.mem_cons] at hp
        rcases hp with rfl | hp
        · exact ⟨hg, by simp, by simp⟩
        · obtain ⟨a, b, c'⟩ := h2' p hp
          exact ⟨a, by omega, c'⟩
      · intro j v hj
        cases j with
        | zero =>
          simp at hj; subst hj
          exact ⟨g, by simp⟩
        | succ j =>
          obtain ⟨g', hg'⟩ := h3 j v (by simpa using hj)
          exact ⟨g', by rw [show k + (j + 1) = k + 1 + j by omega]; simp [hg']⟩
      · simp only [List.map_cons, List.pairwise_cons]
        refine ⟨?_, h4⟩
        intro i hi
        obtain ⟨p, hp, rfl⟩ := List.mem_map.1 hi
        exact (h2' p hp).2.1

theorem collectTable_append (s : S) (sample : G → M → RS E Unit) (a b : Table U M) :
    collectTable t s sample (a ++ b) = collectTable t s sample a >>= fun _ => collectTable t s sample b := by
  induction a with
  | nil => rfl
  | cons e es ih => simp only [List.cons_append, collectTable, ih, RS.bind_assoc']

theorem collectShards_flat (s : S) (sample : G → M → RS E Unit) (shards : List (Table U M)) :
    collectShards t s sample shards = collectTable t s sample shards.flatten := by
  induction shards with
  | nil => rfl
  | cons tb rest ih => simp only [collectShards, List.flatten_cons, collectTable_append, ih]

theorem collectTable_list (s : S) (tb : Table U M) (hd : ∀ e ∈ tb, ∃ g, t.decode s e.key = .ok g) :
    ∃ l : List (U × G × M),
      (∀ (E : Type) (sample : G → M → RS E Unit), collectTable t s sample tb =
        forEach (fun p : G × M => sample p.1 p.2) (l.map Prod.snd)) ∧
      l.map (fun p => (p.1, p.2.2)) = tb.map (fun e => (e.key, e.val)) ∧
      (∀ p ∈ l, t.decode s p.1 = .ok p.2.1) := by
  induction tb with
  | nil => exact ⟨[], fun _ _ => rfl, rfl, by simp⟩
  | cons e es ih =>
    obtain ⟨l, h1, h2, h3⟩ := ih (fun e he => hd e (by simp [he]))
    obtain ⟨g, hg⟩ := hd e (by simp)
    refine ⟨(e.key, g, e.val) :: l, ?_, by simp [h2], ?_⟩
    · intro E sample
      simp only [collectTable, hg, RS.lift_bind, List.map_cons, forEach, h1]
    · intro p hp
      simp only [List.mem_cons] at hp
      rcases hp with rfl | hp
      · exact hg
      · exact h3 p hp

theorem forEach_record (l acc : List (G × M)) :
    forEach (fun p : G × M => record p.1 p.2) l acc = (.ok (), acc ++ l) := by
  induction l generalizing acc with
  | nil => simp [forEach]
  | cons p ps ih =>
    simp only [forEach]
    rw [RS.bind_run]
    simp only [record] at ih ⊢
    rw [ih]
    simp

variable [DecidableEq U] {hasher : U → Nat} {inv : S → Prop} {le : S → S → Prop} {valid : S → U → Prop}

theorem flatten_nodup_keys {sm : ShardedMap U M} {s : S} (hwf : VecWF hasher t valid s (.sparse sm)) :
    (sm.shards.flatten.map Entry.key).Nodup := by
  obtain ⟨b, hb, hsh, hl, hall⟩ := hwf
  rw [List.map_flatten, List.nodup_flatten]
  constructor
  · intro l hl'
    obtain ⟨tb, htb, rfl⟩ := List.mem_map.1 hl'
    obtain ⟨i, hi⟩ := List.mem_iff_getElem?.1 htb
    exact (hall i tb hi).1.2
  · rw [List.pairwise_map, List.pairwise_iff_getElem]
    intro i j hi hj hij
    rw [List.disjoint_left]
    intro k hk1 hk2
    obtain ⟨e1, he1, rfl⟩ := List.mem_map.1 hk1
    obtain ⟨e2, he2, heq⟩ := List.mem_map.1 hk2
    obtain ⟨w1, m1⟩ := hall i _ (List.getElem?_eq_getElem hi)
    obtain ⟨w2, m2⟩ := hall j _ (List.getElem?_eq_getElem hj)
    have a1 := (m1 e1 he1).1
    have a2 := (m2 e2 he2).1
    rw [w1.1 e1 he1] at a1
    rw [w2.1 e2 he2, heq] at a2
    omega

/-- What a collection of a reachable vector does. -/
theorem Sim.collect (L : GroupSetLaws t inv le valid) {dense : Bool} {r : VecRun S U M} {st : MapState S G M}
    (h : Sim hasher t inv valid dense r st) :
    (∀ (E : Type) (writeType : RS E Unit) (sample : G → M → RS E Unit),
      r.vec.collectFamilyInto t writeType sample =
        (writeType >>= fun _ => forEach (fun p : G × M => sample p.1 p.2) (samplesOf t r.vec))) ∧
    Enumerates (samplesOf t r.vec) st.live ∧
    (r.vec.getCardinality t).1 = (samplesOf t r.vec).length ∧
    (dense = true → (samplesOf t r.vec).Pairwise fun p q =>
      ∃ i j u u', i < j ∧ valid st.labels u ∧ valid st.labels u' ∧ t.encodeDense u = .ok (some i) ∧
        t.encodeDense u' = .ok (some j) ∧ t.decode st.labels u = .ok p.1 ∧ t.decode st.labels u' = .ok q.1) := by
  suffices hs : ∃ l : List (G × M),
      (∀ (E : Type) (writeType : RS E Unit) (sample : G → M → RS E Unit),
        r.vec.collectFamilyInto t writeType sample =
          (writeType >>= fun _ => forEach (fun p : G × M => sample p.1 p.2) l)) ∧
      Enumerates l st.live ∧ (r.vec.getCardinality t).1 = l.length ∧
      (dense = true → l.Pairwise fun p q =>
        ∃ i j u u', i < j ∧ valid st.labels u ∧ valid st.labels u' ∧ t.encodeDense u = .ok (some i) ∧
        t.encodeDense u' = .ok (some j) ∧ t.decode st.labels u = .ok p.1 ∧ t.decode st.labels u' = .ok q.1) by
    obtain ⟨l, h1, h2⟩ := hs
    have : samplesOf t r.vec = l := by
      unfold samplesOf
      rw [h1, RS.pure_bind', forEach_record]; rfl
    rw [this]; exact ⟨h1, h2⟩
  have hwf := h.wf
  cases hin : r.vec.inner with
  | dense cells =>
    rw [hin] at hwf
    have hd : ∀ j, j < cells.length → ∃ u g, valid st.labels u ∧ t.encodeDense u = .ok (some j) ∧
        t.decodeDense st.labels j = .ok g ∧ t.decode st.labels u = .ok g := by
      intro j hj
      obtain ⟨u, hu, he⟩ := L.dense_surj _ j _ h.inv hwf hj
      obtain ⟨i, _, he', hdd⟩ := L.dense _ u _ h.inv hwf hu
      rw [he] at he'; cases he'
      obtain ⟨g, hg, _⟩ := L.valid_enc _ u h.inv hu
      exact ⟨u, g, hu, he, by rw [hdd]; exact hg, hg⟩
    obtain ⟨l, h1, h2, h3, h4, h5⟩ := collectDense_list (t := t) st.labels cells 0
      (fun j hj => by obtain ⟨_, g, _, _, hg, _⟩ := hd j hj; exact ⟨g, by rw [Nat.zero_add]; exact hg⟩)
    refine ⟨l.map Prod.snd, ?_, ⟨?_, ?_⟩, ?_, ?_⟩
    · intro E writeType sample
      simp only [MetricVec.collectFamilyInto, hin, h.labels, h1]
    · -- distinct indices decode to distinct groups
      rw [List.map_map, List.Nodup, List.pairwise_map]
      rw [List.pairwise_map] at h4
      refine List.Pairwise.imp_of_mem ?_ h4
      intro p q hp hq hlt heq
      obtain ⟨p1, _, p3⟩ := h2 p hp
      obtain ⟨q1, _, q3⟩ := h2 q hq
      obtain ⟨u, g, hu, he, hdd, hdu⟩ := hd p.1 (List.getElem?_eq_some_iff.1 p3).1
      obtain ⟨u', g', hu', he', hdd', hdu'⟩ := hd q.1 (List.getElem?_eq_some_iff.1 q3).1
      rw [p1] at hdd; rw [q1] at hdd'
      simp only [Function.comp_apply] at heq
      cases hdd; cases hdd'
      have := L.unique h.inv hu hu' (by rw [hdu, hdu', heq])
      subst this
      rw [he] at he'
      have := Option.some.inj (Out.ok.inj he')
      omega
    · intro g x
      constructor
      · intro hmem
        obtain ⟨p, hp, hpe⟩ := List.mem_map.1 hmem
        obtain ⟨p1, _, p3⟩ := h2 p hp
        obtain ⟨u, g', hu, he, hdd, hdu⟩ := hd p.1 (List.getElem?_eq_some_iff.1 p3).1
        rw [p1] at hdd
        cases hdd
        have hpg : p.2.1 = g := by rw [hpe]
        have hpx : p.2.2 = x := by rw [hpe]
        rw [← h.cells u g hu (by rw [hdu, hpg]), hin]
        simp only [cellOf, he]
        rw [Nat.sub_zero] at p3
        rw [p3, hpx]; rfl
      · intro hl
        obtain ⟨u, hu, hdu⟩ := h.live_valid g x hl
        rw [← h.cells u g hu hdu, hin] at hl
        obtain ⟨i, hlt, he, hdd⟩ := L.dense _ u _ h.inv hwf hu
        simp only [cellOf, he] at hl
        have : cells[i]? = some (some x) := by
          rw [List.getElem?_eq_getElem hlt] at hl ⊢
          simpa using hl
        obtain ⟨g', hg'⟩ := h3 i x this
        rw [Nat.zero_add] at hg'
        have h2' := (h2 _ hg').1
        simp only at h2'
        rw [hdd, hdu] at h2'
        cases h2'
        exact List.mem_map.2 ⟨_, hg', rfl⟩
    · simp only [MetricVec.getCardinality, hin, List.length_map, h5]
    · intro _
      rw [List.pairwise_map]
      rw [List.pairwise_map] at h4
      refine List.Pairwise.imp_of_mem ?_ h4
      intro p q hp hq hlt
      obtain ⟨p1, _, p3⟩ := h2 p hp
      obtain ⟨q1, _, q3⟩ := h2 q hq
      obtain ⟨u, g, hu, he, hdd, hdu⟩ := hd p.1 (List.getElem?_eq_some_iff.1 p3).1
      obtain ⟨u', g', hu', he', hdd', hdu'⟩ := hd q.1 (List.getElem?_eq_some_iff.1 q3).1
      rw [p1] at hdd; rw [q1] at hdd'
      cases hdd; cases hdd'
      exact ⟨p.1, q.1, u, u', hlt, hu, hu', he, he', hdu, hdu'⟩
  | sparse sm =>
    rw [hin] at hwf
    have hall := hwf
    obtain ⟨b, hb, hsh, hl, hall⟩ := hall
    have hval : ∀ e ∈ sm.shards.flatten, valid st.labels e.key := by
      intro e he
      obtain ⟨tb, htb, hetb⟩ := List.mem_flatten.1 he
      obtain ⟨i, hi⟩ := List.mem_iff_getElem?.1 htb
      exact ((hall i tb hi).2 e hetb).2
    obtain ⟨l, h1, h2, h3⟩ := collectTable_list (t := t) st.labels sm.shards.flatten
      (fun e he => by obtain ⟨g, hg, _⟩ := L.valid_enc _ _ h.inv (hval e he); exact ⟨g, hg⟩)
    have hnd : (l.map Prod.fst).Nodup := by
      have := flatten_nodup_keys hwf
      have e1 : sm.shards.flatten.map Entry.key = l.map Prod.fst := by
        have := congrArg (List.map Prod.fst) h2
        simp only [List.map_map, Function.comp_def] at this
        exact this.symm
      rw [← e1]; exact this
    have hlv : ∀ p ∈ l, valid st.labels p.1 ∧ cellOf hasher t (.sparse sm) p.1 = some p.2.2 := by
      intro p hp
      have : (p.1, p.2.2) ∈ sm.shards.flatten.map (fun e => (e.key, e.val)) := by
        rw [← h2]; exact List.mem_map.2 ⟨p, hp, rfl⟩
      obtain ⟨e, he, heq⟩ := List.mem_map.1 this
      simp only [Prod.mk.injEq] at heq
      obtain ⟨tb, htb, hetb⟩ := List.mem_flatten.1 he
      obtain ⟨i, hi⟩ := List.mem_iff_getElem?.1 htb
      obtain ⟨hw, hm⟩ := hall i tb hi
      refine ⟨by rw [← heq.1]; exact (hm e hetb).2, ?_⟩
      simp only [cellOf]
      have : shardIndex sm.shift (hasher p.1) = i := by
        rw [← heq.1, ← hw.1 e hetb]; exact (hm e hetb).1
      rw [this, hi]
      simp only [Option.bind_some]
      exact (Table.find_iff hw _ _).2 ⟨e, hetb, heq.1, heq.2⟩
    refine ⟨l.map Prod.snd, ?_, ⟨?_, ?_⟩, ?_, ?_⟩
    · intro E writeType sample
      simp only [MetricVec.collectFamilyInto, hin, h.labels, collectShards_flat, h1]
    · rw [List.map_map, List.Nodup, List.pairwise_map]
      rw [List.Nodup, List.pairwise_map] at hnd
      refine List.Pairwise.imp_of_mem ?_ hnd
      intro p q hp hq hne heq
      apply hne
      refine L.unique h.inv (hlv p hp).1 (hlv q hq).1 ?_
      rw [h3 p hp, h3 q hq]
      exact congrArg _ heq
    · intro g x
      constructor
      · intro hmem
        obtain ⟨p, hp, hpe⟩ := List.mem_map.1 hmem
        obtain ⟨hv, hc⟩ := hlv p hp
        have hpg : p.2.1 = g := by rw [hpe]
        have hpx : p.2.2 = x := by rw [hpe]
        rw [← h.cells p.1 g hv (by rw [h3 p hp, hpg]), hin, hc, hpx]
      · intro hlive
        obtain ⟨u, hu, hdu⟩ := h.live_valid g x hlive
        rw [← h.cells u g hu hdu, hin] at hlive
        simp only [cellOf] at hlive
        rw [Option.bind_eq_some_iff] at hlive
        obtain ⟨tb, k1, k2⟩ := hlive
        obtain ⟨hw, _⟩ := hall _ _ k1
        obtain ⟨e, he, hk, hv⟩ := (Table.find_iff hw u x).1 k2
        have hmem : e ∈ sm.shards.flatten :=
          List.mem_flatten.2 ⟨tb, List.mem_iff_getElem?.2 ⟨_, k1⟩, he⟩
        have : (u, x) ∈ l.map (fun p => (p.1, p.2.2)) := by
          rw [h2]; exact List.mem_map.2 ⟨e, hmem, by rw [hk, hv]⟩
        obtain ⟨p, hp, hpe⟩ := List.mem_map.1 this
        simp only [Prod.mk.injEq] at hpe
        refine List.mem_map.2 ⟨p, hp, ?_⟩
        have := h3 p hp
        rw [hpe.1, hdu] at this
        cases this
        exact Prod.ext rfl hpe.2
    · simp only [MetricVec.getCardinality, hin, ShardedMap.getCardinality, List.length_map]
      have := congrArg List.length h2
      simp only [List.length_map, List.length_flatten] at this
      exact this.symm
    · intro hd
      have hk := h.kind
      rw [hin, hd] at hk
      cases hk

/-- The live labels of a set with known cardinality are at most that many. -/
theorem Sim.live_le (L : GroupSetLaws t inv le valid) {dense : Bool} {r : VecRun S U M} {st : MapState S G M}
    (h : Sim hasher t inv valid dense r st) {c : Nat} (hc : t.cardinality = some c) {l : List (G × M)}
    (hl : Enumerates l st.live) : l.length ≤ c := by
  classical
  have hex : ∀ p ∈ l, ∃ i, i < c ∧ t.decodeDense st.labels i = .ok p.1 := by
    intro p hp
    obtain ⟨u, hu, hdu⟩ := h.live_valid p.1 p.2 ((hl.2 _ _).1 hp)
    obtain ⟨i, hi, he, hd⟩ := L.dense _ u _ h.inv hc hu
    exact ⟨i, hi, by rw [hd]; exact hdu⟩
  choose! f hf using hex
  have hnd : (l.map f).Nodup := by
    have h1 := hl.1
    rw [List.Nodup, List.pairwise_map] at h1 ⊢
    refine List.Pairwise.imp_of_mem ?_ h1
    intro p q hp hq hne heq
    apply hne
    have a := (hf p hp).2
    rw [heq, (hf q hq).2] at a
    exact (Out.ok.inj a).symm
  have hsub : (l.map f) ⊆ List.range c := by
    intro i hi
    obtain ⟨p, hp, rfl⟩ := List.mem_map.1 hi
    exact List.mem_range.2 (hf p hp).1
  have := (List.subperm_of_subset hnd hsub).length_le
  simpa using this

end collect

end Measured
