import Verif.Props.MetricVec

/-!
# Ids of a different vector (C98)

`LabelId<L>` carries the type of the label set and nothing that ties it to one vector, so an id obtained from
one vector can be passed to another over the same `L`; the documentation says that this "can panic or cause
strange behaviour" (core/src/metric.rs:356-386). The theorems say exactly which. The id is arbitrary: `id.id`
is any stored key and `id.hash` any number.
-/

namespace Measured
open Measured.Spec

/-- `v'` is `v` in which the sample of `g` has state `y`, and nothing else is different. -/
def OnlySample {S G U M : Type} (t : GroupSet S G U) (v v' : MetricVec S U M) (g : G) (y : M) : Prop :=
  v'.labels = v.labels ∧ ((samplesOf t v').map Prod.fst).Nodup ∧
  ∀ g' z, (g', z) ∈ samplesOf t v' ↔ (g' = g ∧ z = y) ∨ (g' ≠ g ∧ (g', z) ∈ samplesOf t v)

section tables
variable {S G U M : Type} {t : GroupSet S G U}

/-- The samples of the entries of a table. -/
def rowsOf (t : GroupSet S G U) (s : S) (tb : Table U M) : List (G × M) :=
  tb.filterMap fun e => match t.decode s e.key with
    | .ok g => some (g, e.val)
    | _ => none

theorem collectTable_rows (s : S) (tb : Table U M) (hd : ∀ e ∈ tb, ∃ g, t.decode s e.key = .ok g)
    (E : Type) (sample : G → M → RS E Unit) :
    collectTable t s sample tb = forEach (fun p : G × M => sample p.1 p.2) (rowsOf t s tb) := by
  induction tb with
  | nil => rfl
  | cons e es ih =>
    obtain ⟨g, hg⟩ := hd e (by simp)
    have : rowsOf t s (e :: es) = (g, e.val) :: rowsOf t s es := by simp [rowsOf, hg]
    rw [this]
    simp only [collectTable, hg, RS.lift_bind, forEach, ih (fun e he => hd e (by simp [he]))]

theorem samplesOf_sparse (v : MetricVec S U M) (sm : ShardedMap U M) (hin : v.inner = .sparse sm)
    (hd : ∀ e ∈ sm.shards.flatten, ∃ g, t.decode v.labels e.key = .ok g) :
    samplesOf t v = rowsOf t v.labels sm.shards.flatten := by
  unfold samplesOf MetricVec.collectFamilyInto
  simp only [hin]
  rw [RS.pure_bind', collectShards_flat, collectTable_rows _ _ hd, forEach_record]
  simp

theorem Table.find_mem [DecidableEq U] {tb : Table U M} {h : Nat} {k : U} {x : M} (hf : tb.find h k = some x) :
    ∃ e ∈ tb, e.hash = h ∧ e.key = k := by
  induction tb with
  | nil => cases hf
  | cons e es ih =>
    simp only [Table.find] at hf
    split at hf
    · rename_i he; exact ⟨e, by simp, he.1, he.2⟩
    · obtain ⟨e', h1, h2⟩ := ih hf
      exact ⟨e', by simp [h1], h2⟩

theorem flatten_set_cons {α : Type} (l : List (List α)) (i : Nat) (x : α) (a : List α) (h : l[i]? = some a) :
    (l.set i (x :: a)).flatten.Perm (x :: l.flatten) := by
  induction l generalizing i with
  | nil => simp at h
  | cons b bs ih =>
    cases i with
    | zero =>
      simp only [List.getElem?_cons_zero, Option.some.injEq] at h
      subst h
      simp
    | succ i =>
      simp only [List.set_cons_succ, List.flatten_cons]
      exact ((ih i h).append_left b).trans List.perm_middle

theorem collectTable_stuck {E : Type} (s : S) (sample : G → M → RS E Unit) (tb : Table U M) (e : Entry U M)
    (he : e ∈ tb) (hd : t.decode s e.key = .panic) (x : E) :
    (collectTable t s sample tb x).1 ≠ .ok () ∧
    ((∀ g y z, (sample g y z).1 = .ok ()) → (∀ e ∈ tb, t.decode s e.key ≠ .err) →
      (collectTable t s sample tb x).1 = .panic) := by
  induction tb generalizing x with
  | nil => cases he
  | cons a as ih =>
    simp only [collectTable]
    rw [RS.bind_run]
    cases hk : t.decode s a.key with
    | panic => simp [RS.lift]
    | err => simp [RS.lift, hk]
    | ok g =>
      have hmem : e ∈ as := by
        simp only [List.mem_cons] at he
        rcases he with rfl | he
        · rw [hk] at hd; cases hd
        · exact he
      simp only [RS.lift]
      rw [RS.bind_run]
      have i := ih hmem (sample g a.val x).2
      rcases hsm : sample g a.val x with ⟨o, y⟩
      rw [hsm] at i
      cases o with
      | ok _ => exact ⟨i.1, fun h1 h2 => i.2 h1 (fun e he => h2 e (by simp [he]))⟩
      | err => exact ⟨by simp, fun h1 _ => by have := h1 g a.val x; rw [hsm] at this; cases this⟩
      | panic => exact ⟨by simp, fun h1 _ => by have := h1 g a.val x; rw [hsm] at this⟩

variable [DecidableEq U]

/-- Access through an id the table of which has no entry for it. -/
theorem ShardedMap.access_new (hasher : U → Nat) (dflt : M) (sm : ShardedMap U M) (id : LabelId U) (tb : Table U M)
    (htb : sm.shards[shardIndex sm.shift id.hash]? = some tb) (hw : TableWF hasher tb)
    (hn : tb.find id.hash id.id = none) (f : M → M) :
    sm.getMetric dflt hasher id f = .ok (dflt, sm.setShard id.hash (⟨id.hash, id.id, f dflt⟩ :: tb)) ∧
    sm.getMetricMut dflt hasher id f = .ok (dflt, sm.setShard id.hash (⟨id.hash, id.id, f dflt⟩ :: tb)) ∧
    ∀ y, (sm.setShard id.hash (⟨id.hash, id.id, y⟩ :: tb)).removeMetric id = .ok (some y, sm) := by
  have hm : Table.modify (⟨id.hash, id.id, dflt⟩ :: tb) id.hash id.id f = ⟨id.hash, id.id, f dflt⟩ :: tb := by
    simp [Table.modify]
  have hf : ∀ y : M, Table.find (⟨id.hash, id.id, y⟩ :: tb) id.hash id.id = some y := by
    intro y; simp [Table.find]
  refine ⟨?_, ?_, ?_⟩
  · simp only [ShardedMap.getMetric, ShardedMap.shard, htb, expect, Out.ok_bind, hn, Table.insert_eq hw, hf, hm]
  · simp only [ShardedMap.getMetricMut, ShardedMap.shard, htb, expect, Out.ok_bind, hn, Table.insert_eq hw, hm]
  · intro y
    have hlt := (List.getElem?_eq_some_iff.1 htb).1
    have hs : (sm.setShard id.hash (⟨id.hash, id.id, y⟩ :: tb)).shard id.hash =
        .ok (⟨id.hash, id.id, y⟩ :: tb) := by
      simp [ShardedMap.shard, ShardedMap.setShard, expect, hlt]
    simp only [ShardedMap.removeMetric, hs, Out.ok_bind, hf]
    have hr : Table.remove (⟨id.hash, id.id, y⟩ :: tb) id.hash id.id = tb := by simp [Table.remove]
    rw [hr]
    have hset : sm.shards.set (shardIndex sm.shift id.hash) tb = sm.shards := by
      apply List.ext_getElem?
      intro i
      rw [List.getElem?_set]
      split
      · rename_i h; subst h; rw [htb]
      · rfl
    simp [ShardedMap.setShard, hset]

end tables

section
variable {S G U M : Type} [DecidableEq U] [DecidableEq G]
variable (m : Mode) (p : Nat) (h0 : 0 < p) (hp : p ≤ 2 ^ 55)
variable (hasher : U → Nat) (dflt : M) (t : GroupSet S G U)
variable (inv : S → Prop) (le : S → S → Prop) (valid : S → U → Prop) (L : GroupSetLaws t inv le valid)
variable (s : S) (hs : inv s) (dense : Bool) (v : MetricVec S U M) (hv : Created m p t s dense v)
variable (ops : List (VecOp G M)) (id : LabelId U)

theorem Sim.foreign {hasher : U → Nat} {t : GroupSet S G U} {inv : S → Prop} {le : S → S → Prop}
    {valid : S → U → Prop} (L : GroupSetLaws t inv le valid) {dense : Bool} {r : VecRun S U M}
    {st : MapState S G M} (h : Sim hasher t inv valid dense r st) {id : LabelId U} {g : G}
    (hid : IdOK hasher t valid st.labels dense id) (hg : t.decode st.labels id.id = .ok g) (dflt : M)
    (f : M → M) :
    ∃ x v', MetricVec.getMetric dflt hasher id f r.vec = (.ok x, v') ∧
      MetricVec.getMetricMut dflt hasher id f r.vec = (.ok x, v') ∧
      ((g, x) ∈ samplesOf t r.vec ∨ (x = dflt ∧ ∀ y, (g, y) ∉ samplesOf t r.vec)) ∧
      OnlySample t r.vec v' g (f x) := by
  obtain ⟨v', h1, h2, h3⟩ := h.access L hid hg dflt f
  refine ⟨_, _, h1, h2, ?_, rfl, (h3.collect L).2.1.1, ?_⟩
  · have hl := (h.collect L).2.1.2 g
    cases hx : st.live g with
    | none =>
      refine .inr ⟨by simp, fun y hy => ?_⟩
      rw [hl, hx] at hy; cases hy
    | some y => exact .inl ((hl _).2 (by simp [hx]))
  · intro g' z
    rw [(h3.collect L).2.1.2, (h.collect L).2.1.2]
    simp only [MapState.setLive]
    by_cases hgg : g' = g
    · subst hgg; simp [eq_comm]
    · simp [hgg]

include h0 hp L hs hv

/-- C98. A dense vector looks at the number alone. Within the cardinality, any id is an id of the group with
this dense index, whatever key it holds: both kinds of access give that group's state and change the sample of
that group and of no other. Outside of the cardinality they panic and nothing changes. Removal never does
anything. -/
theorem C98_dense (hd : dense = true) :
    let r := (ran m hasher dflt t v ops).vec
    ∃ c, t.cardinality = some c ∧
      (id.hash < c → ∃ g, t.decodeDense r.labels id.hash = .ok g ∧ ∀ f, ∃ x v',
        MetricVec.getMetric dflt hasher id f r = (.ok x, v') ∧
        MetricVec.getMetricMut dflt hasher id f r = (.ok x, v') ∧
        ((g, x) ∈ samplesOf t r ∨ (x = dflt ∧ ∀ y, (g, y) ∉ samplesOf t r)) ∧
        OnlySample t r v' g (f x)) ∧
      (c ≤ id.hash → ∀ f, MetricVec.getMetric dflt hasher id f r = (.panic, r) ∧
        MetricVec.getMetricMut dflt hasher id f r = (.panic, r)) ∧
      MetricVec.removeMetric id r = (.ok none, r) := by
  subst hd
  have h := ran_sim m p h0 hp hasher dflt t inv le valid L s hs true v hv ops
  intro r
  cases hin : r.inner with
  | sparse sm =>
    have := h.kind
    change r.inner.isDense = true at this
    rw [hin] at this; cases this
  | dense cells =>
    have hwf : VecWF hasher t valid (mapped true dflt t s ops).labels r.inner := h.wf
    rw [hin] at hwf
    refine ⟨_, hwf, ?_, ?_, ?_⟩
    · intro hlt
      obtain ⟨u, hu, hue⟩ := L.dense_surj _ _ _ h.inv hwf hlt
      obtain ⟨g, hg, _⟩ := L.valid_enc _ _ h.inv hu
      obtain ⟨i, _, hi, hdec⟩ := L.dense _ _ _ h.inv hwf hu
      rw [hue] at hi
      simp only [Out.ok.injEq, Option.some.injEq] at hi
      subst hi
      have hlab : r.labels = (mapped true dflt t s ops).labels := h.labels
      refine ⟨g, by rw [hlab, hdec, hg], fun f => ?_⟩
      obtain ⟨x, v', a1, a2, a3⟩ := h.foreign L (id := ⟨u, id.hash⟩) ⟨hu, hue⟩ hg dflt f
      refine ⟨x, v', ?_, ?_, a3⟩
      · rw [← a1]
        show MetricVec.getMetric dflt hasher id f r = MetricVec.getMetric dflt hasher ⟨u, id.hash⟩ f r
        simp only [MetricVec.getMetric, hin, VecInner.getMetric]
      · rw [← a2]
        show MetricVec.getMetricMut dflt hasher id f r = MetricVec.getMetricMut dflt hasher ⟨u, id.hash⟩ f r
        simp only [MetricVec.getMetricMut, hin, VecInner.getMetricMut]
    · intro hge f
      have hnone : cells[id.hash]? = none := List.getElem?_eq_none hge
      constructor
      · simp only [MetricVec.getMetric, hin, VecInner.getMetric, hnone]; rfl
      · simp only [MetricVec.getMetricMut, hin, VecInner.getMetricMut, hnone]; rfl
    · simp only [MetricVec.removeMetric, hin]

/-- C98. A sparse vector given an id with the hash its key has here acts on the group that *this* vector gave
the key to — for an id of another sparse vector with interners of its own, that need not be the group the id
was obtained for. -/
theorem C98_sparse_hashed (hd : dense = false)
    (hu : valid (ran m hasher dflt t v ops).vec.labels id.id) (hh : id.hash = hasher id.id) :
    let r := (ran m hasher dflt t v ops).vec
    ∃ g, t.decode r.labels id.id = .ok g ∧ ∀ f, ∃ x v',
      MetricVec.getMetric dflt hasher id f r = (.ok x, v') ∧
      MetricVec.getMetricMut dflt hasher id f r = (.ok x, v') ∧
      ((g, x) ∈ samplesOf t r ∨ (x = dflt ∧ ∀ y, (g, y) ∉ samplesOf t r)) ∧
      OnlySample t r v' g (f x) := by
  subst hd
  have h := ran_sim m p h0 hp hasher dflt t inv le valid L s hs false v hv ops
  intro r
  have hlab : r.labels = (mapped false dflt t s ops).labels := h.labels
  rw [h.labels] at hu
  obtain ⟨g, hg, _⟩ := L.valid_enc _ _ h.inv hu
  exact ⟨g, by rw [hlab, hg], fun f => h.foreign L ⟨hu, hh⟩ hg dflt f⟩

/-- C98. A sparse vector given an id whose number is not the hash of its key and picks another shard (an id of
a dense vector has the dense index there): if the group has no metric yet, the access makes one, an ordinary
access to the same group makes a second one, and a collection shows the group twice. -/
theorem C98_sparse_twice (hd : dense = false)
    (hu : valid (ran m hasher dflt t v ops).vec.labels id.id) (g : G)
    (hg : t.decode (ran m hasher dflt t v ops).vec.labels id.id = .ok g)
    (hlive : ∀ y, (g, y) ∉ samplesOf t (ran m hasher dflt t v ops).vec)
    (hsh : ∀ sm, (ran m hasher dflt t v ops).vec.inner = .sparse sm →
      shardIndex sm.shift id.hash ≠ shardIndex sm.shift (hasher id.id)) (f f' : M → M) :
    let r := (ran m hasher dflt t v ops).vec
    ∃ v1 v2, MetricVec.getMetric dflt hasher id f r = (.ok dflt, v1) ∧
      MetricVec.getMetricMut dflt hasher id f r = (.ok dflt, v1) ∧
      MetricVec.removeMetric id v1 = (.ok (some (f dflt)), r) ∧
      (∀ ids, vecStep m hasher dflt t ⟨v1, ids⟩ (.update g f') = (.state dflt, ⟨v2, ids⟩)) ∧
      (samplesOf t v2).Perm ((g, f' dflt) :: (g, f dflt) :: samplesOf t r) := by
  subst hd
  have h := ran_sim m p h0 hp hasher dflt t inv le valid L s hs false v hv ops
  intro r
  have hlab : r.labels = (mapped false dflt t s ops).labels := h.labels
  have hwf : VecWF hasher t valid (mapped false dflt t s ops).labels r.inner := h.wf
  change valid r.labels id.id at hu
  change t.decode r.labels id.id = .ok g at hg
  change ∀ y, (g, y) ∉ samplesOf t r at hlive
  cases hin : r.inner with
  | dense cells =>
    have := h.kind
    change r.inner.isDense = false at this
    rw [hin] at this; cases this
  | sparse sm =>
    have hne := hsh sm hin
    rw [hin, ← hlab] at hwf
    have hinv : inv r.labels := by rw [hlab]; exact h.inv
    have hlive' : cellOf hasher t r.inner id.id = none := by
      have hc := h.cells id.id g (by rw [← hlab]; exact hu) (by rw [← hlab]; exact hg)
      change cellOf hasher t r.inner id.id = _ at hc
      rw [hc]
      cases hx : (mapped false dflt t s ops).live g with
      | none => rfl
      | some x => exact absurd (((h.collect L).2.1.2 g x).2 hx) (hlive x)
    obtain ⟨tb, htb⟩ := hwf.shard id.hash
    obtain ⟨tb', htb'⟩ := hwf.shard (hasher id.id)
    have hall : ∀ i tb, sm.shards[i]? = some tb → TableWF hasher tb ∧
        ∀ e ∈ tb, shardIndex sm.shift e.hash = i ∧ valid r.labels e.key := by
      obtain ⟨_, _, _, _, hall⟩ := hwf
      exact hall
    obtain ⟨hw, he⟩ := hall _ _ htb
    obtain ⟨hw', he'⟩ := hall _ _ htb'
    have hn : tb.find id.hash id.id = none := by
      cases hf : tb.find id.hash id.id with
      | none => rfl
      | some x =>
        obtain ⟨e, hmem, h1, h2⟩ := Table.find_mem hf
        have a := (he e hmem).1
        rw [hw.1 e hmem, h2] at a
        exact absurd a.symm hne
    have hn' : tb'.find (hasher id.id) id.id = none := by
      rw [hin] at hlive'
      simpa [cellOf, htb'] using hlive'
    obtain ⟨a1, a2, a3⟩ := ShardedMap.access_new hasher dflt sm id tb htb hw hn f
    have htb1 : (sm.setShard id.hash (⟨id.hash, id.id, f dflt⟩ :: tb)).shards[shardIndex
        (sm.setShard id.hash (⟨id.hash, id.id, f dflt⟩ :: tb)).shift (hasher id.id)]? = some tb' := by
      simp only [ShardedMap.setShard]
      rw [List.getElem?_set_ne hne]; exact htb'
    obtain ⟨b1, _, _⟩ := ShardedMap.access_new hasher dflt (sm.setShard id.hash (⟨id.hash, id.id, f dflt⟩ :: tb))
      ⟨id.id, hasher id.id⟩ tb' htb1 hw' hn' f'
    obtain ⟨g', hg', henc⟩ := L.valid_enc _ _ hinv hu
    rw [hg] at hg'; cases hg'
    refine ⟨⟨.sparse (sm.setShard id.hash (⟨id.hash, id.id, f dflt⟩ :: tb)), r.labels⟩,
      ⟨.sparse ((sm.setShard id.hash (⟨id.hash, id.id, f dflt⟩ :: tb)).setShard (hasher id.id)
        (⟨hasher id.id, id.id, f' dflt⟩ :: tb')), r.labels⟩, ?_, ?_, ?_, ?_, ?_⟩
    · simp only [MetricVec.getMetric, hin, VecInner.getMetric, a1, Out.ok_bind]
    · simp only [MetricVec.getMetricMut, hin, VecInner.getMetricMut, a2, Out.ok_bind]
    · simp only [MetricVec.removeMetric, a3]
      rw [← hin]
    · intro ids
      simp only [vecStep]
      rw [RS.bind_run]
      simp only [MetricVec.withLabels, MetricVec.tryWithLabels, henc, Out.ok_bind, expect, MetricVec.getMetric,
        VecInner.getMetric, b1, VecRes.ofState]
    · have hp : (((sm.setShard id.hash (⟨id.hash, id.id, f dflt⟩ :: tb)).setShard (hasher id.id)
          (⟨hasher id.id, id.id, f' dflt⟩ :: tb')).shards.flatten).Perm
          (⟨hasher id.id, id.id, f' dflt⟩ :: ⟨id.hash, id.id, f dflt⟩ :: sm.shards.flatten) :=
        (flatten_set_cons _ _ _ _ htb1).trans ((flatten_set_cons _ _ _ _ htb).cons _)
      have hdec : ∀ e ∈ sm.shards.flatten, ∃ g, t.decode r.labels e.key = .ok g := by
        intro e hmem
        obtain ⟨tb0, h1, h2⟩ := List.mem_flatten.1 hmem
        obtain ⟨i, hi⟩ := List.mem_iff_getElem?.1 h1
        obtain ⟨g, hg, _⟩ := L.valid_enc _ _ hinv ((hall i tb0 hi).2 e h2).2
        exact ⟨g, hg⟩
      rw [samplesOf_sparse r sm hin hdec, samplesOf_sparse _ _ rfl]
      · refine (hp.filterMap _).trans ?_
        simp only [List.filterMap_cons, hg]
        exact List.Perm.refl _
      · intro e hmem
        have := hp.mem_iff.1 hmem
        simp only [List.mem_cons] at this
        rcases this with rfl | rfl | hm
        · exact ⟨g, hg⟩
        · exact ⟨g, hg⟩
        · exact hdec e hm

/-- C98. A sparse vector given an id whose key its interners do not know (resolving it panics): access makes a
metric and succeeds, and from then on no collection succeeds — it panics whenever the encoder does not fail
before. Removing through the same id gives the state back and leaves the vector exactly as it was. -/
theorem C98_sparse_unknown (hd : dense = false)
    (hu : t.decode (ran m hasher dflt t v ops).vec.labels id.id = .panic) (f : M → M) :
    let r := (ran m hasher dflt t v ops).vec
    ∃ v1, MetricVec.getMetric dflt hasher id f r = (.ok dflt, v1) ∧
      MetricVec.getMetricMut dflt hasher id f r = (.ok dflt, v1) ∧
      MetricVec.removeMetric id v1 = (.ok (some (f dflt)), r) ∧
      ∀ (E : Type) (writeType : RS E Unit) (sample : G → M → RS E Unit) (e : E),
        (v1.collectFamilyInto t writeType sample e).1 ≠ .ok () ∧
        ((∀ e, (writeType e).1 = .ok ()) → (∀ g x e, (sample g x e).1 = .ok ()) →
          (v1.collectFamilyInto t writeType sample e).1 = .panic) := by
  subst hd
  have h := ran_sim m p h0 hp hasher dflt t inv le valid L s hs false v hv ops
  intro r
  have hlab : r.labels = (mapped false dflt t s ops).labels := h.labels
  have hwf : VecWF hasher t valid (mapped false dflt t s ops).labels r.inner := h.wf
  change t.decode r.labels id.id = .panic at hu
  cases hin : r.inner with
  | dense cells =>
    have := h.kind
    change r.inner.isDense = false at this
    rw [hin] at this; cases this
  | sparse sm =>
    rw [hin, ← hlab] at hwf
    have hinv : inv r.labels := by rw [hlab]; exact h.inv
    obtain ⟨tb, htb⟩ := hwf.shard id.hash
    have hall : ∀ i tb, sm.shards[i]? = some tb → TableWF hasher tb ∧
        ∀ e ∈ tb, shardIndex sm.shift e.hash = i ∧ valid r.labels e.key := by
      obtain ⟨_, _, _, _, hall⟩ := hwf
      exact hall
    obtain ⟨hw, he⟩ := hall _ _ htb
    have hn : tb.find id.hash id.id = none := by
      cases hf : tb.find id.hash id.id with
      | none => rfl
      | some x =>
        obtain ⟨e, hmem, h1, h2⟩ := Table.find_mem hf
        obtain ⟨g, hg, _⟩ := L.valid_enc _ _ hinv (he e hmem).2
        rw [h2, hu] at hg; cases hg
    obtain ⟨a1, a2, a3⟩ := ShardedMap.access_new hasher dflt sm id tb htb hw hn f
    refine ⟨⟨.sparse (sm.setShard id.hash (⟨id.hash, id.id, f dflt⟩ :: tb)), r.labels⟩, ?_, ?_, ?_, ?_⟩
    · simp only [MetricVec.getMetric, hin, VecInner.getMetric, a1, Out.ok_bind]
    · simp only [MetricVec.getMetricMut, hin, VecInner.getMetricMut, a2, Out.ok_bind]
    · simp only [MetricVec.removeMetric, a3]
      rw [← hin]
    · intro E writeType sample x
      have hp : ((sm.setShard id.hash (⟨id.hash, id.id, f dflt⟩ :: tb)).shards.flatten).Perm
          (⟨id.hash, id.id, f dflt⟩ :: sm.shards.flatten) := flatten_set_cons _ _ _ _ htb
      have hmem := hp.mem_iff.2 List.mem_cons_self
      have hne : ∀ e ∈ (sm.setShard id.hash (⟨id.hash, id.id, f dflt⟩ :: tb)).shards.flatten,
          t.decode r.labels e.key ≠ .err := by
        intro e hm
        have hm := hp.mem_iff.1 hm
        simp only [List.mem_cons] at hm
        rcases hm with rfl | hm
        · rw [hu]; simp
        · obtain ⟨tb0, h1, h2⟩ := List.mem_flatten.1 hm
          obtain ⟨i, hi⟩ := List.mem_iff_getElem?.1 h1
          obtain ⟨g, hg, _⟩ := L.valid_enc _ _ hinv ((hall i tb0 hi).2 e h2).2
          rw [hg]; simp
      simp only [MetricVec.collectFamilyInto]
      rw [RS.bind_run, collectShards_flat]
      have k := fun y => collectTable_stuck r.labels sample _ _ hmem hu y
      rcases hwt : writeType x with ⟨o, y⟩
      cases o with
      | ok _ => exact ⟨(k y).1, fun _ h2 => (k y).2 h2 hne⟩
      | err => exact ⟨by simp, fun h1 _ => by have := h1 x; rw [hwt] at this; cases this⟩
      | panic => exact ⟨by simp, fun h1 _ => by have := h1 x; rw [hwt] at this⟩

end

section examples

/-- Dense, "Get" = 0 and "Post" = 1: the id ⟨7, 1⟩ is "Post", ⟨0, 2⟩ panics. -/
example : (MetricVec.getMetric (S := Unit) 0 (fun u : Nat => u) ⟨7, 1⟩ (· + 5) ⟨.dense [some 3, none], ()⟩) =
    (.ok 0, ⟨.dense [some 3, some 5], ()⟩) := rfl

example : (MetricVec.getMetricMut (S := Unit) 0 (fun u : Nat => u) ⟨0, 2⟩ (· + 5) ⟨.dense [some 3, none], ()⟩) =
    (.panic, ⟨.dense [some 3, none], ()⟩) := rfl

/-- Sparse with four shards; "Post" hashes to shard 1, the id of a dense vector ⟨1, 1⟩ goes to shard 0. -/
example : ∀ sm, exV.inner = .sparse sm → shardIndex sm.shift 1 ≠ shardIndex sm.shift (2 ^ 55) := by
  intro sm h
  cases h
  decide

example : samplesOf (staticGroupSet ["Get", "Post"]) (ran .release (fun _ => 2 ^ 55) 0
    (staticGroupSet ["Get", "Post"]) (MetricVec.getMetric 0 (fun _ => 2 ^ 55) ⟨1, 1⟩ (· + 5) exV).2
    [.update "Post" (· + 7)]).vec = [("Post", 5), ("Post", 7)] := by decide

/-- The key 2 belongs to no group here. -/
example : (staticGroupSet (S := Unit) ["Get", "Post"]).decode () 2 = .panic := by rfl

example : ((MetricVec.getMetric 0 (fun _ => 2 ^ 55) ⟨2, 2 ^ 55⟩ (· + 5) exV).2.collectFamilyInto
    (staticGroupSet ["Get", "Post"]) (pure ()) record []).1 = .panic := by decide

end examples

end Measured
