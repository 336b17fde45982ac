import Verif.Spec.SparseMap
import Verif.Proof.Atomic
import Mathlib.Data.List.Nodup

/-! Invariants of a sparse vector used by many threads. -/

namespace Measured.Conc
open Measured.Spec

variable {K U : Type} [DecidableEq K]

/-! ## Tables -/

theorem findKey_some_mem {k : K} {us : List U} {l : List (K × List U)} (h : findKey k l = some us) : (k, us) ∈ l := by
  induction l with
  | nil => simp [findKey] at h
  | cons e l ih =>
    rw [findKey] at h
    split at h
    · rename_i he
      simp only [Option.some.injEq] at h
      subst h; subst he
      exact List.mem_cons_self
    · exact List.mem_cons_of_mem _ (ih h)

theorem findKey_none {k : K} {l : List (K × List U)} : findKey k l = none ↔ k ∉ l.map Prod.fst := by
  induction l with
  | nil => simp [findKey]
  | cons e l ih =>
    rw [findKey]
    split
    · rename_i he; simp [he]
    · rename_i he
      rw [ih]
      simp only [List.map_cons, List.mem_cons, not_or]
      exact ⟨fun h => ⟨fun h' => he h'.symm, h⟩, fun h => h.2⟩

theorem findKey_mem {k : K} {us : List U} {l : List (K × List U)} (hn : (l.map Prod.fst).Nodup) (h : (k, us) ∈ l) :
    findKey k l = some us := by
  induction l with
  | nil => simp at h
  | cons e l ih =>
    rw [List.map_cons, List.nodup_cons] at hn
    rw [findKey]
    rcases List.mem_cons.1 h with rfl | h
    · rw [if_pos rfl]
    · rw [if_neg ?_]
      · exact ih hn.2 h
      · intro he
        exact hn.1 (he ▸ List.mem_map_of_mem h)

theorem findKey_perm {k : K} {l l' : List (K × List U)} (hp : l.Perm l') (hn : (l.map Prod.fst).Nodup) :
    findKey k l = findKey k l' := by
  have hn' : (l'.map Prod.fst).Nodup := (hp.map _).nodup_iff.1 hn
  cases h : findKey k l with
  | none =>
    rw [findKey_none] at h
    symm
    rw [findKey_none]
    intro h'
    exact h ((hp.map Prod.fst).mem_iff.2 h')
  | some us => exact (findKey_mem hn' (hp.mem_iff.1 (findKey_some_mem h))).symm

theorem addUpdate_keys (k : K) (u : U) (l : List (K × List U)) :
    (addUpdate k u l).map Prod.fst = l.map Prod.fst := by
  rw [addUpdate, List.map_map]
  apply List.map_congr_left
  intro e _
  simp only [Function.comp_apply]
  split <;> rfl

theorem findKey_addUpdate (k k' : K) (u : U) (l : List (K × List U)) :
    findKey k' (addUpdate k u l) = if k' = k then (findKey k' l).map (· ++ [u]) else findKey k' l := by
  induction l with
  | nil => simp [addUpdate, findKey]
  | cons e l ih =>
    have hc : addUpdate k u (e :: l) = (if e.1 = k then (e.1, e.2 ++ [u]) else e) :: addUpdate k u l := rfl
    rw [hc, findKey, findKey, ih]
    by_cases he : e.1 = k
    · rw [if_pos he]
      by_cases hk : k' = k
      · subst hk; simp [he]
      · simp [hk, he, Ne.symm hk]
    · rw [if_neg he]
      by_cases hk : k' = k
      · subst hk; simp [he]
      · simp [hk]

/-! ## The main invariant -/

theorem mapOf_snoc (tr : List (SEvent K U)) (e : SEvent K U) : mapOf (tr ++ [e]) = mapAfter (mapOf tr) e := by
  simp [mapOf, List.foldl_append]

/-- What is known at a program point. -/
def SPcOk (c : ShardConf K) (sh : Nat → List (K × List U)) : SPc K U → Prop
  | .inserted k => findKey k (sh (c.shardOf k)) ≠ none
  | .refind k => findKey k (sh (c.shardOf k)) ≠ none
  | .panicked => False
  | _ => True

/-- Everything a thread relies on concerning shard contents. -/
structure ThreadOk (c : ShardConf K) (sh : Nat → List (K × List U)) (th : SThread K U) : Prop where
  guards : ∀ k ∈ th.guards, findKey k (sh (c.shardOf k)) ≠ none
  pc : SPcOk c sh th.pc

structure SInv (c : ShardConf K) (tr : List (SEvent K U)) (s : SSys K U) : Prop where
  nodup : ∀ i, ((s.shards i).map Prod.fst).Nodup
  place : ∀ i, ∀ e ∈ s.shards i, c.shardOf e.1 = i
  abs : ∀ k, findKey k (s.shards (c.shardOf k)) = mapOf tr k
  excl : ∀ t i, (s.thr t).HoldsW c i →
    (∀ u, ¬ (s.thr u).HoldsR c i) ∧ ∀ u, u ≠ t → ¬ (s.thr u).HoldsW c i
  ok : ∀ t, ThreadOk c s.shards (s.thr t)

/-- The locks of one thread change. -/
theorem excl_update {c : ShardConf K} {thr : Tid → SThread K U} {t : Tid} {th : SThread K U}
    (h : ∀ t i, (thr t).HoldsW c i → (∀ u, ¬ (thr u).HoldsR c i) ∧ ∀ u, u ≠ t → ¬ (thr u).HoldsW c i)
    (hw : ∀ i, th.HoldsW c i → (thr t).HoldsW c i ∨ ∀ u, ¬ (thr u).HoldsW c i ∧ ¬ (thr u).HoldsR c i)
    (hr : ∀ i, th.HoldsR c i → ¬ th.HoldsW c i ∧
      ((thr t).HoldsR c i ∨ (thr t).HoldsW c i ∨ ∀ u, ¬ (thr u).HoldsW c i)) :
    ∀ u i, (Function.update thr t th u).HoldsW c i →
      (∀ v, ¬ (Function.update thr t th v).HoldsR c i) ∧ ∀ v, v ≠ u → ¬ (Function.update thr t th v).HoldsW c i := by
  intro u i hu
  by_cases hut : u = t
  · subst hut
    rw [Function.update_self] at hu
    have hothers : ∀ v, v ≠ u → ¬ (thr v).HoldsR c i ∧ ¬ (thr v).HoldsW c i := by
      intro v hv
      rcases hw i hu with h' | h'
      · exact ⟨(h u i h').1 v, (h u i h').2 v hv⟩
      · exact ⟨(h' v).2, (h' v).1⟩
    refine ⟨fun v => ?_, fun v hv => ?_⟩
    · by_cases hv : v = u
      · subst hv
        rw [Function.update_self]
        exact fun hv' => (hr i hv').1 hu
      · rw [Function.update_of_ne hv]; exact (hothers v hv).1
    · rw [Function.update_of_ne hv]; exact (hothers v hv).2
  · rw [Function.update_of_ne hut] at hu
    have h1 := h u i hu
    refine ⟨fun v => ?_, fun v hv => ?_⟩
    · by_cases hv : v = t
      · subst hv
        rw [Function.update_self]
        intro hv'
        rcases (hr i hv').2 with h' | h' | h'
        · exact h1.1 v h'
        · exact h1.2 v (Ne.symm hut) h'
        · exact h' u hu
      · rw [Function.update_of_ne hv]; exact h1.1 v
    · by_cases hv' : v = t
      · subst hv'
        rw [Function.update_self]
        intro hw'
        rcases hw i hw' with h' | h'
        · exact h1.2 v hv h'
        · exact (h' u).1 hu
      · rw [Function.update_of_ne hv']; exact h1.2 v hv

/-- A step that changes one thread and no table. -/
theorem sinv_thread {c : ShardConf K} {tr : List (SEvent K U)} {s : SSys K U} (h : SInv c tr s) {t : Tid}
    {th : SThread K U} {e : SEvent K U} (he : mapAfter (mapOf tr) e = mapOf tr)
    (hw : ∀ i, th.HoldsW c i → (s.thr t).HoldsW c i ∨ s.CanWrite c i)
    (hr : ∀ i, th.HoldsR c i → ¬ th.HoldsW c i ∧
      ((s.thr t).HoldsR c i ∨ (s.thr t).HoldsW c i ∨ s.CanRead c i))
    (hok : ThreadOk c s.shards th) : SInv c (tr ++ [e]) ⟨s.shards, Function.update s.thr t th⟩ := by
  refine ⟨h.nodup, h.place, ?_, excl_update h.excl hw hr, ?_⟩
  · rw [mapOf_snoc, he]; exact h.abs
  · intro u
    change ThreadOk c s.shards (Function.update s.thr t th u)
    by_cases hu : u = t
    · subst hu; rw [Function.update_self]; exact hok
    · rw [Function.update_of_ne hu]; exact h.ok u

/-- `goto` without new locks. -/
theorem sinv_goto {c : ShardConf K} {tr : List (SEvent K U)} {s : SSys K U} (h : SInv c tr s) {t : Tid}
    {p : SPc K U} {e : SEvent K U} (he : mapAfter (mapOf tr) e = mapOf tr)
    (hw : ∀ i, p.writeLock c = some i → (s.thr t).pc.writeLock c = some i ∨ s.CanWrite c i)
    (hr : ∀ i, p.readLock c = some i →
      (s.thr t).pc.readLock c = some i ∨ (s.thr t).pc.writeLock c = some i ∨ s.CanRead c i)
    (hrw : ∀ i, p.readLock c = some i → p.writeLock c ≠ some i)
    (hok : SPcOk c s.shards p) : SInv c (tr ++ [e]) (s.goto t p) := by
  refine sinv_thread h he hw ?_ ⟨(h.ok t).guards, hok⟩
  intro i hi
  rcases hi with hi | hi
  · refine ⟨hrw i hi, ?_⟩
    rcases hr i hi with h' | h' | h'
    · exact .inl (.inl h')
    · exact .inr (.inl h')
    · exact .inr (.inr h')
  · have ho : (s.thr t).HoldsR c i := .inr hi
    refine ⟨fun hw' => ?_, .inl ho⟩
    rcases hw i hw' with h' | h'
    · exact (h.excl t i h').1 t ho
    · exact (h' t).2 ho

/-- A table changes under the write lock of thread `t`. -/
theorem sinv_table {c : ShardConf K} {tr : List (SEvent K U)} {s : SSys K U} (h : SInv c tr s) {t : Tid} {i : Nat}
    {l : List (K × List U)} {e : SEvent K U} {p : SPc K U} (hw : (s.thr t).pc.writeLock c = some i)
    (hn : (l.map Prod.fst).Nodup) (hp : ∀ x ∈ l, c.shardOf x.1 = i)
    (habs : ∀ k, c.shardOf k = i → findKey k l = mapAfter (mapOf tr) e k)
    (habs' : ∀ k, c.shardOf k ≠ i → mapAfter (mapOf tr) e k = mapOf tr k)
    (hpw : p.writeLock c = some i) (hpr : p.readLock c = none)
    (hok : SPcOk c (Function.update s.shards i l) p) :
    SInv c (tr ++ [e]) ((s.setShard i l).goto t p) := by
  have hfind : ∀ k, c.shardOf k ≠ i → findKey k (Function.update s.shards i l (c.shardOf k)) =
      findKey k (s.shards (c.shardOf k)) := by
    intro k hk; rw [Function.update_of_ne hk]
  have hguards : ∀ u, ∀ k ∈ (s.thr u).guards, findKey k (Function.update s.shards i l (c.shardOf k)) ≠ none := by
    intro u k hk
    by_cases hki : c.shardOf k = i
    · exact absurd (.inr ⟨k, hk, hki⟩) ((h.excl t i hw).1 u)
    · rw [hfind k hki]; exact (h.ok u).guards k hk
  refine ⟨?_, ?_, ?_, ?_, ?_⟩
  · intro j
    change ((Function.update s.shards i l j).map Prod.fst).Nodup
    by_cases hj : j = i
    · subst hj; rw [Function.update_self]; exact hn
    · rw [Function.update_of_ne hj]; exact h.nodup j
  · intro j x hx
    change x ∈ Function.update s.shards i l j at hx
    by_cases hj : j = i
    · subst hj; rw [Function.update_self] at hx; exact hp x hx
    · rw [Function.update_of_ne hj] at hx; exact h.place j x hx
  · intro k
    change findKey k (Function.update s.shards i l (c.shardOf k)) = _
    rw [mapOf_snoc]
    by_cases hk : c.shardOf k = i
    · rw [hk, Function.update_self]; exact habs k hk
    · rw [hfind k hk, h.abs, habs' k hk]
  · refine excl_update h.excl ?_ ?_
    · intro j hj
      change p.writeLock c = some j at hj
      rw [hpw] at hj
      exact .inl (hw.trans hj)
    · intro j hj
      rcases hj with hj | hj
      · change p.readLock c = some j at hj
        rw [hpr] at hj; cases hj
      · have ho : (s.thr t).HoldsR c j := .inr hj
        refine ⟨fun hw' => ?_, .inl ho⟩
        change p.writeLock c = some j at hw'
        rw [hpw] at hw'
        exact (h.excl t i hw).1 t (by simp only [Option.some.injEq] at hw'; rw [hw']; exact ho)
  · intro u
    change ThreadOk c (Function.update s.shards i l) (Function.update s.thr t ⟨p, (s.thr t).guards⟩ u)
    by_cases hu : u = t
    · subst hu
      rw [Function.update_self]
      exact ⟨hguards u, hok⟩
    · rw [Function.update_of_ne hu]
      refine ⟨hguards u, ?_⟩
      have hpc := (h.ok u).pc
      cases hq : (s.thr u).pc with
      | inserted k =>
        rw [hq] at hpc
        have hk : c.shardOf k ≠ i := by
          intro hk
          refine (h.excl t i hw).2 u hu ?_
          show (s.thr u).pc.writeLock c = some i
          rw [hq, ← hk]; rfl
        show findKey k (Function.update s.shards i l (c.shardOf k)) ≠ none
        rw [hfind k hk]; exact hpc
      | refind k =>
        rw [hq] at hpc
        have hk : c.shardOf k ≠ i := by
          intro hk
          refine (h.excl t i hw).1 u (.inl ?_)
          rw [hq, ← hk]; rfl
        show findKey k (Function.update s.shards i l (c.shardOf k)) ≠ none
        rw [hfind k hk]; exact hpc
      | panicked => rw [hq] at hpc; exact hpc
      | _ => trivial

/-- An update in place. -/
theorem sinv_update {c : ShardConf K} {tr : List (SEvent K U)} {s : SSys K U} (h : SInv c tr s) (t : Tid) (k : K)
    (u : U) : SInv c (tr ++ [.update t k u])
      (s.setShard (c.shardOf k) (addUpdate k u (s.shards (c.shardOf k)))) := by
  have hfind : ∀ k', findKey k' (Function.update s.shards (c.shardOf k) (addUpdate k u (s.shards (c.shardOf k)))
      (c.shardOf k')) = if k' = k then (findKey k' (s.shards (c.shardOf k'))).map (· ++ [u])
        else findKey k' (s.shards (c.shardOf k')) := by
    intro k'
    by_cases hk : c.shardOf k' = c.shardOf k
    · rw [hk, Function.update_self, findKey_addUpdate]
    · rw [Function.update_of_ne hk, if_neg]
      intro he; exact hk (he ▸ rfl)
  have hnone : ∀ k', findKey k' (s.shards (c.shardOf k')) ≠ none → findKey k' (Function.update s.shards (c.shardOf k)
      (addUpdate k u (s.shards (c.shardOf k))) (c.shardOf k')) ≠ none := by
    intro k' hk'
    rw [hfind]
    split
    · simpa using hk'
    · exact hk'
  refine ⟨?_, ?_, ?_, h.excl, ?_⟩
  · intro j
    change ((Function.update s.shards _ _ j).map Prod.fst).Nodup
    by_cases hj : j = c.shardOf k
    · subst hj; rw [Function.update_self, addUpdate_keys]; exact h.nodup _
    · rw [Function.update_of_ne hj]; exact h.nodup j
  · intro j x hx
    change x ∈ Function.update s.shards _ _ j at hx
    by_cases hj : j = c.shardOf k
    · subst hj
      rw [Function.update_self] at hx
      have : x.1 ∈ (s.shards (c.shardOf k)).map Prod.fst := by
        rw [← addUpdate_keys k u]; exact List.mem_map_of_mem hx
      obtain ⟨y, hy, hxy⟩ := List.mem_map.1 this
      rw [← hxy]; exact h.place _ y hy
    · rw [Function.update_of_ne hj] at hx; exact h.place j x hx
  · intro k'
    change findKey k' (Function.update s.shards _ _ (c.shardOf k')) = _
    rw [mapOf_snoc, hfind]
    simp only [mapAfter, h.abs]
  · intro v
    have := h.ok v
    refine ⟨fun k' hk' => hnone k' (this.guards k' hk'), ?_⟩
    have hpc := this.pc
    show SPcOk c _ (s.thr v).pc
    cases hq : (s.thr v).pc with
    | inserted k' => rw [hq] at hpc; exact hnone k' hpc
    | refind k' => rw [hq] at hpc; exact hnone k' hpc
    | panicked => rw [hq] at hpc; exact hpc
    | _ => trivial

theorem sstep_inv {c : ShardConf K} {tr : List (SEvent K U)} {s s' : SSys K U} {e : SEvent K U} (h : SInv c tr s)
    (hs : SStep c s e s') : SInv c (tr ++ [e]) s' ∧ EventOk (mapOf tr) e := by
  cases hs with
  | startGet t k hp => exact ⟨sinv_goto h rfl (by simp [SPc.writeLock]) (by simp [SPc.readLock])
      (by simp [SPc.readLock]) trivial, trivial⟩
  | lockRead t k hp hl =>
    refine ⟨sinv_goto h rfl (by simp [SPc.writeLock]) ?_ (by simp [SPc.writeLock]) trivial, trivial⟩
    intro i hi
    simp only [SPc.readLock, Option.some.injEq] at hi
    subst hi
    exact .inr (.inr hl)
  | hit t k us hp hf =>
    refine ⟨sinv_thread h rfl (by simp [SThread.HoldsW, SPc.writeLock]) ?_ ⟨?_, trivial⟩, ?_⟩
    · intro i hi
      refine ⟨by simp [SThread.HoldsW, SPc.writeLock], .inl ?_⟩
      rcases hi with hi | ⟨k', hk', hi⟩
      · simp [SPc.readLock] at hi
      · rcases List.mem_cons.1 hk' with rfl | hk'
        · left; rw [hp, ← hi]; rfl
        · exact .inr ⟨k', hk', hi⟩
    · intro k' hk'
      rcases List.mem_cons.1 hk' with rfl | hk'
      · rw [hf]; simp
      · exact (h.ok t).guards k' hk'
    · show mapOf tr k ≠ none
      rw [← h.abs, hf]; simp
  | miss t k hp hf =>
    refine ⟨sinv_goto h rfl (by simp [SPc.writeLock]) ?_ (by simp [SPc.writeLock]) trivial, trivial⟩
    intro i hi
    left; rw [hp]; exact hi
  | missRelease t k hp => exact ⟨sinv_goto h rfl (by simp [SPc.writeLock]) (by simp [SPc.readLock])
      (by simp [SPc.readLock]) trivial, trivial⟩
  | lockWrite t k hp hl =>
    refine ⟨sinv_goto h rfl ?_ (by simp [SPc.readLock]) (by simp [SPc.readLock]) trivial, trivial⟩
    intro i hi
    simp only [SPc.writeLock, Option.some.injEq] at hi
    subst hi
    exact .inr hl
  | insertFound t k us hp hf =>
    refine ⟨sinv_goto h rfl ?_ (by simp [SPc.readLock]) (by simp [SPc.readLock]) ?_, trivial⟩
    · intro i hi
      left; rw [hp]; exact hi
    · show findKey k _ ≠ none
      rw [hf]; simp
  | insertNew t k l hp hf hl =>
    have hkeys : (l.map Prod.fst).Perm (k :: (s.shards (c.shardOf k)).map Prod.fst) := hl.map Prod.fst
    have hn0 : (k :: (s.shards (c.shardOf k)).map Prod.fst).Nodup :=
      List.nodup_cons.2 ⟨findKey_none.1 hf, h.nodup _⟩
    have hn : (l.map Prod.fst).Nodup := hkeys.nodup_iff.2 hn0
    have hfl : ∀ k', findKey k' l = if k' = k then some [] else findKey k' (s.shards (c.shardOf k)) := by
      intro k'
      rw [findKey_perm hl hn, findKey]
      by_cases hk' : k' = k
      · subst hk'; simp
      · rw [if_neg (Ne.symm hk'), if_neg hk']
    refine ⟨sinv_table h (i := c.shardOf k) (by rw [hp]; rfl) hn ?_ ?_ ?_ rfl rfl ?_, ?_⟩
    · intro x hx
      rcases List.mem_cons.1 (hl.mem_iff.1 hx) with rfl | hx
      · rfl
      · exact h.place _ x hx
    · intro k' hk'
      rw [hfl]
      simp only [mapAfter]
      split
      · rfl
      · rw [← h.abs, hk']
    · intro k' hk'
      simp only [mapAfter]
      rw [if_neg]
      intro he; exact hk' (he ▸ rfl)
    · show findKey k (Function.update s.shards _ l _) ≠ none
      rw [Function.update_self, hfl]; simp
    · show mapOf tr k = none
      rw [← h.abs, hf]
  | downgrade t k hp =>
    have hok := (h.ok t).pc
    rw [hp] at hok
    refine ⟨sinv_goto h rfl (by simp [SPc.writeLock]) ?_ (by simp [SPc.writeLock]) hok, trivial⟩
    intro i hi
    right; left; rw [hp]; exact hi
  | refind t k us hp hf =>
    refine ⟨sinv_thread h rfl (by simp [SThread.HoldsW, SPc.writeLock]) ?_ ⟨?_, trivial⟩, ?_⟩
    · intro i hi
      refine ⟨by simp [SThread.HoldsW, SPc.writeLock], .inl ?_⟩
      rcases hi with hi | ⟨k', hk', hi⟩
      · simp [SPc.readLock] at hi
      · rcases List.mem_cons.1 hk' with rfl | hk'
        · left; rw [hp, ← hi]; rfl
        · exact .inr ⟨k', hk', hi⟩
    · intro k' hk'
      rcases List.mem_cons.1 hk' with rfl | hk'
      · rw [hf]; simp
      · exact (h.ok t).guards k' hk'
    · show mapOf tr k ≠ none
      rw [← h.abs, hf]; simp
  | refindPanic t k hp hf =>
    have hok := (h.ok t).pc
    rw [hp] at hok
    exact absurd hf hok
  | update t k u us hg hf =>
    refine ⟨sinv_update h t k u, ?_⟩
    show mapOf tr k ≠ none
    rw [← h.abs, hf]; simp
  | dangling t k hp hg hf => exact absurd hf ((h.ok t).guards k hg)
  | release t k hp hg =>
    refine ⟨sinv_thread h rfl (by simp [SThread.HoldsW, SPc.writeLock]) ?_ ⟨?_, trivial⟩, trivial⟩
    · intro i hi
      refine ⟨by simp [SThread.HoldsW, SPc.writeLock], .inl ?_⟩
      rcases hi with hi | ⟨k', hk', hi⟩
      · simp [SPc.readLock] at hi
      · exact .inr ⟨k', List.mem_of_mem_erase hk', hi⟩
    · intro k' hk'
      exact (h.ok t).guards k' (List.mem_of_mem_erase hk')
  | startRemove t k hp => exact ⟨sinv_goto h rfl (by simp [SPc.writeLock]) (by simp [SPc.readLock])
      (by simp [SPc.readLock]) trivial, trivial⟩
  | rmLock t k hp hl =>
    refine ⟨sinv_goto h rfl ?_ (by simp [SPc.readLock]) (by simp [SPc.readLock]) trivial, trivial⟩
    intro i hi
    simp only [SPc.writeLock, Option.some.injEq] at hi
    subst hi
    exact .inr hl
  | removeSome t k us l hp hf hl =>
    have hkeys : (k :: l.map Prod.fst).Perm ((s.shards (c.shardOf k)).map Prod.fst) := hl.map Prod.fst
    have hn0 : (k :: l.map Prod.fst).Nodup := hkeys.nodup_iff.2 (h.nodup _)
    have hn := (List.nodup_cons.1 hn0).2
    have hfl : ∀ k', findKey k' l = if k' = k then none else findKey k' (s.shards (c.shardOf k)) := by
      intro k'
      rw [← findKey_perm hl hn0, findKey]
      by_cases hk' : k' = k
      · subst hk'
        rw [if_pos rfl]
        exact findKey_none.2 (List.nodup_cons.1 hn0).1
      · rw [if_neg (Ne.symm hk'), if_neg hk']
    refine ⟨sinv_table h (i := c.shardOf k) (by rw [hp]; rfl) hn ?_ ?_ ?_ rfl rfl trivial, ?_⟩
    · intro x hx
      exact h.place _ x (hl.mem_iff.1 (List.mem_cons_of_mem _ hx))
    · intro k' hk'
      rw [hfl]
      simp only [mapAfter]
      split
      · rfl
      · rw [← h.abs, hk']
    · intro k' hk'
      simp only [mapAfter]
      rw [if_neg]
      intro he; exact hk' (he ▸ rfl)
    · show some us = mapOf tr k
      rw [← h.abs, hf]
  | removeNone t k hp hf =>
    have hm : mapOf tr k = none := by rw [← h.abs, hf]
    refine ⟨sinv_goto h ?_ ?_ (by simp [SPc.readLock]) (by simp [SPc.readLock]) trivial, hm.symm⟩
    · funext k'
      simp only [mapAfter]
      split
      · rename_i he; rw [he, hm]
      · rfl
    · intro i hi
      left; rw [hp]; exact hi
  | rmRelease t k hp => exact ⟨sinv_goto h rfl (by simp [SPc.writeLock]) (by simp [SPc.readLock])
      (by simp [SPc.readLock]) trivial, trivial⟩
  | startPass t hp => exact ⟨sinv_goto h rfl (by simp [SPc.writeLock]) (by simp [SPc.readLock])
      (by simp [SPc.readLock]) trivial, trivial⟩
  | passLock t i acc hp hi hl =>
    refine ⟨sinv_goto h rfl (by simp [SPc.writeLock]) ?_ (by simp [SPc.writeLock]) trivial, trivial⟩
    intro j hj
    simp only [SPc.readLock, Option.some.injEq] at hj
    subst hj
    exact .inr (.inr hl)
  | emit t i j acc snap k old us cur hp hc ho h1 h2 =>
    refine ⟨sinv_goto h rfl (by simp [SPc.writeLock]) ?_ (by simp [SPc.writeLock]) trivial, trivial⟩
    intro i' hi
    left; rw [hp]; exact hi
  | abort t i j acc snap hp => exact ⟨sinv_goto h rfl (by simp [SPc.writeLock]) (by simp [SPc.readLock])
      (by simp [SPc.readLock]) trivial, trivial⟩
  | passNext t i j acc snap hp hj => exact ⟨sinv_goto h rfl (by simp [SPc.writeLock]) (by simp [SPc.readLock])
      (by simp [SPc.readLock]) trivial, trivial⟩
  | endPass t i acc hp hi => exact ⟨sinv_goto h rfl (by simp [SPc.writeLock]) (by simp [SPc.readLock])
      (by simp [SPc.readLock]) trivial, trivial⟩

theorem s_inv {c : ShardConf K} {tr : List (SEvent K U)} {s : SSys K U} (h : Exec (SStep c) SSys.new tr s) :
    SInv c tr s := by
  induction h with
  | nil =>
    refine ⟨fun i => by simp [SSys.new], fun i e he => by simp [SSys.new] at he, fun k => rfl, ?_, ?_⟩
    · intro t i hi; simp [SSys.new, SThread.HoldsW, SPc.writeLock] at hi
    · intro t; exact ⟨by simp [SSys.new], trivial⟩
  | snoc _ hs ih => exact (sstep_inv ih hs).1

end Measured.Conc
