import Verif.Proof.SparseConc

/-! A collection pass over a sparse vector while other threads work on it. -/

namespace Measured.Conc
open Measured.Spec

variable {K U : Type} [DecidableEq K]

/-- `k` had the state `us` at some moment since the pass of `t` began (`pre` before, `seg` after the start). -/
def AtSome (t : Tid) (pre seg : List (SEvent K U)) (k : K) (us : List U) : Prop :=
  ∃ p, p <+: seg ∧ mapOf (pre ++ .startPass t :: p) k = some us

/-- `k` was present at all those moments. -/
def LiveAll (t : Tid) (pre seg : List (SEvent K U)) (k : K) : Prop :=
  ∀ p, p <+: seg → mapOf (pre ++ .startPass t :: p) k ≠ none

theorem AtSome.mono {t : Tid} {pre seg : List (SEvent K U)} {k : K} {us : List U} (h : AtSome t pre seg k us)
    (e : SEvent K U) : AtSome t pre (seg ++ [e]) k us := by
  obtain ⟨p, hp, h⟩ := h
  exact ⟨p, hp.trans (List.prefix_append _ _), h⟩

theorem LiveAll.mono {t : Tid} {pre seg : List (SEvent K U)} {k : K} {e : SEvent K U}
    (h : LiveAll t pre (seg ++ [e]) k) : LiveAll t pre seg k :=
  fun p hp => h p (hp.trans (List.prefix_append _ _))

theorem AtSome.now {t : Tid} {pre seg : List (SEvent K U)} {k : K} {us : List U}
    (h : mapOf (pre ++ .startPass t :: seg) k = some us) : AtSome t pre seg k us :=
  ⟨seg, List.prefix_refl _, h⟩

/-- The shards before `i` are done. -/
structure ShardsDone (c : ShardConf K) (t : Tid) (pre seg : List (SEvent K U)) (i : Nat) (acc : List (K × List U)) :
    Prop where
  nodup : (acc.map Prod.fst).Nodup
  sound : ∀ x ∈ acc, c.shardOf x.1 < i ∧ AtSome t pre seg x.1 x.2
  complete : ∀ k, c.shardOf k < i → LiveAll t pre seg k → k ∈ acc.map Prod.fst

theorem ShardsDone.mono {c : ShardConf K} {t : Tid} {pre seg : List (SEvent K U)} {i : Nat} {acc : List (K × List U)}
    (h : ShardsDone c t pre seg i acc) (e : SEvent K U) : ShardsDone c t pre (seg ++ [e]) i acc :=
  ⟨h.nodup, fun x hx => ⟨(h.sound x hx).1, (h.sound x hx).2.mono e⟩, fun k hk hl => h.complete k hk hl.mono⟩

/-- In the middle of shard `i`. -/
structure Scanning (c : ShardConf K) (t : Tid) (pre seg : List (SEvent K U)) (table : List (K × List U)) (i j : Nat)
    (acc snap : List (K × List U)) : Prop where
  split : ∃ done em, acc = done ++ em ∧ ShardsDone c t pre seg i done ∧
    em.map Prod.fst = (table.map Prod.fst).take j ∧ ∀ x ∈ em, AtSome t pre seg x.1 x.2
  keys : snap.map Prod.fst = table.map Prod.fst
  between : ∀ (m : Nat) (k : K) (old cur us : List U), snap[m]? = some (k, old) → table[m]? = some (k, cur) →
    old <+: us → us <+: cur → AtSome t pre seg k us

def PassOk (c : ShardConf K) (t : Tid) (pre seg : List (SEvent K U)) (sh : Nat → List (K × List U)) :
    SPc K U → Prop
  | .collect i acc => ShardsDone c t pre seg i acc
  | .scan i j acc snap => Scanning c t pre seg (sh i) i j acc snap
  | _ => True

/-- The pass invariant of thread `t`. -/
def PassInv (c : ShardConf K) (t : Tid) (tr : List (SEvent K U)) (s : SSys K U) : Prop :=
  ∀ pre seg, tr = pre ++ .startPass t :: seg → .startPass t ∉ seg → PassOk c t pre seg s.shards (s.thr t).pc

/-- A step of another thread that leaves the shard contents alone, or any step seen from a thread not in a pass. -/
theorem PassOk.mono {c : ShardConf K} {t : Tid} {pre seg : List (SEvent K U)} {sh : Nat → List (K × List U)}
    {p : SPc K U} (h : PassOk c t pre seg sh p) (e : SEvent K U) : PassOk c t pre (seg ++ [e]) sh p := by
  cases p with
  | collect i acc => exact ShardsDone.mono h e
  | scan i j acc snap =>
    obtain ⟨⟨d, em, h1, h2, h3, h4⟩, h5, h6⟩ := h
    exact ⟨⟨d, em, h1, h2.mono e, h3, fun x hx => (h4 x hx).mono e⟩, h5,
      fun m k old cur us a b p q => (h6 m k old cur us a b p q).mono e⟩
  | _ => trivial

/-- Another shard changes. -/
theorem PassOk.other {c : ShardConf K} {t : Tid} {pre seg : List (SEvent K U)} {sh : Nat → List (K × List U)}
    {p : SPc K U} (h : PassOk c t pre seg sh p) {i : Nat} {l : List (K × List U)}
    (hi : p.readLock c ≠ some i) : PassOk c t pre seg (Function.update sh i l) p := by
  cases p with
  | scan i' j acc snap =>
    have hne : i' ≠ i := fun he => hi (by rw [← he]; rfl)
    show Scanning c t pre seg (Function.update sh i l i') i' j acc snap
    rw [Function.update_of_ne hne]
    exact h
  | collect i acc => exact h
  | _ => trivial

theorem prefix_concat' {us cur : List U} {u : U} (h : us <+: cur ++ [u]) : us <+: cur ∨ us = cur ++ [u] := by
  rcases Nat.lt_or_ge cur.length us.length with hl | hl
  · right
    have h1 := h.length_le
    have : us.length = (cur ++ [u]).length := by simp at h1 ⊢; omega
    exact h.eq_of_length this
  · left
    exact List.prefix_of_prefix_length_le h (List.prefix_append _ _) hl

theorem getElem?_addUpdate (k : K) (u : U) (l : List (K × List U)) (m : Nat) :
    (addUpdate k u l)[m]? = (l[m]?).map fun e => if e.1 = k then (e.1, e.2 ++ [u]) else e := by
  simp [addUpdate]

/-- An update of `k`, seen from a pass. -/
theorem PassOk.update {c : ShardConf K} {t : Tid} {pre seg : List (SEvent K U)} {s : SSys K U} {k : K} {u : U}
    {t' : Tid} {p : SPc K U} (hi : SInv c (pre ++ .startPass t :: seg) s) (h : PassOk c t pre seg s.shards p) :
    PassOk c t pre (seg ++ [.update t' k u])
      (Function.update s.shards (c.shardOf k) (addUpdate k u (s.shards (c.shardOf k)))) p := by
  cases p with
  | scan i j acc snap =>
    by_cases hik : i = c.shardOf k
    · subst hik
      show Scanning c t pre _ (Function.update s.shards (c.shardOf k) _ (c.shardOf k)) _ j acc snap
      rw [Function.update_self]
      obtain ⟨⟨d, em, h1, h2, h3, h4⟩, h5, h6⟩ := h
      refine ⟨⟨d, em, h1, h2.mono _, by rw [addUpdate_keys]; exact h3, fun x hx => (h4 x hx).mono _⟩,
        by rw [addUpdate_keys]; exact h5, ?_⟩
      intro m k' old cur us ho hc hp1 hp2
      rw [getElem?_addUpdate] at hc
      cases hm : (s.shards (c.shardOf k))[m]? with
      | none => rw [hm] at hc; simp at hc
      | some x =>
        rw [hm] at hc
        simp only [Option.map_some, Option.some.injEq] at hc
        by_cases hx : x.1 = k
        · rw [if_pos hx] at hc
          simp only [Prod.mk.injEq] at hc
          obtain ⟨hc1, hc2⟩ := hc
          subst hc2
          have hk' : k' = k := by rw [← hc1, hx]
          have hxe : x = (k', x.2) := by rw [← hc1]
          rw [hxe] at hm
          rcases prefix_concat' hp2 with hp2 | hp2
          · exact (h6 m k' old x.2 us ho hm hp1 hp2).mono _
          · refine AtSome.now ?_
            have hf : findKey k' (s.shards (c.shardOf k')) = some x.2 := by
              refine findKey_mem (hi.nodup _) ?_
              rw [hk'] at hm ⊢
              exact List.mem_of_getElem? hm
            have hre : pre ++ SEvent.startPass t :: (seg ++ [.update t' k u]) =
                (pre ++ .startPass t :: seg) ++ [.update t' k u] := by simp
            rw [hre, mapOf_snoc]
            show (if k' = k then (mapOf (pre ++ .startPass t :: seg) k').map (· ++ [u])
              else mapOf (pre ++ .startPass t :: seg) k') = some us
            rw [if_pos hk', ← hi.abs, hf, hp2]
            rfl
        · rw [if_neg hx] at hc
          subst hc
          exact (h6 m k' old cur us ho hm hp1 hp2).mono _
    · exact PassOk.other (h.mono _) (by simp only [SPc.readLock, ne_eq, Option.some.injEq]; exact hik)
  | collect i acc => exact ShardsDone.mono h _
  | _ => trivial

/-- A step of another thread. -/
theorem pass_other {c : ShardConf K} {t : Tid} {pre seg : List (SEvent K U)} {s s' : SSys K U} {e : SEvent K U}
    (hi : SInv c (pre ++ .startPass t :: seg) s) (hs : SStep c s e s') (ht : (s'.thr t).pc = (s.thr t).pc)
    (h : PassOk c t pre seg s.shards (s.thr t).pc) : PassOk c t pre (seg ++ [e]) s'.shards (s.thr t).pc := by
  cases hs with
  | insertNew t' k l hp hf hl =>
    refine PassOk.other (h.mono _) fun hr => ?_
    exact (hi.excl t' (c.shardOf k) (by show (s.thr t').pc.writeLock c = _; rw [hp]; rfl)).1 t (.inl hr)
  | removeSome t' k us l hp hf hl =>
    refine PassOk.other (h.mono _) fun hr => ?_
    exact (hi.excl t' (c.shardOf k) (by show (s.thr t').pc.writeLock c = _; rw [hp]; rfl)).1 t (.inl hr)
  | update t' k u us hg hf => exact PassOk.update hi h
  | _ => exact h.mono _

theorem step_other {c : ShardConf K} {s s' : SSys K U} {e : SEvent K U} (hs : SStep c s e s') {t : Tid}
    (ht : t ≠ e.tid) : s'.thr t = s.thr t := by
  cases hs <;> first | rfl | exact Function.update_of_ne ht _ _

theorem passOk_of_not {c : ShardConf K} {t : Tid} {pre seg : List (SEvent K U)} {sh : Nat → List (K × List U)}
    {p : SPc K U} (h1 : ∀ i acc, p ≠ .collect i acc) (h2 : ∀ i j acc snap, p ≠ .scan i j acc snap) :
    PassOk c t pre seg sh p := by
  cases p with
  | collect i acc => exact absurd rfl (h1 i acc)
  | scan i j acc snap => exact absurd rfl (h2 i j acc snap)
  | _ => trivial

theorem take_length_le {α : Type} {l : List α} {j : Nat} (h : l.length ≤ j) : l.take j = l := List.take_of_length_le h

/-- A step of the thread itself, within the pass. -/
theorem pass_own {c : ShardConf K} {t : Tid} {pre seg : List (SEvent K U)} {s s' : SSys K U} {e : SEvent K U}
    (hi : SInv c (pre ++ .startPass t :: seg) s) (hs : SStep c s e s') (ht : t = e.tid)
    (h : PassOk c t pre seg s.shards (s.thr t).pc) (hne : e ≠ .startPass t) :
    PassOk c t pre (seg ++ [e]) s'.shards (s'.thr t).pc := by
  have hself : ∀ (s : SSys K U) (p : SPc K U), ((s.goto t p).thr t).pc = p := fun s p => by
    show (Function.update s.thr t _ t).pc = p
    rw [Function.update_self]
  have hself' : ∀ (s : SSys K U) (p : SPc K U) gs, ((s.setGuards t p gs).thr t).pc = p := fun s p gs => by
    show (Function.update s.thr t _ t).pc = p
    rw [Function.update_self]
  cases hs with
  | passLock t' i acc hp hlt hl =>
    change t = t' at ht
    subst ht
    rw [hp] at h
    have h : ShardsDone c t pre seg i acc := h
    rw [hself]
    refine ⟨⟨acc, [], by simp, h.mono _, by simp, by simp⟩, rfl, ?_⟩
    intro m k old cur us ho hc h1 h2
    change (s.shards i)[m]? = some (k, cur) at hc
    rw [ho] at hc
    simp only [Option.some.injEq, Prod.mk.injEq, true_and] at hc
    subst hc
    have hus : us = old := (h2.eq_of_length_le h1.length_le)
    subst hus
    have hmem := List.mem_of_getElem? ho
    have hpl := hi.place i _ hmem
    refine AtSome.mono (AtSome.now ?_) _
    rw [← hi.abs, hpl]
    exact findKey_mem (hi.nodup i) hmem
  | emit t' i j acc snap k old us cur hp hc ho h1 h2 =>
    change t = t' at ht
    subst ht
    rw [hp] at h
    obtain ⟨⟨d, em, e1, e2, e3, e4⟩, e5, e6⟩ := h
    rw [hself]
    refine ⟨⟨d, em ++ [(k, us)], by rw [e1, List.append_assoc], e2.mono _, ?_, ?_⟩, e5, ?_⟩
    · show (em ++ [(k, us)]).map Prod.fst = ((s.shards i).map Prod.fst).take (j + 1)
      rw [List.map_append, e3, List.take_add_one, List.getElem?_map, hc]
      rfl
    · intro x hx
      rcases List.mem_append.1 hx with hx | hx
      · exact (e4 x hx).mono _
      · rw [List.mem_singleton] at hx
        subst hx
        exact (e6 j k old cur us ho hc h1 h2).mono _
    · exact fun m k old cur us a b p q => (e6 m k old cur us a b p q).mono _
  | passNext t' i j acc snap hp hj =>
    change t = t' at ht
    subst ht
    rw [hp] at h
    obtain ⟨⟨d, em, e1, e2, e3, e4⟩, e5, e6⟩ := h
    rw [hself]
    show ShardsDone c t pre _ (i + 1) acc
    have e3 : em.map Prod.fst = (s.shards i).map Prod.fst := by
      rw [e3, take_length_le (by simpa using hj)]
    have hem : ∀ x ∈ em, c.shardOf x.1 = i := by
      intro x hx
      have : x.1 ∈ (s.shards i).map Prod.fst := by rw [← e3]; exact List.mem_map_of_mem hx
      obtain ⟨y, hy, hyx⟩ := List.mem_map.1 this
      rw [← hyx]; exact hi.place i y hy
    refine ⟨?_, ?_, ?_⟩
    · rw [e1, List.map_append, List.nodup_append]
      refine ⟨e2.nodup, by rw [e3]; exact hi.nodup i, ?_⟩
      intro a ha b hb hab
      obtain ⟨x, hx, hxa⟩ := List.mem_map.1 ha
      obtain ⟨y, hy, hyb⟩ := List.mem_map.1 hb
      have := (e2.sound x hx).1
      have h3 := hem y hy
      rw [hyb, ← hab, ← hxa] at h3
      omega
    · intro x hx
      rw [e1] at hx
      rcases List.mem_append.1 hx with hx | hx
      · exact ⟨Nat.lt_succ_of_lt (e2.sound x hx).1, (e2.sound x hx).2.mono _⟩
      · exact ⟨by rw [hem x hx]; exact Nat.lt_succ_self i, (e4 x hx).mono _⟩
    · intro k hk hl
      rw [e1, List.map_append, List.mem_append]
      rcases Nat.lt_succ_iff_lt_or_eq.1 hk with hk | hk
      · exact .inl (e2.complete k hk hl.mono)
      · right
        rw [e3]
        have hlive := hl seg (List.prefix_append _ _)
        rw [← hi.abs, hk] at hlive
        by_contra hn
        exact hlive (findKey_none.2 hn)
  | startPass t' hp =>
    change t = t' at ht
    subst ht
    exact absurd rfl hne
  | update t' k u us hg hf =>
    exact PassOk.update hi h
  | hit t' k us hp hf =>
    change t = t' at ht
    subst ht
    rw [hself']; trivial
  | refind t' k us hp hf =>
    change t = t' at ht
    subst ht
    rw [hself']; trivial
  | release t' k hp hg =>
    change t = t' at ht
    subst ht
    rw [hself']; trivial
  | _ t' =>
    change t = t' at ht
    subst ht
    rw [hself]; trivial

theorem pass_inv {c : ShardConf K} {tr : List (SEvent K U)} {s : SSys K U} (h : Exec (SStep c) SSys.new tr s)
    (t : Tid) : PassInv c t tr s := by
  induction h with
  | nil => intro pre seg h; simp at h
  | @snoc tr s e s' hex hs ih =>
    intro pre seg htr hno
    rcases List.eq_nil_or_concat seg with rfl | ⟨seg', e', rfl⟩
    · have := List.append_inj' htr rfl
      obtain ⟨h1, h2⟩ := this
      simp only [List.cons.injEq, and_true] at h2
      subst h2
      cases hs with
      | startPass _ hp =>
        have : ((s.goto t (.collect 0 [])).thr t).pc = SPc.collect (K := K) (U := U) 0 [] := by
          show (Function.update s.thr t _ t).pc = _
          rw [Function.update_self]
        rw [this]
        exact ⟨by simp, by simp, fun k hk => absurd hk (Nat.not_lt_zero _)⟩
    · rw [List.concat_eq_append] at htr hno
      have htr' : tr ++ [e] = (pre ++ .startPass t :: seg') ++ [e'] := by rw [htr]; simp
      obtain ⟨h1, h2⟩ := List.append_inj' htr' rfl
      simp only [List.cons.injEq, and_true] at h2
      subst h2
      have hok := ih pre seg' h1 (fun hm => hno (List.mem_append_left _ hm))
      have hinv := s_inv hex
      rw [h1] at hinv
      rw [List.concat_eq_append]
      by_cases ht : t = e.tid
      · exact pass_own hinv hs ht hok (fun he => hno (by rw [he]; simp))
      · have hthr := step_other hs ht
        rw [hthr]
        exact pass_other hinv hs (by rw [hthr]) hok

end Measured.Conc
