import Verif.Proof.MetricVec
import Verif.Props.LabelGroup

/-! # Properties of labelled metrics (C09–C19)

Every theorem speaks about a vector made by any constructor (`Created`) on a machine reporting a
parallelism `0 < p ≤ 2^55`, over any lawful label set, with any hash function, after any program `ops`. -/

namespace Measured
open Measured.Spec

section
variable {S G U M : Type} [DecidableEq U] [DecidableEq G]
variable (m : Mode) (p : Nat) (h0 : 0 < p) (hp : p ≤ 2 ^ 55)
variable (hasher : U → Nat) (dflt : M) (t : GroupSet S G U)
variable (inv : S → Prop) (le : S → S → Prop) (valid : S → U → Prop) (L : GroupSetLaws t inv le valid)
variable (s : S) (hs : inv s) (dense : Bool) (v : MetricVec S U M) (hv : Created m p t s dense v)
variable (ops : List (VecOp G M))

/-- The vector and the obtained ids after a program. -/
abbrev ran (m : Mode) (hasher : U → Nat) (dflt : M) (t : GroupSet S G U) (v : MetricVec S U M)
    (ops : List (VecOp G M)) : VecRun S U M := (vecRun m hasher dflt t ⟨v, []⟩ ops).2

/-- The abstract map after a program. -/
noncomputable abbrev mapped (dense : Bool) (dflt : M) (t : GroupSet S G U) (s : S) (ops : List (VecOp G M)) :
    MapState S G M := (mapRun dense dflt t (MapState.empty s) ops).2

include h0 hp L hs hv

theorem ran_sim : Sim hasher t inv valid dense (ran m hasher dflt t v ops) (mapped dense dflt t s ops) :=
  (sim_run L m dflt (sim_created h0 hp hs hv) ops).2

/-! ## C09 -/

/-- C09. Every program sees the results of the abstract map. -/
theorem C09_refines_map :
    (vecRun m hasher dflt t ⟨v, []⟩ ops).1 = (mapRun dense dflt t (MapState.empty s) ops).1 ∧
    (ran m hasher dflt t v ops).vec.labels = (mapped dense dflt t s ops).labels ∧
    (ran m hasher dflt t v ops).ids.length = (mapped dense dflt t s ops).issued.length := by
  have h := sim_run L m dflt (sim_created (hasher := hasher) h0 hp hs hv) ops
  exact ⟨h.1, h.2.labels, h.2.ids.length_eq⟩

/-! ## C15 -/

/-- C15. For every encoder, collection writes the type line and then one sample for each live label, in the
order of `samplesOf`, which lists every live label exactly once with its current state. (An error of the
encoder stops it; nothing else does.) -/
theorem C15_collect_exactly_once :
    (∀ (E : Type) (writeType : RS E Unit) (sample : G → M → RS E Unit),
      (ran m hasher dflt t v ops).vec.collectFamilyInto t writeType sample =
        (writeType >>= fun _ => forEach (fun q : G × M => sample q.1 q.2)
          (samplesOf t (ran m hasher dflt t v ops).vec))) ∧
    Enumerates (samplesOf t (ran m hasher dflt t v ops).vec) (mapped dense dflt t s ops).live := by
  have h := (ran_sim m p h0 hp hasher dflt t inv le valid L s hs dense v hv ops).collect L
  exact ⟨h.1, h.2.1⟩

/-! ## C10 -/

/-- C10. Any use of the id of one group leaves the collected sample of every other group, and what a
lookup-and-access of every other group reports, as they were. -/
theorem C10_labels_independent (k : Nat) (g g' : G)
    (hk : (mapped dense dflt t s ops).issued[k]? = some g) (hne : g' ≠ g) (op : VecOp G M)
    (hop : (∃ f, op = .access k f) ∨ (∃ f, op = .accessMut k f) ∨ op = .remove k) :
    (∀ x, (g', x) ∈ samplesOf t (ran m hasher dflt t v (ops ++ [op])).vec ↔
      (g', x) ∈ samplesOf t (ran m hasher dflt t v ops).vec) ∧
    ∀ f', (vecStep m hasher dflt t (ran m hasher dflt t v (ops ++ [op])) (.update g' f')).1 =
      (vecStep m hasher dflt t (ran m hasher dflt t v ops) (.update g' f')).1 := by
  have happ : mapped dense dflt t s (ops ++ [op]) = (mapStep dense dflt t (mapped dense dflt t s ops) op).2 := by
    simp only [mapped, mapRun_append, mapRun]
  have hlive : (mapStep dense dflt t (mapped dense dflt t s ops) op).2.live g' =
      (mapped dense dflt t s ops).live g' ∧
      (mapStep dense dflt t (mapped dense dflt t s ops) op).2.labels = (mapped dense dflt t s ops).labels := by
    rcases hop with ⟨f, rfl⟩ | ⟨f, rfl⟩ | rfl
    · simp [mapStep, hk, MapState.setLive, hne]
    · simp [mapStep, hk, MapState.setLive, hne]
    · simp only [mapStep, hk]
      cases dense <;> simp [MapState.setLive, hne]
  have S1 := ran_sim m p h0 hp hasher dflt t inv le valid L s hs dense v hv ops
  have S2 := ran_sim m p h0 hp hasher dflt t inv le valid L s hs dense v hv (ops ++ [op])
  constructor
  · intro x
    rw [(S1.collect L).2.1.2, (S2.collect L).2.1.2, happ, hlive.1]
  · intro f'
    rw [(sim_step L m dflt S1 _).1, (sim_step L m dflt S2 _).1, happ]
    obtain ⟨l1, l2⟩ := hlive
    generalize (mapStep dense dflt t (mapped dense dflt t s ops) op).2 = st at l1 l2
    simp only [mapStep, l1, l2]
    split
    · rename_i he; rw [l2] at he; rw [if_pos he]
    · rename_i he; rw [l2] at he; rw [if_neg he]

/-! ## C12 -/

/-- C12. `remove_metric` on a sparse vector returns exactly the accumulated state (the one a collection would
show, `None` if the label is not live), the label disappears from collection, and the next access starts
from the default. On a dense vector it returns `None` and changes nothing. -/
theorem C12_remove (k : Nat) (g : G) (hk : (mapped dense dflt t s ops).issued[k]? = some g) :
    let r := ran m hasher dflt t v ops
    let out := vecStep m hasher dflt t r (.remove k)
    (dense = false →
      (∃ o, out.1 = .removed o ∧ (∀ x, o = some x ↔ (g, x) ∈ samplesOf t r.vec)) ∧
      (∀ x, (g, x) ∉ samplesOf t out.2.vec) ∧
      (∀ g' x, g' ≠ g → ((g', x) ∈ samplesOf t out.2.vec ↔ (g', x) ∈ samplesOf t r.vec)) ∧
      (∀ f, (vecStep m hasher dflt t out.2 (.access k f)).1 = .state dflt)) ∧
    (dense = true → out = (.removed none, r)) := by
  intro r out
  have S1 := ran_sim m p h0 hp hasher dflt t inv le valid L s hs dense v hv ops
  obtain ⟨st1, st2⟩ := sim_step L m dflt S1 (.remove k)
  constructor
  · rintro rfl
    simp only [mapStep, hk, Bool.false_eq_true, if_false] at st1 st2
    refine ⟨⟨_, st1, fun x => by rw [(S1.collect L).2.1.2]⟩, ?_, ?_, ?_⟩
    · intro x
      rw [(st2.collect L).2.1.2]
      simp [MapState.setLive]
    · intro g' x hne
      rw [(st2.collect L).2.1.2, (S1.collect L).2.1.2]
      simp [MapState.setLive, hne]
    · intro f
      have := (sim_step L m dflt st2 (.access k f)).1
      rw [this]
      simp only [mapStep, MapState.setLive, hk, if_true]
      rfl
  · rintro rfl
    show vecStep m hasher dflt t r (.remove k) = _
    rcases S1.lookupId k with ⟨_, h2⟩ | ⟨id, g', h1, h2, _, _⟩
    · rw [hk] at h2; cases h2
    · have hkind : r.vec.inner.isDense = true := S1.kind
      have h1' : r.ids[k]? = some id := h1
      simp only [vecStep, h1']
      cases hin : r.vec.inner with
      | dense cells => simp only [MetricVec.removeMetric, hin]
      | sparse sm => rw [hin] at hkind; cases hkind

/-! ## C13 -/

/-- C13. The first component of `get_cardinality` is the number of live labels, and it never exceeds the
second. -/
theorem C13_cardinality :
    ((ran m hasher dflt t v ops).vec.getCardinality t).1 =
      (samplesOf t (ran m hasher dflt t v ops).vec).length ∧
    (∀ l : List (G × M), Enumerates l (mapped dense dflt t s ops).live →
      ((ran m hasher dflt t v ops).vec.getCardinality t).1 = l.length) ∧
    ((ran m hasher dflt t v ops).vec.getCardinality t).2 = t.cardinality ∧
    (∀ c, t.cardinality = some c → ((ran m hasher dflt t v ops).vec.getCardinality t).1 ≤ c) := by
  have S1 := ran_sim m p h0 hp hasher dflt t inv le valid L s hs dense v hv ops
  obtain ⟨_, e, c, _⟩ := S1.collect L
  refine ⟨c, ?_, ?_, ?_⟩
  · intro l hl
    rw [c]
    refine List.Perm.length_eq ?_
    refine (List.perm_ext_iff_of_nodup (List.Nodup.of_map _ e.1) (List.Nodup.of_map _ hl.1)).2 ?_
    rintro ⟨g, x⟩
    rw [e.2, hl.2]
  · have hwf := S1.wf
    cases hin : (ran m hasher dflt t v ops).vec.inner with
    | dense cells =>
      rw [hin] at hwf
      simp only [MetricVec.getCardinality, hin]
      exact hwf.symm
    | sparse sm => simp only [MetricVec.getCardinality, hin]
  · intro n hn
    rw [c]
    exact S1.live_le L hn e

/-! ## C14 -/

/-- C14. `init_all_dense` on a dense vector: every encodable group is live, the ones that were live keep
their state, the others have the default, and all `cardinality()` cells are live; on a sparse vector nothing
changes. -/
theorem C14_init_all_dense :
    let r := ran m hasher dflt t v ops
    let r' := (vecStep m hasher dflt t r .initAllDense).2
    (dense = true →
      (∀ g, (∃ u s', t.encode g r.vec.labels = (.ok (some u), s')) → ∃ x, (g, x) ∈ samplesOf t r'.vec) ∧
      (∀ g x, (g, x) ∈ samplesOf t r.vec → (g, x) ∈ samplesOf t r'.vec) ∧
      (∀ g x, (g, x) ∈ samplesOf t r'.vec → (g, x) ∈ samplesOf t r.vec ∨
        ((∀ y, (g, y) ∉ samplesOf t r.vec) ∧ x = dflt)) ∧
      (∀ c, t.cardinality = some c → (samplesOf t r'.vec).length = c)) ∧
    (dense = false → r' = r) := by
  intro r r'
  have S1 := ran_sim m p h0 hp hasher dflt t inv le valid L s hs dense v hv ops
  have S2 := (sim_step L m dflt S1 .initAllDense).2
  constructor
  · rintro rfl
    simp only [mapStep, if_true] at S2
    have e1 := (S1.collect L).2.1.2
    have e2 := (S2.collect L).2.1.2
    refine ⟨?_, ?_, ?_, ?_⟩
    · rintro g ⟨u, s', hu⟩
      have : Encodable t (mapped true dflt t s ops).labels g := ⟨u, by rw [← S1.labels]; rw [hu]⟩
      refine ⟨_, (e2 g _).2 (if_pos this)⟩
    · intro g x hx
      rw [e1] at hx
      rw [e2]
      simp only [hx, Option.getD_some]
      split <;> rfl
    · intro g x hx
      rw [e2] at hx
      simp only at hx
      rw [e1]
      cases hl : (mapped true dflt t s ops).live g with
      | some y =>
        simp only [hl, Option.getD_some] at hx
        left; split at hx <;> exact hx
      | none =>
        right
        refine ⟨fun y => by rw [e1, hl]; simp, ?_⟩
        simp only [hl, Option.getD_none] at hx
        split at hx
        · exact (Option.some.inj hx).symm
        · cases hx
    · intro c hc
      obtain ⟨_, _, hlen, _⟩ := S2.collect L
      rw [← hlen]
      have hkind : r.vec.inner.isDense = true := S1.kind
      have hwf := S1.wf
      show (MetricVec.getCardinality t (vecStep m hasher dflt t r .initAllDense).2.vec).1 = c
      cases hin : r.vec.inner with
      | sparse sm => rw [hin] at hkind; cases hkind
      | dense cells =>
        have hin' : (ran m hasher dflt t v ops).vec.inner = .dense cells := hin
        rw [hin'] at hwf
        simp only [VecWF] at hwf
        rw [hc] at hwf
        simp only [vecStep, MetricVec.initAllDense, hin, VecInner.initAllDense, MetricVec.getCardinality]
        rw [List.filter_eq_self.2]
        · simp; exact (Option.some.inj hwf).symm
        · intro a ha
          obtain ⟨b, _, rfl⟩ := List.mem_map.1 ha
          cases b <;> simp
  · rintro rfl
    have hkind : r.vec.inner.isDense = false := S1.kind
    show (vecStep m hasher dflt t r .initAllDense).2 = r
    cases hin : r.vec.inner with
    | dense cells => rw [hin] at hkind; cases hkind
    | sparse sm =>
      simp only [vecStep, MetricVec.initAllDense, hin, VecInner.initAllDense]
      rw [← hin]

/-! ## C18 -/

/-- C18. `try_with_labels` returns `None` iff the group is not encodable; `with_labels` panics exactly then;
no other operation ever panics, whatever ids obtained from the vector are used; ids compare equal iff their
groups are equal. -/
theorem C18_ids_usable :
    let r := ran m hasher dflt t v ops
    (∀ g, ∃ b, (vecStep m hasher dflt t r (.lookup g)).1 = .found b ∧
      (b = true ↔ ∃ u, (t.encode g r.vec.labels).1 = .ok (some u))) ∧
    (∀ g, (MetricVec.withLabels m hasher t g r.vec).1 = .panic ↔
      ¬ ∃ u, (t.encode g r.vec.labels).1 = .ok (some u)) ∧
    (∀ op, (vecStep m hasher dflt t r op).1 = .panic →
      ∃ g f, (op = .update g f ∨ op = .updateMut g f) ∧ ¬ ∃ u, (t.encode g r.vec.labels).1 = .ok (some u)) ∧
    (∀ (j k : Nat) id id' g g', r.ids[j]? = some id → r.ids[k]? = some id' →
      (mapped dense dflt t s ops).issued[j]? = some g → (mapped dense dflt t s ops).issued[k]? = some g' →
      (LabelId.eq id id' = true ↔ g = g')) := by
  classical
  intro r
  have S1 := ran_sim m p h0 hp hasher dflt t inv le valid L s hs dense v hv ops
  have hlab : r.vec.labels = (mapped dense dflt t s ops).labels := S1.labels
  refine ⟨?_, ?_, ?_, ?_⟩
  · intro g
    rw [(sim_step L m dflt S1 (.lookup g)).1, hlab]
    by_cases he : Encodable t (mapped dense dflt t s ops).labels g
    · exact ⟨true, by simp only [mapStep, if_pos he], iff_of_true rfl he⟩
    · exact ⟨false, by simp only [mapStep, if_neg he], iff_of_false (by simp) he⟩
  · intro g
    rw [hlab]
    rcases S1.tryWith L m g with ⟨hn, h1, _⟩ | ⟨hy, id, h1, _⟩
    · have h1' : MetricVec.tryWithLabels m hasher t g r.vec = _ := h1
      simp only [MetricVec.withLabels, h1', expect]
      exact iff_of_true trivial hn
    · have h1' : MetricVec.tryWithLabels m hasher t g r.vec = _ := h1
      simp only [MetricVec.withLabels, h1', expect]
      constructor
      · intro h; cases h
      · intro h; exact absurd hy h
  · intro op hop
    rw [(sim_step L m dflt S1 op).1] at hop
    cases op with
    | lookup g => simp only [mapStep] at hop; split at hop <;> cases hop
    | access k f => simp only [mapStep] at hop; split at hop <;> cases hop
    | accessMut k f => simp only [mapStep] at hop; split at hop <;> cases hop
    | remove k =>
      simp only [mapStep] at hop
      split at hop
      · cases hop
      · split at hop <;> cases hop
    | initAllDense => simp only [mapStep] at hop; split at hop <;> cases hop
    | update g f =>
      simp only [mapStep] at hop
      split at hop
      · cases hop
      · rename_i hne; exact ⟨g, f, .inl rfl, by rw [hlab]; exact hne⟩
    | updateMut g f =>
      simp only [mapStep] at hop
      split at hop
      · cases hop
      · rename_i hne; exact ⟨g, f, .inr rfl, by rw [hlab]; exact hne⟩
  · intro j k id id' g g' hj hk hgj hgk
    rcases S1.lookupId j with ⟨a, _⟩ | ⟨i1, g1, a1, a2, a3, a4⟩
    · have hj' : (ran m hasher dflt t v ops).ids[j]? = some id := hj
      rw [a] at hj'; cases hj'
    · rcases S1.lookupId k with ⟨a, _⟩ | ⟨i2, g2, b1, b2, b3, b4⟩
      · have hk' : (ran m hasher dflt t v ops).ids[k]? = some id' := hk
        rw [a] at hk'; cases hk'
      · have e1 := a1.symm.trans hj
        have e2 := b1.symm.trans hk
        rw [a2] at hgj; rw [b2] at hgk
        cases e1; cases e2; cases hgj; cases hgk
        simp only [LabelId.eq, decide_eq_true_eq]
        constructor
        · intro h; rw [h, b4] at a4; exact (Out.ok.inj a4).symm
        · intro h; subst h; exact L.unique S1.inv a3.1 b3.1 (by rw [a4, b4])

end

/-! ## C11 -/

/-- The operations both storages share: everything but `remove_metric` and `init_all_dense`. -/
def Spec.sharedOp {G M : Type} : VecOp G M → Prop
  | .remove _ => False
  | .initAllDense => False
  | _ => True

/-- C11. The same program without removals and `init_all_dense` gives on a dense and on a sparse vector the
same results, the same samples up to order, and the same live count — whatever hash functions, shard counts
and constructors were involved. -/
theorem C11_dense_sparse_equivalent {S G U M : Type} [DecidableEq U] [DecidableEq G] (m m' : Mode) (p p' : Nat)
    (h0 : 0 < p) (hp : p ≤ 2 ^ 55) (h0' : 0 < p') (hp' : p' ≤ 2 ^ 55) (hasher hasher' : U → Nat) (dflt : M)
    (t : GroupSet S G U) (inv : S → Prop) (le : S → S → Prop) (valid : S → U → Prop)
    (L : GroupSetLaws t inv le valid) (s : S) (hs : inv s) (v v' : MetricVec S U M)
    (hv : Created m p t s true v) (hv' : Created m' p' t s false v')
    (ops : List (VecOp G M)) (hops : ∀ op ∈ ops, sharedOp op) :
    (vecRun m hasher dflt t ⟨v, []⟩ ops).1 = (vecRun m' hasher' dflt t ⟨v', []⟩ ops).1 ∧
    (samplesOf t (ran m hasher dflt t v ops).vec).Perm (samplesOf t (ran m' hasher' dflt t v' ops).vec) ∧
    ((ran m hasher dflt t v ops).vec.getCardinality t).1 =
      ((ran m' hasher' dflt t v' ops).vec.getCardinality t).1 := by
  have heq : ∀ st : MapState S G M, mapRun true dflt t st ops = mapRun false dflt t st ops := by
    clear hv hv'
    induction ops with
    | nil => intro st; rfl
    | cons op os ih =>
      intro st
      have h1 : mapStep true dflt t st op = mapStep false dflt t st op := by
        have := hops op (by simp)
        cases op <;> first | rfl | exact absurd this (by simp [sharedOp])
      simp only [mapRun, h1]
      rw [ih (fun o ho => hops o (by simp [ho]))]
  have R1 := C09_refines_map m p h0 hp hasher dflt t inv le valid L s hs true v hv ops
  have R2 := C09_refines_map m' p' h0' hp' hasher' dflt t inv le valid L s hs false v' hv' ops
  have c1 := (C15_collect_exactly_once m p h0 hp hasher dflt t inv le valid L s hs true v hv ops).2
  have c2 := (C15_collect_exactly_once m' p' h0' hp' hasher' dflt t inv le valid L s hs false v' hv' ops).2
  have hperm : (samplesOf t (ran m hasher dflt t v ops).vec).Perm
      (samplesOf t (ran m' hasher' dflt t v' ops).vec) := by
    refine (List.perm_ext_iff_of_nodup (List.Nodup.of_map _ c1.1) (List.Nodup.of_map _ c2.1)).2 ?_
    rintro ⟨g, x⟩
    rw [c1.2, c2.2]
    simp only [mapped, heq]
  refine ⟨by rw [R1.1, R2.1, heq], hperm, ?_⟩
  rw [(C13_cardinality m p h0 hp hasher dflt t inv le valid L s hs true v hv ops).1,
    (C13_cardinality m' p' h0' hp' hasher' dflt t inv le valid L s hs false v' hv' ops).1]
  exact hperm.length_eq

/-! ## C16 -/

/-- C16. The samples of a dense vector over a derived label set come out strictly increasing in the
lexicographic order of the field numbers, first declared field most significant. -/
theorem C16_dense_collection_order {S V M : Type} [DecidableEq V] (m : Mode) (p : Nat) (h0 : 0 < p)
    (hp : p ≤ 2 ^ 55) (D : DynSet S V) (inv : S → Prop) (le : S → S → Prop) (valid : S → Nat → Prop)
    (LD : DynSetLaws D inv le valid) (d : GroupDef V) (hl : FieldsLawful FixedSetLaws d)
    (hasher : Nat × List Nat → Nat) (dflt : M) (h : Heap S) (hh : ∀ r, inv (h r))
    (v : MetricVec (Heap S) (Nat × List Nat) M) (hv : Created m p (derived m D d) h true v)
    (ops : List (VecOp d.Group M)) :
    (samplesOf (derived m D d) (ran m hasher dflt (derived m D d) v ops).vec).Pairwise fun a b =>
      ∃ ds ds' : List Nat, fixedNumbers d a.1 = ds.map some ∧ fixedNumbers d b.1 = ds'.map some ∧
        List.Lex (· < ·) ds ds' := by
  classical
  have hcard : ∃ c, (derived m D d).cardinality = some c := by
    cases hv with
    | new hn hin =>
      unfold MetricVec.new at hn
      split at hn
      · rename_i c hc; exact ⟨c, hc⟩
      · obtain ⟨sm, _, h3⟩ := Out.bind_eq_ok.1 hn
        cases h3; cases hin
    | dense hn =>
      unfold MetricVec.newDense at hn
      cases hc : (derived m D d).cardinality with
      | none => simp [hc, expect] at hn
      | some c => exact ⟨c, rfl⟩
  obtain ⟨c, hc⟩ := hcard
  have hcc : checkedCards d.fixed (some 1) = some c := by
    simp only [derived, derivedCardinality] at hc
    split at hc
    · exact hc
    · cases hc
  have L := derived_laws m LD d (allLawful_of_fields hl) c hcc
  have S1 := ran_sim m p h0 hp hasher dflt (derived m D d) _ _ _ L h hh true v hv ops
  have hord := (S1.collect L).2.2.2 rfl
  refine List.Pairwise.imp ?_ hord
  rintro a b ⟨i, j, u, u', hij, hu, hu', hi, hj, hdu, hdu'⟩
  obtain ⟨g, hg, he⟩ := L.valid_enc _ u S1.inv hu
  obtain ⟨g', hg', he'⟩ := L.valid_enc _ u' S1.inv hu'
  rw [hdu] at hg; rw [hdu'] at hg'
  cases hg; cases hg'
  obtain ⟨ds, ds', e1, e2, e3⟩ := C16_dense_order m D d hl c hc a.1 b.1 u u' i j _ _ _ he he' hi hj
  exact ⟨ds, ds', e1, e2, e3.1 hij⟩

/-! ## C17 -/

/-- C17. `new` chooses dense storage with exactly `cardinality()` empty cells iff the cardinality is known
and at most 1024, sparse storage with only empty shards otherwise; it never panics on machines with up to
`2^55` cores; the dense constructors panic iff the cardinality is unknown. -/
theorem C17_storage_choice {S G U M : Type} (m : Mode) (p : Nat) (h0 : 0 < p) (hp : p ≤ 2 ^ 55)
    (t : GroupSet S G U) (s : S) :
    (∃ v : MetricVec S U M, MetricVec.new m p t s = .ok v ∧ v.labels = s ∧
      (∀ cells, v.inner = .dense cells ↔
        (∃ c, t.cardinality = some c ∧ c ≤ 1024 ∧ cells = List.replicate c none)) ∧
      ((∃ sm, v.inner = .sparse sm ∧ ∀ tb ∈ sm.shards, tb = []) ↔
        (t.cardinality = none ∨ ∃ c, t.cardinality = some c ∧ 1024 < c))) ∧
    ((MetricVec.newDense t s : Out (MetricVec S U M)) = .panic ↔ t.cardinality = none) ∧
    (∀ c, t.cardinality = some c →
      (MetricVec.newDense t s : Out (MetricVec S U M)) = .ok ⟨.dense (List.replicate c none), s⟩) ∧
    (∃ sm, (MetricVec.newSparse m p s : Out (MetricVec S U M)) = .ok ⟨.sparse sm, s⟩ ∧
      ∀ tb ∈ sm.shards, tb = []) := by
  obtain ⟨n, hn, _⟩ := defaultShardAmount_ok m p h0 hp
  have hsm : (ShardedMap.new m p : Out (ShardedMap U M)) = .ok ⟨List.replicate n [], shardShift n⟩ := by
    simp only [ShardedMap.new, hn, Out.ok_bind]
  have hempty : ∀ tb ∈ (List.replicate n [] : List (Table U M)), tb = [] := fun tb h => (List.mem_replicate.1 h).2
  refine ⟨?_, ?_, ?_, ⟨⟨List.replicate n [], shardShift n⟩,
    by simp only [MetricVec.newSparse, hsm, Out.ok_bind], hempty⟩⟩
  · cases hc : t.cardinality with
    | none =>
      refine ⟨⟨.sparse ⟨List.replicate n [], shardShift n⟩, s⟩, by simp only [MetricVec.new, hc, hsm, Out.ok_bind],
        rfl, ?_, ?_⟩
      · intro cells; simp
      · exact iff_of_true ⟨_, rfl, hempty⟩ (.inl rfl)
    | some c =>
      by_cases hle : c ≤ 1024
      · refine ⟨⟨.dense (List.replicate c none), s⟩, ?_, rfl, ?_, ?_⟩
        · simp only [MetricVec.new, hc, DEFAULT_MAX_DENSE, hle, if_true, newDense]
        · intro cells
          constructor
          · intro h; cases h; exact ⟨c, rfl, hle, rfl⟩
          · rintro ⟨c', h1, _, rfl⟩; cases h1; rfl
        · refine iff_of_false (by rintro ⟨_, h, _⟩; cases h) ?_
          rintro (h | ⟨c', h, h'⟩)
          · cases h
          · cases h; omega
      · refine ⟨⟨.sparse ⟨List.replicate n [], shardShift n⟩, s⟩, ?_, rfl, ?_, ?_⟩
        · simp only [MetricVec.new, hc, DEFAULT_MAX_DENSE, hle, if_false, hsm, Out.ok_bind]
        · intro cells
          refine iff_of_false (by intro h; cases h) ?_
          rintro ⟨c', h, h', _⟩; cases h; omega
        · exact iff_of_true ⟨_, rfl, hempty⟩ (.inr ⟨c, rfl, by omega⟩)
  · cases hc : t.cardinality with
    | none => simp [MetricVec.newDense, hc, expect]
    | some c => simp [MetricVec.newDense, hc, expect]
  · intro c hc
    simp [MetricVec.newDense, hc, expect, newDense]

/-! ## C19 -/

/-- C19. For every reported parallelism up to `2^55`, in either build mode, the sharded map is created with a
power-of-two number of shards, at least 4 and within a factor two of `4 * parallelism`; for every 64-bit
hash the shard index computed from it is a valid index. -/
theorem C19_shard_selection {U M : Type} (m : Mode) (p : Nat) (h0 : 0 < p) (hp : p ≤ 2 ^ 55) :
    ∃ sm : ShardedMap U M, ShardedMap.new m p = .ok sm ∧
      (∃ k, sm.shards.length = 2 ^ k) ∧ 4 ≤ sm.shards.length ∧
      4 * p ≤ sm.shards.length ∧ sm.shards.length < 8 * p ∧
      ∀ hash < 2 ^ 64, shardIndex sm.shift hash < sm.shards.length := by
  obtain ⟨n, hn, ⟨b, hb2, hb, hnb, hsh⟩, h1, h2⟩ := defaultShardAmount_ok m p h0 hp
  refine ⟨⟨List.replicate n [], shardShift n⟩, by simp only [ShardedMap.new, hn, Out.ok_bind],
    ⟨b, by simp [hnb]⟩, by simp; omega, by simpa using h1, by simpa using h2, ?_⟩
  intro hash _
  simp only [hsh, List.length_replicate]
  rw [hnb]
  exact shardIndex_lt hb hash

/-- C19, second half: `get_metric`, `get_metric_mut` and `remove_metric` only touch the shard selected by the
hash of the id. -/
theorem C19_same_shard {U M : Type} [DecidableEq U] (dflt : M) (hasher : U → Nat) (sm : ShardedMap U M)
    (id : LabelId U) (f : M → M) (j : Nat) (hj : j ≠ shardIndex sm.shift id.hash) :
    (∀ x sm', sm.getMetric dflt hasher id f = .ok (x, sm') → sm'.shards[j]? = sm.shards[j]?) ∧
    (∀ x sm', sm.getMetricMut dflt hasher id f = .ok (x, sm') → sm'.shards[j]? = sm.shards[j]?) ∧
    (∀ x sm', sm.removeMetric id = .ok (x, sm') → sm'.shards[j]? = sm.shards[j]?) := by
  have hset : ∀ tb, (sm.setShard id.hash tb).shards[j]? = sm.shards[j]? := fun tb => by
    simp only [ShardedMap.setShard]; exact List.getElem?_set_ne (fun h => hj h.symm)
  refine ⟨?_, ?_, ?_⟩
  · intro x sm' h
    simp only [ShardedMap.getMetric] at h
    obtain ⟨tb, _, h⟩ := Out.bind_eq_ok.1 h
    split at h
    · cases h; exact hset _
    · obtain ⟨y, _, h⟩ := Out.bind_eq_ok.1 h
      cases h; exact hset _
  · intro x sm' h
    simp only [ShardedMap.getMetricMut] at h
    obtain ⟨tb, _, h⟩ := Out.bind_eq_ok.1 h
    split at h <;> (cases h; exact hset _)
  · intro x sm' h
    simp only [ShardedMap.removeMetric] at h
    obtain ⟨tb, _, h⟩ := Out.bind_eq_ok.1 h
    split at h <;> cases h
    · exact hset _
    · rfl

/-! ## Concrete cases -/

section examples

/-- `struct Labels { method: {Get, Post}, status: {ok, err, slow} }`, dense by default. -/
abbrev exT := derived .debug threadedRodeo exampleFixed

example : Created (M := Nat) .debug 8 exT exampleHeap true ⟨.dense (List.replicate 6 none), exampleHeap⟩ :=
  .new (cells := List.replicate 6 none) (by rfl) rfl

example : ∃ c, checkedCards exampleFixed.fixed (some 1) = some c := ⟨6, by decide⟩

/-- A sparse vector over a two-valued set with a hash function sending everything to one shard. -/
def exV : MetricVec Unit Nat Nat := ⟨.sparse ⟨List.replicate 4 [], 62⟩, ()⟩

example : Created .release 1 (staticGroupSet ["Get", "Post"]) () false exV := .sparse (by rfl)

example : GroupSetLaws (staticGroupSet (S := Unit) ["Get", "Post"]) (fun _ => True) (fun _ _ => True)
    (fun _ u => u < 2) :=
  staticGroupSet_laws _ (by decide) (by decide) _ _ (fun _ => trivial) (fun _ _ _ _ _ => trivial)

/-- Both labels collide in hash and shard; increments stay apart, removal returns 5 and restarts at 0. -/
example : (vecRun .release (fun _ => 77) 0 (staticGroupSet ["Get", "Post"]) ⟨exV, []⟩
    [.lookup "Get", .lookup "Post", .lookup "Put", .access 0 (· + 5), .access 1 (· + 7), .update "Get" id,
      .remove 0, .accessMut 0 id, .access 1 id, .update "Put" id]).1 =
    [.found true, .found true, .found false, .state 0, .state 0, .state 5, .removed (some 5), .state 0,
      .state 7, .panic] := by decide

example : samplesOf (staticGroupSet ["Get", "Post"]) (ran .release (fun _ => 77) 0 (staticGroupSet ["Get", "Post"])
    exV [.update "Post" (· + 3), .update "Get" (· + 5), .update "Post" (· + 1)]).vec =
    [("Get", 5), ("Post", 4)] := by decide

example : (ran .debug (fun u => u) 0 (staticGroupSet ["Get", "Post"]) ⟨.dense [none, none], ()⟩
    [.update "Post" (· + 3), .initAllDense]).vec.inner = .dense [some 0, some 3] := by rfl

end examples

end Measured
