import Verif.Spec.Api
import Verif.Proof.Group

/-! # Calls on vectors as programs of the sequential model -/

namespace Measured
open Measured.Spec
variable {S G U M C A : Type}

/-- The machine states follow the plain ones. -/
structure Follows (o : MetricOps C M) (okC : C → Prop) (conc : A → M) (zero : A) (apply : C → A → A) : Prop where
  zero : conc zero = o.dflt
  shared : ∀ c a, okC c → o.shared c (conc a) = .ok (conc (apply c a))
  exclusive : ∀ c a, okC c → o.exclusive c (conc a) = .ok (conc (apply c a)) ∨ o.exclusive c (conc a) = .panic

theorem vecRun_append [DecidableEq U] (m : Mode) (hasher : U → Nat) (dflt : M) (t : GroupSet S G U)
    (r : VecRun S U M) (a b : List (VecOp G M)) :
    (vecRun m hasher dflt t r (a ++ b)).2 = (vecRun m hasher dflt t (vecRun m hasher dflt t r a).2 b).2 := by
  induction a generalizing r with
  | nil => rfl
  | cons o os ih => simp only [List.cons_append, vecRun, ih]

section
variable [DecidableEq U] [DecidableEq G]
variable {hasher : U → Nat} {t : GroupSet S G U} {inv : S → Prop} {le : S → S → Prop} {valid : S → U → Prop}

/-- One call: the operations it stands for, and what it does to the tally. -/
theorem vecCall_ops (L : GroupSetLaws t inv le valid) (m : Mode) {o : MetricOps C M} {okC : C → Prop} {conc : A → M}
    {zero : A} {apply : C → A → A} (hf : Follows o okC conc zero apply) {dense : Bool} {r : VecRun S U M}
    {st : MapState S G M} (h : Sim hasher t inv valid dense r st) (live : G → Option A)
    (hl : ∀ g, st.live g = (live g).map conc) (c : VecCall G C) (hc : ∀ x, VecCall.call? c = some x → okC x) :
    ∃ ops, (vecRun m hasher o.dflt t r ops).2.vec = (vecCall o m hasher t r.vec c).2 ∧
      ∀ g, (mapRun dense o.dflt t st ops).2.live g =
        (tallyStep dense zero apply live (c, (vecCall o m hasher t r.vec c).1) g).map conc := by
  classical
  have hget : ∀ g, (st.live g).getD o.dflt = conc ((live g).getD zero) := by
    intro g; rw [hl]; cases live g <;> simp [hf.zero]
  have hupd : ∀ (g : G) (a : A) (g' : G), (if g' = g then some (conc a) else st.live g') =
      (Function.update live g (some a) g').map conc := by
    intro g a g'
    rw [Function.update_apply]
    split
    · rfl
    · exact hl g'
  cases c with
  | shared g c =>
    refine ⟨[.update g (keep (o.shared c))], ?_⟩
    have hs := sim_step L m o.dflt h (.update g (keep (o.shared c)))
    have hok := hf.shared c ((live g).getD zero) (hc c rfl)
    have hkeep : keep (o.shared c) (conc ((live g).getD zero)) = conc (apply c ((live g).getD zero)) := by
      simp only [keep, hok]
    simp only [vecRun, mapRun]
    rcases h.tryWith L m g with ⟨hn, h1, _⟩ | ⟨hy, id, h1, _⟩
    · have hw : MetricVec.withLabels m hasher t g r.vec = (.panic, { r.vec with labels := afterLookup t st.labels g }) := by
        simp only [MetricVec.withLabels, h1, expect]
      refine ⟨?_, fun g' => ?_⟩
      · simp only [vecStep, RS.bind_run, hw, vecCall]
      · simp only [mapStep, if_neg hn, vecCall, hw, tallyStep, hl]
    · have hw : MetricVec.withLabels m hasher t g r.vec = (.ok id, { r.vec with labels := afterLookup t st.labels g }) := by
        simp only [MetricVec.withLabels, h1, expect]
      have hs1 := hs.1
      simp only [vecStep, RS.bind_run, hw, mapStep, if_pos hy, hget] at hs1
      generalize hg : MetricVec.getMetric o.dflt hasher id (keep (o.shared c))
        { r.vec with labels := afterLookup t st.labels g } = q at hs1
      obtain ⟨q1, q2⟩ := q
      simp only at hs1
      cases q1 with
      | err => cases hs1
      | panic => cases hs1
      | ok x =>
        simp only [VecRes.ofState, VecRes.state.injEq] at hs1
        subst hs1
        refine ⟨?_, fun g' => ?_⟩
        · simp only [vecStep, RS.bind_run, hw, hg, vecCall]
        · simp only [mapStep, if_pos hy, vecCall, hw, hg, CallRes.ofUpdate, hok, tallyStep, MapState.setLive, hget, hkeep]
          exact hupd g _ g'
  | exclusive g c =>
    refine ⟨[.updateMut g (keep (o.exclusive c))], ?_⟩
    have hs := sim_step L m o.dflt h (.updateMut g (keep (o.exclusive c)))
    have hok := hf.exclusive c ((live g).getD zero) (hc c rfl)
    simp only [vecRun, mapRun]
    rcases h.tryWith L m g with ⟨hn, h1, _⟩ | ⟨hy, id, h1, _⟩
    · have hw : MetricVec.withLabels m hasher t g r.vec = (.panic, { r.vec with labels := afterLookup t st.labels g }) := by
        simp only [MetricVec.withLabels, h1, expect]
      refine ⟨?_, fun g' => ?_⟩
      · simp only [vecStep, RS.bind_run, hw, vecCall]
      · simp only [mapStep, if_neg hn, vecCall, hw, tallyStep, hl]
    · have hw : MetricVec.withLabels m hasher t g r.vec = (.ok id, { r.vec with labels := afterLookup t st.labels g }) := by
        simp only [MetricVec.withLabels, h1, expect]
      have hs1 := hs.1
      simp only [vecStep, RS.bind_run, hw, mapStep, if_pos hy, hget] at hs1
      generalize hg : MetricVec.getMetricMut o.dflt hasher id (keep (o.exclusive c))
        { r.vec with labels := afterLookup t st.labels g } = q at hs1
      obtain ⟨q1, q2⟩ := q
      simp only at hs1
      cases q1 with
      | err => cases hs1
      | panic => cases hs1
      | ok x =>
        simp only [VecRes.ofState, VecRes.state.injEq] at hs1
        subst hs1
        refine ⟨?_, fun g' => ?_⟩
        · simp only [vecStep, RS.bind_run, hw, hg, vecCall]
        · rcases hok with hok | hok
          · simp only [mapStep, if_pos hy, vecCall, hw, hg, CallRes.ofUpdate, keep, hok, tallyStep, MapState.setLive, hget]
            exact hupd g _ g'
          · simp only [mapStep, if_pos hy, vecCall, hw, hg, CallRes.ofUpdate, keep, hok, tallyStep, MapState.setLive, hget]
            exact hupd g _ g'
  | remove g =>
    refine ⟨[.lookup g, .remove r.ids.length], ?_⟩
    have hs := sim_step L m o.dflt h (.lookup g)
    have hlen := h.ids.length_eq
    rcases h.tryWith L m g with ⟨hn, h1, h2⟩ | ⟨hy, id, h1, h2, h3, h4⟩
    · have hw : MetricVec.withLabels m hasher t g r.vec = (.panic, { r.vec with labels := afterLookup t st.labels g }) := by
        simp only [MetricVec.withLabels, h1, expect]
      refine ⟨?_, fun g' => ?_⟩
      · simp only [vecRun, vecStep, h1, vecCall, hw, List.getElem?_eq_none (Nat.le_refl r.ids.length)]
      · have : st.issued[r.ids.length]? = none := List.getElem?_eq_none (by omega)
        simp only [mapRun, mapStep, if_neg hn, vecCall, hw, tallyStep, this, hl]
    · have hw : MetricVec.withLabels m hasher t g r.vec = (.ok id, { r.vec with labels := afterLookup t st.labels g }) := by
        simp only [MetricVec.withLabels, h1, expect]
      have hk : (r.ids ++ [id])[r.ids.length]? = some id := by simp
      have hk' : (st.issued ++ [g])[r.ids.length]? = some g := by rw [hlen]; simp
      have hs2 := (sim_step L m o.dflt hs.2 (.remove r.ids.length)).1
      simp only [vecStep, h1, mapStep, if_pos hy, hk, hk'] at hs2
      generalize hg : MetricVec.removeMetric id { r.vec with labels := afterLookup t st.labels g } = q at hs2
      obtain ⟨q1, q2⟩ := q
      have hq : ∃ x, q1 = .ok x := by
        cases q1 with
        | ok x => exact ⟨x, rfl⟩
        | err => cases dense <;> simp at hs2
        | panic => cases dense <;> simp at hs2
      obtain ⟨x, rfl⟩ := hq
      refine ⟨?_, fun g' => ?_⟩
      · simp only [vecRun, vecStep, h1, vecCall, hw, hk, hg]
      · simp only [mapRun, mapStep, if_pos hy, hk', vecCall, hw, hg, CallRes.ofOut, tallyStep]
        cases dense with
        | true => simp only [if_true]; exact hl g'
        | false =>
          simp only [Bool.false_eq_true, if_false, MapState.setLive, Function.update_apply]
          split
          · rfl
          · exact hl g'

/-- A sequence of calls is a program, whose map is the tally. -/
theorem vecCalls_ops (L : GroupSetLaws t inv le valid) (m : Mode) {o : MetricOps C M} {okC : C → Prop} {conc : A → M}
    {zero : A} {apply : C → A → A} (hf : Follows o okC conc zero apply) {dense : Bool} (cs : List (VecCall G C)) :
    ∀ {r : VecRun S U M} {st : MapState S G M} (_ : Sim hasher t inv valid dense r st) (live : G → Option A)
      (_ : ∀ g, st.live g = (live g).map conc) (_ : ∀ c ∈ cs, ∀ x, VecCall.call? c = some x → okC x),
    ∃ ops, (vecRun m hasher o.dflt t r ops).2.vec = (vecCalls o m hasher t r.vec cs).2 ∧
      ∀ g, (mapRun dense o.dflt t st ops).2.live g =
        ((cs.zip (vecCalls o m hasher t r.vec cs).1).foldl (tallyStep dense zero apply) live g).map conc := by
  induction cs with
  | nil => intro r st _ live hl _; exact ⟨[], rfl, fun g => hl g⟩
  | cons c cs ih =>
    intro r st h live hl hc
    obtain ⟨ops1, a1, a2⟩ := vecCall_ops L m hf h live hl c (hc c (by simp))
    have hs := (sim_run L m o.dflt h ops1).2
    obtain ⟨ops2, b1, b2⟩ := ih hs _ a2 fun c' h' => hc c' (by simp [h'])
    refine ⟨ops1 ++ ops2, ?_, fun g => ?_⟩
    · rw [vecRun_append, b1, a1]; rfl
    · rw [mapRun_append]
      simp only
      rw [b2 g, a1]
      rfl

/-- How a call ends: it panics after `with_labels` only if its arithmetic does. -/
theorem vecCall_not_panicked (L : GroupSetLaws t inv le valid) (m : Mode) {o : MetricOps C M} {okC : C → Prop} {conc : A → M}
    {zero : A} {apply : C → A → A} (hf : Follows o okC conc zero apply) {dense : Bool} {r : VecRun S U M}
    {st : MapState S G M} (h : Sim hasher t inv valid dense r st) (live : G → Option A)
    (hl : ∀ g, st.live g = (live g).map conc) (c : VecCall G C) (hc : ∀ x, VecCall.call? c = some x → okC x)
    (hx : ∀ x a, okC x → VecCall.isShared c = false → VecCall.call? c = some x → o.exclusive x (conc a) ≠ .panic) :
    (vecCall o m hasher t r.vec c).1 ≠ .panicked := by
  classical
  have hget : ∀ g, (st.live g).getD o.dflt = conc ((live g).getD zero) := by
    intro g; rw [hl]; cases live g <;> simp [hf.zero]
  cases c with
  | shared g c =>
    have hs := sim_step L m o.dflt h (.update g (keep (o.shared c)))
    have hok := hf.shared c ((live g).getD zero) (hc c rfl)
    rcases h.tryWith L m g with ⟨hn, h1, _⟩ | ⟨hy, id, h1, _⟩
    · simp [vecCall, MetricVec.withLabels, h1, expect]
    · have hw : MetricVec.withLabels m hasher t g r.vec = (.ok id, { r.vec with labels := afterLookup t st.labels g }) := by
        simp only [MetricVec.withLabels, h1, expect]
      have hs1 := hs.1
      simp only [vecStep, RS.bind_run, hw, mapStep, if_pos hy, hget] at hs1
      generalize hg : MetricVec.getMetric o.dflt hasher id (keep (o.shared c))
        { r.vec with labels := afterLookup t st.labels g } = q at hs1
      obtain ⟨q1, q2⟩ := q
      cases q1 with
      | err => cases hs1
      | panic => cases hs1
      | ok x =>
        simp only [VecRes.ofState, VecRes.state.injEq] at hs1
        subst hs1
        simp [vecCall, hw, hg, CallRes.ofUpdate, hok]
  | exclusive g c =>
    have hs := sim_step L m o.dflt h (.updateMut g (keep (o.exclusive c)))
    have hok := (hf.exclusive c ((live g).getD zero) (hc c rfl)).resolve_right
      (hx c _ (hc c rfl) rfl rfl)
    rcases h.tryWith L m g with ⟨hn, h1, _⟩ | ⟨hy, id, h1, _⟩
    · simp [vecCall, MetricVec.withLabels, h1, expect]
    · have hw : MetricVec.withLabels m hasher t g r.vec = (.ok id, { r.vec with labels := afterLookup t st.labels g }) := by
        simp only [MetricVec.withLabels, h1, expect]
      have hs1 := hs.1
      simp only [vecStep, RS.bind_run, hw, mapStep, if_pos hy, hget] at hs1
      generalize hg : MetricVec.getMetricMut o.dflt hasher id (keep (o.exclusive c))
        { r.vec with labels := afterLookup t st.labels g } = q at hs1
      obtain ⟨q1, q2⟩ := q
      cases q1 with
      | err => cases hs1
      | panic => cases hs1
      | ok x =>
        simp only [VecRes.ofState, VecRes.state.injEq] at hs1
        subst hs1
        simp [vecCall, hw, hg, CallRes.ofUpdate, hok]
  | remove g =>
    have hs := sim_step L m o.dflt h (.lookup g)
    have hlen := h.ids.length_eq
    rcases h.tryWith L m g with ⟨hn, h1, h2⟩ | ⟨hy, id, h1, h2, h3, h4⟩
    · simp [vecCall, MetricVec.withLabels, h1, expect]
    · have hw : MetricVec.withLabels m hasher t g r.vec = (.ok id, { r.vec with labels := afterLookup t st.labels g }) := by
        simp only [MetricVec.withLabels, h1, expect]
      have hk : (r.ids ++ [id])[r.ids.length]? = some id := by simp
      have hk' : (st.issued ++ [g])[r.ids.length]? = some g := by rw [hlen]; simp
      have hs2 := (sim_step L m o.dflt hs.2 (.remove r.ids.length)).1
      simp only [vecStep, h1, mapStep, if_pos hy, hk, hk'] at hs2
      generalize hg : MetricVec.removeMetric id { r.vec with labels := afterLookup t st.labels g } = q at hs2
      obtain ⟨q1, q2⟩ := q
      cases q1 with
      | ok x => simp [vecCall, hw, hg, CallRes.ofOut]
      | err => cases dense <;> simp at hs2
      | panic => cases dense <;> simp at hs2

theorem vecCall_known (L : GroupSetLaws t inv le valid) (m : Mode) {o : MetricOps C M} {dense : Bool}
    {r : VecRun S U M} {st : MapState S G M} (h : Sim hasher t inv valid dense r st) (c : VecCall G C) :
    (vecCall o m hasher t r.vec c).1 = .unknownLabel ↔ ¬ Encodable t st.labels c.group := by
  classical
  have key : ∀ g, (∃ v, MetricVec.withLabels m hasher t g r.vec = (.panic, v) ∧ ¬ Encodable t st.labels g) ∨
      (∃ id v, MetricVec.withLabels m hasher t g r.vec = (.ok id, v) ∧ Encodable t st.labels g) := by
    intro g
    rcases h.tryWith L m g with ⟨hn, h1, _⟩ | ⟨hy, id, h1, _⟩
    · exact .inl ⟨_, by simp only [MetricVec.withLabels, h1, expect]; rfl, hn⟩
    · exact .inr ⟨id, _, by simp only [MetricVec.withLabels, h1, expect]; rfl, hy⟩
  have hu : ∀ (f : M → Out M) (x : Out M), CallRes.ofUpdate f x ≠ .unknownLabel := by
    intro f x
    cases x with
    | ok x => simp only [CallRes.ofUpdate]; split <;> simp
    | err => simp [CallRes.ofUpdate]
    | panic => simp [CallRes.ofUpdate]
  have ho : ∀ x : Out (Option M), CallRes.ofOut x ≠ .unknownLabel := by
    intro x; cases x <;> simp [CallRes.ofOut]
  cases c with
  | shared g c =>
    rcases key g with ⟨v, h1, h2⟩ | ⟨id, v, h1, h2⟩
    · simp [vecCall, h1, VecCall.group, h2]
    · simp [vecCall, h1, VecCall.group, h2, hu]
  | exclusive g c =>
    rcases key g with ⟨v, h1, h2⟩ | ⟨id, v, h1, h2⟩
    · simp [vecCall, h1, VecCall.group, h2]
    · simp [vecCall, h1, VecCall.group, h2, hu]
  | remove g =>
    rcases key g with ⟨v, h1, h2⟩ | ⟨id, v, h1, h2⟩
    · simp [vecCall, h1, VecCall.group, h2]
    · simp [vecCall, h1, VecCall.group, h2, ho]

theorem vecCalls_results (L : GroupSetLaws t inv le valid) (m : Mode) {o : MetricOps C M} {okC : C → Prop} {conc : A → M}
    {zero : A} {apply : C → A → A} (hf : Follows o okC conc zero apply) {dense : Bool} (cs : List (VecCall G C)) :
    ∀ {r : VecRun S U M} {st : MapState S G M} (_ : Sim hasher t inv valid dense r st) (live : G → Option A)
      (_ : ∀ g, st.live g = (live g).map conc) (_ : ∀ c ∈ cs, ∀ x, VecCall.call? c = some x → okC x),
    (vecCalls o m hasher t r.vec cs).1.length = cs.length ∧
    ((∀ c ∈ cs, ∀ x a, okC x → VecCall.isShared c = false → VecCall.call? c = some x →
      o.exclusive x (conc a) ≠ .panic) → CallRes.panicked ∉ (vecCalls o m hasher t r.vec cs).1) ∧
    ((∀ c ∈ cs, ∀ s, inv s → Encodable t s c.group) → CallRes.unknownLabel ∉ (vecCalls o m hasher t r.vec cs).1) := by
  induction cs with
  | nil => intro r st _ live _ _; simp [vecCalls]
  | cons c cs ih =>
    intro r st h live hl hc
    obtain ⟨ops, a1, a2⟩ := vecCall_ops L m hf h live hl c (hc c (by simp))
    have hs := (sim_run L m o.dflt h ops).2
    obtain ⟨i1, i2, i3⟩ := ih hs _ a2 fun c' h' => hc c' (by simp [h'])
    rw [a1] at i1 i2 i3
    simp only [vecCalls]
    refine ⟨by simp [i1], ?_, ?_⟩
    · intro hx
      rw [List.mem_cons, not_or]
      exact ⟨(vecCall_not_panicked L m hf h live hl c (hc c (by simp)) (hx c (by simp))).symm,
        i2 fun c' h' => hx c' (by simp [h'])⟩
    · intro hx
      rw [List.mem_cons, not_or]
      refine ⟨fun hu => ?_, i3 fun c' h' => hx c' (by simp [h'])⟩
      exact (vecCall_known L m h c).1 hu.symm (hx c (by simp) st.labels h.inv)

end

end Measured
