import Verif.Proof.SparseLive
import Verif.Proof.MetricVec

/-!
# C23, C24, C25: a sparse vector used by many threads
-/

namespace Measured
open Conc Spec

variable {K U : Type} [DecidableEq K]

/-! ## C23 -/

/-- However threads interleave: every lookup, update and removal is one on the map obtained by doing the insertions,
updates and removals one after the other. In particular `remove_metric` returns exactly the current state, a key is
never inserted twice, a guard always refers to a present metric, and `expect` in `get_metric` never fails. -/
theorem C23_linearizable {c : ShardConf K} {tr tr' : List (SEvent K U)} {e : SEvent K U} {s : SSys K U}
    (h : Exec (SStep c) SSys.new (tr ++ e :: tr') s) : EventOk (mapOf tr) e := by
  obtain ⟨s₁, h1, h2⟩ := exec_split tr _ h
  obtain ⟨s₂, hs, _⟩ := exec_cons_inv h2
  exact (sstep_inv (s_inv h1) hs).2

/-- At every moment the shards contain that map: at most one entry per key, in the key's shard. -/
theorem C23_contents {c : ShardConf K} {tr : List (SEvent K U)} {s : SSys K U} (h : Exec (SStep c) SSys.new tr s) :
    (∀ i, ((s.shards i).map Prod.fst).Nodup) ∧
      ∀ i k us, (k, us) ∈ s.shards i ↔ i = c.shardOf k ∧ mapOf tr k = some us := by
  have hi := s_inv h
  refine ⟨hi.nodup, fun i k us => ⟨fun hm => ?_, ?_⟩⟩
  · have hp := hi.place i _ hm
    refine ⟨hp.symm, ?_⟩
    rw [← hi.abs]
    rw [← hp] at hm
    exact findKey_mem (hi.nodup _) hm
  · rintro ⟨rfl, hm⟩
    rw [← hi.abs] at hm
    exact findKey_some_mem hm

theorem updatesOf_append (k : K) (a b : List (SEvent K U)) : updatesOf k (a ++ b) = updatesOf k a ++ updatesOf k b := by
  induction a with
  | nil => rfl
  | cons e a ih =>
    cases e <;> simp only [List.cons_append, updatesOf, ih]
    split <;> rfl

theorem removedOf_append (k : K) (a b : List (SEvent K U)) : removedOf k (a ++ b) = removedOf k a ++ removedOf k b := by
  induction a with
  | nil => rfl
  | cons e a ih =>
    cases e with
    | remove t k' r =>
      cases r <;> simp only [List.cons_append, removedOf, ih]
      split <;> rfl
    | _ => simp only [List.cons_append, removedOf, ih]

/-- No update is lost or doubled: those made to `k` are, in order, the ones in the states returned by `remove_metric`,
followed by the ones in the present entry. -/
theorem C23_updates {c : ShardConf K} {tr : List (SEvent K U)} {s : SSys K U} (h : Exec (SStep c) SSys.new tr s)
    (k : K) : updatesOf k tr = (removedOf k tr).flatten ++ ((findKey k (s.shards (c.shardOf k))).getD []) := by
  rw [(s_inv h).abs]
  induction h with
  | nil => rfl
  | @snoc tr s e s' hex hs ih =>
    have hok := (sstep_inv (s_inv hex) hs).2
    rw [updatesOf_append, removedOf_append, ih, mapOf_snoc]
    cases e with
    | insert t k' =>
      by_cases hk : k = k'
      · subst hk
        have hok : mapOf tr k = none := hok
        simp [mapAfter, updatesOf, removedOf, hok]
      · simp [mapAfter, updatesOf, removedOf, hk]
    | update t k' u =>
      by_cases hk : k = k'
      · subst hk
        have hok : mapOf tr k ≠ none := hok
        obtain ⟨us, hus⟩ := Option.ne_none_iff_exists'.1 hok
        simp [mapAfter, updatesOf, removedOf, hus]
      · simp [mapAfter, updatesOf, removedOf, hk, Ne.symm hk]
    | remove t k' r =>
      have hok : r = mapOf tr k' := hok
      by_cases hk : k = k'
      · subst hk
        cases hr : r with
        | none => simp [mapAfter, updatesOf, removedOf, ← hok, hr]
        | some us => simp [mapAfter, updatesOf, removedOf, ← hok, hr]
      · cases r <;> simp [mapAfter, updatesOf, removedOf, hk, Ne.symm hk]
    | _ => simp [mapAfter, updatesOf, removedOf]

/-! ## C24 -/

/-- What thread `t` has written in a run. -/
def Spec.emitted (t : Tid) : List (SEvent K U) → List (K × List U)
  | [] => []
  | .emit t' k us :: tr => if t' = t then (k, us) :: emitted t tr else emitted t tr
  | _ :: tr => emitted t tr

omit [DecidableEq K] in
theorem emitted_append (t : Tid) (a b : List (SEvent K U)) : emitted t (a ++ b) = emitted t a ++ emitted t b := by
  induction a with
  | nil => rfl
  | cons e a ih =>
    cases e <;> simp only [List.cons_append, emitted, ih]
    split <;> rfl

/-- The accumulated list is what has been written since the pass began. -/
theorem emitted_inv {c : ShardConf K} {tr : List (SEvent K U)} {s : SSys K U} (h : Exec (SStep c) SSys.new tr s)
    (t : Tid) (pre seg : List (SEvent K U)) (htr : tr = pre ++ .startPass t :: seg) (hno : .startPass t ∉ seg)
    (acc : List (K × List U)) (hp : (∃ i, (s.thr t).pc = .collect i acc) ∨ ∃ i j snap, (s.thr t).pc = .scan i j acc snap) :
    acc = emitted t seg := by
  induction h generalizing pre seg acc with
  | nil => simp at htr
  | @snoc tr s e s' hex hs ih =>
    have hself : ∀ (s : SSys K U) (p : SPc K U), ((s.goto t p).thr t).pc = p := fun s p => by
      show (Function.update s.thr t _ t).pc = p
      rw [Function.update_self]
    have hself' : ∀ (s : SSys K U) (p : SPc K U) gs, ((s.setGuards t p gs).thr t).pc = p := fun s p gs => by
      show (Function.update s.thr t _ t).pc = p
      rw [Function.update_self]
    rcases List.eq_nil_or_concat seg with rfl | ⟨seg', e', rfl⟩
    · obtain ⟨h1, h2⟩ := List.append_inj' htr rfl
      simp only [List.cons.injEq, and_true] at h2
      subst h2
      cases hs with
      | startPass _ hp' =>
        rw [hself] at hp
        rcases hp with ⟨i, hp⟩ | ⟨i, j, snap, hp⟩
        · simp only [SPc.collect.injEq] at hp
          rw [← hp.2]; rfl
        · cases hp
    · rw [List.concat_eq_append] at htr hno
      have htr' : tr ++ [e] = (pre ++ .startPass t :: seg') ++ [e'] := by rw [htr]; simp
      obtain ⟨h1, h2⟩ := List.append_inj' htr' rfl
      simp only [List.cons.injEq, and_true] at h2
      subst h2
      have hno' : SEvent.startPass t ∉ seg' := fun hm => hno (List.mem_append_left _ hm)
      have ih' := ih pre seg' h1 hno'
      rw [List.concat_eq_append, emitted_append]
      by_cases ht : t = e.tid
      · cases hs with
        | passLock t' i' acc' hp' hi hl =>
          change t = t' at ht
          subst ht
          rw [hself] at hp
          rcases hp with ⟨i, hp⟩ | ⟨i, j, snap, hp⟩
          · cases hp
          · cases hp
            simpa [emitted] using ih' acc (.inl ⟨_, hp'⟩)
        | emit t' i' j' acc' snap' k old us cur hp' hc ho h1 h2 =>
          change t = t' at ht
          subst ht
          rw [hself] at hp
          rcases hp with ⟨i, hp⟩ | ⟨i, j, snap, hp⟩
          · cases hp
          · cases hp
            simp [emitted, ← ih' acc' (.inr ⟨_, _, _, hp'⟩)]
        | passNext t' i' j' acc' snap' hp' hj =>
          change t = t' at ht
          subst ht
          rw [hself] at hp
          rcases hp with ⟨i, hp⟩ | ⟨i, j, snap, hp⟩
          · cases hp
            simpa [emitted] using ih' acc (.inr ⟨_, _, _, hp'⟩)
          · cases hp
        | startPass t' hp' =>
          change t = t' at ht
          subst ht
          exact absurd (List.mem_append_right _ List.mem_cons_self) hno
        | update t' k u us hg hf =>
          change t = t' at ht
          subst ht
          simpa [emitted] using ih' acc hp
        | hit t' k us hp' hf =>
          change t = t' at ht
          subst ht
          rw [hself'] at hp
          rcases hp with ⟨i, hp⟩ | ⟨i, j, snap, hp⟩ <;> cases hp
        | refind t' k us hp' hf =>
          change t = t' at ht
          subst ht
          rw [hself'] at hp
          rcases hp with ⟨i, hp⟩ | ⟨i, j, snap, hp⟩ <;> cases hp
        | release t' k hp' hg =>
          change t = t' at ht
          subst ht
          rw [hself'] at hp
          rcases hp with ⟨i, hp⟩ | ⟨i, j, snap, hp⟩ <;> cases hp
        | _ t' =>
          change t = t' at ht
          subst ht
          rw [hself] at hp
          rcases hp with ⟨i, hp⟩ | ⟨i, j, snap, hp⟩ <;> cases hp
      · rw [step_other hs ht] at hp
        rw [ih' acc hp]
        have : emitted t [e] = [] := by
          cases e <;> simp only [emitted]
          rw [if_neg (fun he => ht he.symm)]
        rw [this, List.append_nil]

/-- A collection pass by thread `t`, while other threads create, update and remove metrics. `p` ranges over the
moments of the pass. No key is written twice; every key written was present with that state at some moment of the pass;
every key present during the whole pass is written (hence exactly once). -/
theorem C24_pass {c : ShardConf K} (hc : ∀ k, c.shardOf k < c.n) {tr₁ tr₂ tr₃ : List (SEvent K U)} {t : Tid}
    {acc : List (K × List U)} {s : SSys K U}
    (h : Exec (SStep c) SSys.new (tr₁ ++ .startPass t :: tr₂ ++ .endPass t acc :: tr₃) s)
    (hone : .startPass t ∉ tr₂) :
    ((emitted t tr₂).map Prod.fst).Nodup ∧
      (∀ k us, (k, us) ∈ emitted t tr₂ → ∃ p, p <+: tr₂ ∧ mapOf (tr₁ ++ .startPass t :: p) k = some us) ∧
      ∀ k, (∀ p, p <+: tr₂ → mapOf (tr₁ ++ .startPass t :: p) k ≠ none) → ∃ us, (k, us) ∈ emitted t tr₂ := by
  obtain ⟨s₁, h1, h2⟩ := exec_split (tr₁ ++ .startPass t :: tr₂) _ h
  obtain ⟨s₂, hs, _⟩ := exec_cons_inv h2
  have hp := pass_inv h1 t tr₁ tr₂ rfl hone
  cases hs with
  | endPass _ i _ hpc hi =>
    have hacc := emitted_inv h1 t tr₁ tr₂ rfl hone acc (.inl ⟨i, hpc⟩)
    rw [hpc] at hp
    have hp : ShardsDone c t tr₁ tr₂ i acc := hp
    rw [← hacc]
    refine ⟨hp.nodup, fun k us hm => (hp.sound _ hm).2, fun k hk => ?_⟩
    obtain ⟨x, hx, hxk⟩ := List.mem_map.1 (hp.complete k (Nat.lt_of_lt_of_le (hc k) hi) hk)
    exact ⟨x.2, by rw [← hxk]; exact hx⟩

/-- The shards of a vector as the code chooses them (sparse.rs:43,50). -/
def Conc.ShardConf.ofHash (hash : K → Nat) (n : Nat) : ShardConf K := ⟨fun k => shardIndex (shardShift n) (hash k), n⟩

omit [DecidableEq K] in
/-- The hypothesis on the shards in `C24_pass` holds for any hash function and any number of shards that
`default_shard_amount` returns (`GoodShards`). -/
theorem C24_shards (hash : K → Nat) {n : Nat} (hn : GoodShards n) (k : K) :
    (ShardConf.ofHash hash n).shardOf k < (ShardConf.ofHash hash n).n := by
  obtain ⟨b, _, hb, hn', hs⟩ := hn
  show shardIndex (shardShift n) _ < n
  rw [hs]
  conv_rhs => rw [hn']
  exact shardIndex_lt hb _

/-! ## C25 -/

/-- Threads that release their guard before starting another operation are never all stuck: whenever an operation is
in progress or a guard is kept, some thread can go on, even if read locks are refused while a writer waits. -/
theorem C25_progress {c : ShardConf K} {tr : List (SEvent K U)} {s : SSys K U}
    (h : Exec (fun s e s' => SStep c s e s' ∧ Disciplined s e) SSys.new tr s)
    (hact : ∃ t, (s.thr t).pc ≠ .idle ∨ (s.thr t).guards ≠ []) :
    ∃ e s', SStep c s e s' ∧ Strict c s e ∧ e.finishes :=
  sparse_progress (s_inv (exec_of_disciplined h)) (snap_inv (exec_of_disciplined h)) (disciplined_guards h) hact

/-- Moreover, going on in whatever way comes to an end: there is a bound on the number of steps, and when no more step
is possible all operations are over and all guards dropped. -/
theorem C25_finish {c : ShardConf K} {tr : List (SEvent K U)} {s : SSys K U}
    (h : Exec (fun s e s' => SStep c s e s' ∧ Disciplined s e) SSys.new tr s) :
    ∃ bound, ∀ tr' s', Exec (fun s e s' => SStep c s e s' ∧ Strict c s e ∧ e.finishes) s tr' s' →
      tr'.length ≤ bound ∧
        ((∀ e s'', ¬ (SStep c s' e s'' ∧ Strict c s' e ∧ e.finishes)) → ∀ t, s'.thr t = ⟨.idle, []⟩) := by
  have hex := exec_of_disciplined h
  obtain ⟨T, hn, hT⟩ := finite_support hex
  refine ⟨sysWork c T s, fun tr' s' h' => ?_⟩
  have hfin : Exec (fun s e s' => SStep c s e s' ∧ e.finishes) s tr' s' := by
    clear hT
    induction h' with
    | nil => exact .nil
    | snoc _ hs ih => exact ih.snoc ⟨hs.1, hs.2.2⟩
  have hdis : Exec (fun s e s' => SStep c s e s' ∧ Disciplined s e) s tr' s' := by
    clear hT h' h hex
    induction hfin with
    | nil => exact .nil
    | @snoc tr' s1 e s2 _ hs ih =>
      refine ih.snoc ⟨hs.1, ?_⟩
      have := hs.2
      cases e <;> simp_all [Disciplined, SEvent.starts, SEvent.finishes]
  refine ⟨?_, ?_⟩
  · have := (finishing_bounded hn hex hT hfin).1
    omega
  · intro hstuck t
    by_contra hc
    have hact : ∃ t, (s'.thr t).pc ≠ .idle ∨ (s'.thr t).guards ≠ [] := by
      refine ⟨t, ?_⟩
      by_contra hn'
      rw [not_or, not_not, not_not] at hn'
      exact hc (by cases hth : s'.thr t; rw [hth] at hn'; simp_all)
    obtain ⟨e, s'', hs⟩ := C25_progress (exec_append h hdis) hact
    exact hstuck e s'' hs

/-- A thread that keeps a guard and looks up a missing metric of the same shard waits for itself, for ever: whatever
happens afterwards, it still waits for the write lock. -/
theorem C25_nested_blocks {c : ShardConf K} {s : SSys K U} {t : Tid} {k₁ k₂ : K} (hk : c.shardOf k₁ = c.shardOf k₂)
    (hg : k₁ ∈ (s.thr t).guards) (hp : (s.thr t).pc = .getWrite k₂) {tr : List (SEvent K U)} {s' : SSys K U}
    (h : Exec (SStep c) s tr s') : (s'.thr t).pc = .getWrite k₂ ∧ k₁ ∈ (s'.thr t).guards := by
  induction h with
  | nil => exact ⟨hp, hg⟩
  | @snoc tr s1 e s2 _ hs ih =>
    by_cases ht : t = e.tid
    · obtain ⟨ihp, ihg⟩ := ih
      cases hs with
      | update t' k u us hg hf => exact ⟨ihp, ihg⟩
      | lockWrite t' k hp' hl =>
        exfalso
        change t = t' at ht
        subst ht
        rw [ihp] at hp'
        cases hp'
        exact (hl t).2 (.inr ⟨k₁, ihg, hk⟩)
      | _ t' => change t = t' at ht; subst ht; simp_all
    · rw [step_other hs ht]; exact ih

/-- Such a state is reached with two calls of a single thread. -/
theorem C25_nested_reachable (c : ShardConf K) (k₁ k₂ : K) (hne : k₁ ≠ k₂) (hk : c.shardOf k₁ = c.shardOf k₂) :
    ∃ tr s, Exec (SStep c) (SSys.new (U := U)) tr s ∧ k₁ ∈ (s.thr 0).guards ∧ (s.thr 0).pc = .getWrite k₂ := by
  let s0 : SSys K U := SSys.new
  let s1 := s0.goto 0 (.getRead k₁)
  let s2 := s1.goto 0 (.probe k₁)
  let s3 := s2.goto 0 (.missed k₁)
  let s4 := s3.goto 0 (.getWrite k₁)
  let s5 := s4.goto 0 (.insert k₁)
  let s6 := (s5.setShard (c.shardOf k₁) [(k₁, [])]).goto 0 (.inserted k₁)
  let s7 := s6.goto 0 (.refind k₁)
  let s8 := s7.setGuards 0 .idle (k₁ :: (s7.thr 0).guards)
  let s9 := s8.goto 0 (.getRead k₂)
  let s10 := s9.goto 0 (.probe k₂)
  let s11 := s10.goto 0 (.missed k₂)
  let s12 := s11.goto 0 (.getWrite k₂)
  have hpc : ∀ u, u ≠ 0 → s4.thr u = ⟨.idle, []⟩ ∧ s1.thr u = ⟨.idle, []⟩ ∧ s9.thr u = ⟨.idle, []⟩ := by
    intro u hu
    simp [s9, s8, s7, s6, s5, s4, s3, s2, s1, s0, SSys.goto, SSys.setGuards, SSys.setShard, SSys.new, hu]
  have hthr : s9.thr 0 = ⟨.getRead k₂, [k₁]⟩ := by
    simp [s9, s8, s7, s6, s5, s4, s3, s2, s1, s0, SSys.goto, SSys.setGuards, SSys.setShard, SSys.new]
  have hthr4 : s4.thr 0 = ⟨.getWrite k₁, []⟩ := by
    simp [s4, s3, s2, s1, s0, SSys.goto, SSys.new]
  have hthr1 : s1.thr 0 = ⟨.getRead k₁, []⟩ := by simp [s1, s0, SSys.goto, SSys.new]
  have hsh5 : s5.shards = fun _ => [] := rfl
  have hsh7 : s7.shards (c.shardOf k₁) = [(k₁, [])] := by
    simp [s7, s6, s5, SSys.goto, SSys.setShard]
  have hsh10 : s10.shards (c.shardOf k₂) = [(k₁, [])] := by rw [← hk]; exact hsh7
  refine ⟨[.startGet 0 k₁, .lockR 0 (c.shardOf k₁), .silent 0, .silent 0, .lockW 0 (c.shardOf k₁), .insert 0 k₁,
    .silent 0, .acquired 0 k₁, .startGet 0 k₂, .lockR 0 (c.shardOf k₂), .silent 0, .silent 0], s12, ?_, ?_, ?_⟩
  · refine exec_cons (m := s1) (.startGet s0 0 k₁ rfl) ?_
    refine exec_cons (m := s2) (.lockRead s1 0 k₁ rfl ?_) ?_
    · intro u hu
      by_cases h0 : u = 0
      · subst h0; rw [hthr1] at hu; cases hu
      · rw [(hpc u h0).2.1] at hu; cases hu
    refine exec_cons (m := s3) (.miss s2 0 k₁ rfl rfl) ?_
    refine exec_cons (m := s4) (.missRelease s3 0 k₁ rfl) ?_
    refine exec_cons (m := s5) (.lockWrite s4 0 k₁ rfl ?_) ?_
    · intro u
      by_cases h0 : u = 0
      · subst h0
        rw [hthr4]
        refine ⟨(by intro h; cases h), ?_⟩
        rintro (h | ⟨k, hk, _⟩)
        · cases h
        · cases hk
      · rw [(hpc u h0).1]
        refine ⟨(by intro h; cases h), ?_⟩
        rintro (h | ⟨k, hk, _⟩)
        · cases h
        · cases hk
    refine exec_cons (m := s6) (.insertNew s5 0 k₁ [(k₁, [])] rfl rfl (List.Perm.refl _)) ?_
    refine exec_cons (m := s7) (.downgrade s6 0 k₁ rfl) ?_
    refine exec_cons (m := s8) (.refind s7 0 k₁ [] rfl (by rw [hsh7]; simp [findKey])) ?_
    refine exec_cons (m := s9) (.startGet s8 0 k₂ rfl) ?_
    refine exec_cons (m := s10) (.lockRead s9 0 k₂ (by rw [hthr]) ?_) ?_
    · intro u hu
      by_cases h0 : u = 0
      · subst h0; rw [hthr] at hu; cases hu
      · rw [(hpc u h0).2.2] at hu; cases hu
    refine exec_cons (m := s11) (.miss s10 0 k₂ rfl (by rw [hsh10]; simp [findKey, hne])) ?_
    exact Exec.snoc (tr := []) .nil (.missRelease s11 0 k₂ rfl)
  · simp [s12, s11, s10, s9, s8, s7, s6, s5, s4, s3, s2, s1, s0, SSys.goto, SSys.setGuards, SSys.setShard, SSys.new]
  · simp [s12, SSys.goto]

/-- Even a lookup of a present metric can block for ever when a guard is kept: if another thread waits for the write
lock of the shard and read locks are refused meanwhile, neither goes on. -/
theorem C25_nested_present_blocks {c : ShardConf K} {s : SSys K U} {t u : Tid} {k k' : K}
    (hk : c.shardOf k' = c.shardOf k) (hg : k ∈ (s.thr t).guards) (hp : (s.thr t).pc = .getRead k)
    (hu : (s.thr u).pc = .rmWrite k') {tr : List (SEvent K U)} {s' : SSys K U}
    (h : Exec (fun s e s' => SStep c s e s' ∧ Strict c s e) s tr s') :
    (s'.thr t).pc = .getRead k ∧ k ∈ (s'.thr t).guards ∧ (s'.thr u).pc = .rmWrite k' := by
  induction h with
  | nil => exact ⟨hp, hg, hu⟩
  | @snoc tr s1 e s2 _ hs ih =>
    obtain ⟨ihp, ihg, ihu⟩ := ih
    obtain ⟨hs, hstrict⟩ := hs
    by_cases hupd : ∃ t' k u, e = .update t' k u
    · obtain ⟨t', k, u, rfl⟩ := hupd
      cases hs with
      | update => exact ⟨ihp, ihg, ihu⟩
    have hupd' : ∀ t' k u, e ≠ .update t' k u := fun t' k u he => hupd ⟨t', k, u, he⟩
    clear hupd
    have h1 : t ≠ e.tid := by
      intro ht
      cases hs with
      | lockRead t' k2 hp' hl =>
        change t = t' at ht
        subst ht
        rw [ihp] at hp'
        cases hp'
        exact hstrict u ⟨k', hk, .inr ihu⟩
      | update t' k u us hg hf => exact hupd' _ _ _ rfl
      | _ t' => change t = t' at ht; subst ht; simp_all
    have h2 : u ≠ e.tid := by
      intro ht
      cases hs with
      | rmLock t' k2 hp' hl =>
        change u = t' at ht
        subst ht
        rw [ihu] at hp'
        cases hp'
        exact (hl t).2 (.inr ⟨k, ihg, hk.symm⟩)
      | update t' k u us hg hf => exact hupd' _ _ _ rfl
      | _ t' => change u = t' at ht; subst ht; simp_all
    rw [step_other hs h1, step_other hs h2]
    exact ⟨ihp, ihg, ihu⟩

/-! ## A run with two threads -/

namespace SparseExample

def conf : ShardConf Nat := ⟨fun k => k % 2, 2⟩

/-- Only threads 0 and 1 do anything. -/
def Two {U : Type} (s : SSys Nat U) : Prop := ∀ u : Nat, 2 ≤ u → s.thr u = ⟨.idle, []⟩

theorem Two.goto {U : Type} {s : SSys Nat U} (h : Two s) {t : Nat} (ht : t < 2) (p : SPc Nat U) : Two (s.goto t p) := by
  intro u hu
  show Function.update s.thr t _ u = _
  rw [Function.update_of_ne (fun he : u = t => by omega)]
  exact h u hu

theorem Two.setGuards {U : Type} {s : SSys Nat U} (h : Two s) {t : Nat} (ht : t < 2) (p : SPc Nat U) (gs : List Nat) :
    Two (s.setGuards t p gs) := by
  intro u hu
  show Function.update s.thr t _ u = _
  rw [Function.update_of_ne (fun he : u = t => by omega)]
  exact h u hu

theorem Two.setShard {U : Type} {s : SSys Nat U} (h : Two s) (i : Nat) (l : List (Nat × List U)) : Two (s.setShard i l) := h

theorem Two.canRead {U : Type} {s : SSys Nat U} (h : Two s) {i : Nat} (h0 : (s.thr 0).pc.writeLock conf ≠ some i)
    (h1 : (s.thr 1).pc.writeLock conf ≠ some i) : s.CanRead conf i := by
  intro (u : Nat) hu
  by_cases hu0 : u = 0
  · subst hu0; exact h0 hu
  by_cases hu1 : u = 1
  · subst hu1; exact h1 hu
  have hu : (s.thr u).pc.writeLock conf = some i := hu
  rw [h u (by omega)] at hu
  cases hu

theorem Two.canWrite {U : Type} {s : SSys Nat U} (h : Two s) {i : Nat} (h0 : (s.thr 0).pc.writeLock conf ≠ some i)
    (h1 : (s.thr 1).pc.writeLock conf ≠ some i) (h0' : (s.thr 0).pc.readLock conf ≠ some i)
    (h1' : (s.thr 1).pc.readLock conf ≠ some i) (g0 : ∀ k ∈ (s.thr 0).guards, conf.shardOf k ≠ i)
    (g1 : ∀ k ∈ (s.thr 1).guards, conf.shardOf k ≠ i) : s.CanWrite conf i := by
  intro (u : Nat)
  refine ⟨h.canRead h0 h1 u, ?_⟩
  rintro (hu | ⟨k, hk, hki⟩)
  · by_cases hu0 : u = 0
    · subst hu0; exact h0' hu
    by_cases hu1 : u = 1
    · subst hu1; exact h1' hu
    rw [h u (by omega)] at hu
    cases hu
  · by_cases hu0 : u = 0
    · subst hu0; exact g0 k hk hki
    by_cases hu1 : u = 1
    · subst hu1; exact g1 k hk hki
    rw [h u (by omega)] at hk
    cases hk

def tr₁ : List (SEvent Nat Nat) :=
  [.startGet 0 1, .lockR 0 1, .silent 0, .silent 0, .lockW 0 1, .insert 0 1, .silent 0, .acquired 0 1, .update 0 1 5]

def tr₂ : List (SEvent Nat Nat) := [.lockR 1 0, .silent 1, .lockR 1 1, .update 0 1 6, .emit 1 1 [5, 6], .silent 1]

def tr₃ : List (SEvent Nat Nat) :=
  [.startGet 1 3, .lockR 1 1, .silent 1, .silent 1, .release 0 1, .startRemove 0 1, .lockW 0 1,
    .remove 0 1 (some [5, 6])]

/-- Thread 0 creates metric 1 and adds 5 to it; thread 1 collects, while thread 0 adds 6. Then thread 1 looks up metric
3, which is missing, and has to wait until thread 0 drops its guard; thread 0 does so and removes metric 1. -/
theorem run : ∃ s, Exec (fun s e s' => SStep conf s e s' ∧ Disciplined s e) SSys.new
    (tr₁ ++ .startPass 1 :: tr₂ ++ .endPass 1 [(1, [5, 6])] :: tr₃) s ∧
    (s.thr 1).pc = .getWrite 3 ∧ s.shards 1 = [] := by
  let s0 : SSys Nat Nat := SSys.new
  let s1 := s0.goto 0 (.getRead 1)
  let s2 := s1.goto 0 (.probe 1)
  let s3 := s2.goto 0 (.missed 1)
  let s4 := s3.goto 0 (.getWrite 1)
  let s5 := s4.goto 0 (.insert 1)
  let s6 := (s5.setShard 1 [(1, [])]).goto 0 (.inserted 1)
  let s7 := s6.goto 0 (.refind 1)
  let s8 := s7.setGuards 0 .idle [1]
  let s9 := s8.setShard 1 [(1, [5])]
  let s10 := s9.goto 1 (.collect 0 [])
  let s11 := s10.goto 1 (.scan 0 0 [] [])
  let s12 := s11.goto 1 (.collect 1 [])
  let s13 := s12.goto 1 (.scan 1 0 [] [(1, [5])])
  let s14 := s13.setShard 1 [(1, [5, 6])]
  let s15 := s14.goto 1 (.scan 1 1 [(1, [5, 6])] [(1, [5])])
  let s16 := s15.goto 1 (.collect 2 [(1, [5, 6])])
  let s17 := s16.goto 1 .idle
  let s18 := s17.goto 1 (.getRead 3)
  let s19 := s18.goto 1 (.probe 3)
  let s20 := s19.goto 1 (.missed 3)
  let s21 := s20.goto 1 (.getWrite 3)
  let s22 := s21.setGuards 0 .idle []
  let s23 := s22.goto 0 (.rmWrite 1)
  let s24 := s23.goto 0 (.removing 1)
  let s25 := (s24.setShard 1 []).goto 0 (.removed 1)
  have w0 : Two s0 := fun _ _ => rfl
  have w1 : Two s1 := w0.goto (by decide) _
  have w4 : Two s4 := ((w1.goto (by decide) _).goto (by decide) _).goto (by decide) _
  have w6 : Two s6 := ((w4.goto (by decide) _).setShard _ _).goto (by decide) _
  have w8 : Two s8 := (w6.goto (by decide) _).setGuards (by decide) _ _
  have w10 : Two s10 := (w8.setShard _ _).goto (by decide) _
  have w12 : Two s12 := (w10.goto (by decide) _).goto (by decide) _
  have w14 : Two s14 := (w12.goto (by decide) _).setShard _ _
  have w17 : Two s17 := ((w14.goto (by decide) _).goto (by decide) _).goto (by decide) _
  have w18 : Two s18 := w17.goto (by decide) _
  have w21 : Two s21 := ((w18.goto (by decide) _).goto (by decide) _).goto (by decide) _
  have w23 : Two s23 := (w21.setGuards (by decide) _ _).goto (by decide) _
  have hd : ∀ (s : SSys Nat Nat) (e : SEvent Nat Nat), e.starts = none → Disciplined s e := by
    intro s e he t ht; rw [he] at ht; cases ht
  have hd' : ∀ (s : SSys Nat Nat) (e : SEvent Nat Nat) t, e.starts = some t → (s.thr t).guards = [] →
      Disciplined s e := by
    intro s e t he hg t' ht; rw [he] at ht; cases ht; exact hg
  refine ⟨s25, ?_, rfl, rfl⟩
  refine exec_cons (m := s1) ⟨.startGet s0 0 1 rfl, hd' _ _ 0 rfl rfl⟩ ?_
  refine exec_cons (m := s2) ⟨.lockRead s1 0 1 rfl (w1.canRead (by decide) (by decide)), hd _ _ rfl⟩ ?_
  refine exec_cons (m := s3) ⟨.miss s2 0 1 rfl rfl, hd _ _ rfl⟩ ?_
  refine exec_cons (m := s4) ⟨.missRelease s3 0 1 rfl, hd _ _ rfl⟩ ?_
  refine exec_cons (m := s5) ⟨.lockWrite s4 0 1 rfl (w4.canWrite (by decide) (by decide) (by decide) (by decide)
    (by decide) (by decide)), hd _ _ rfl⟩ ?_
  refine exec_cons (m := s6) ⟨.insertNew s5 0 1 [(1, [])] rfl rfl (List.Perm.refl _), hd _ _ rfl⟩ ?_
  refine exec_cons (m := s7) ⟨.downgrade s6 0 1 rfl, hd _ _ rfl⟩ ?_
  refine exec_cons (m := s8) ⟨.refind s7 0 1 [] rfl rfl, hd _ _ rfl⟩ ?_
  refine exec_cons (m := s9) ⟨.update s8 0 1 5 [] (by decide) rfl, hd _ _ rfl⟩ ?_
  refine exec_cons (m := s10) ⟨.startPass s9 1 rfl, hd' _ _ 1 rfl rfl⟩ ?_
  refine exec_cons (m := s11) ⟨.passLock s10 1 0 [] rfl (by decide) (w10.canRead (by decide) (by decide)),
    hd _ _ rfl⟩ ?_
  refine exec_cons (m := s12) ⟨.passNext s11 1 0 0 [] [] rfl (by decide), hd _ _ rfl⟩ ?_
  refine exec_cons (m := s13) ⟨.passLock s12 1 1 [] rfl (by decide) (w12.canRead (by decide) (by decide)),
    hd _ _ rfl⟩ ?_
  refine exec_cons (m := s14) ⟨.update s13 0 1 6 [5] (by decide) rfl, hd _ _ rfl⟩ ?_
  refine exec_cons (m := s15) ⟨.emit s14 1 1 0 [] [(1, [5])] 1 [5] [5, 6] [5, 6] rfl rfl rfl (by decide) (by decide),
    hd _ _ rfl⟩ ?_
  refine exec_cons (m := s16) ⟨.passNext s15 1 1 1 _ _ rfl (by decide), hd _ _ rfl⟩ ?_
  refine exec_cons (m := s17) ⟨.endPass s16 1 2 _ rfl (by decide), hd _ _ rfl⟩ ?_
  refine exec_cons (m := s18) ⟨.startGet s17 1 3 rfl, hd' _ _ 1 rfl rfl⟩ ?_
  refine exec_cons (m := s19) ⟨.lockRead s18 1 3 rfl (w18.canRead (by decide) (by decide)), hd _ _ rfl⟩ ?_
  refine exec_cons (m := s20) ⟨.miss s19 1 3 rfl rfl, hd _ _ rfl⟩ ?_
  refine exec_cons (m := s21) ⟨.missRelease s20 1 3 rfl, hd _ _ rfl⟩ ?_
  refine exec_cons (m := s22) ⟨.release s21 0 1 rfl (by decide), hd _ _ rfl⟩ ?_
  refine exec_cons (m := s23) ⟨.startRemove s22 0 1 rfl, hd' _ _ 0 rfl rfl⟩ ?_
  refine exec_cons (m := s24) ⟨.rmLock s23 0 1 rfl (w23.canWrite (by decide) (by decide) (by decide) (by decide)
    (by decide) (by decide)), hd _ _ rfl⟩ ?_
  exact Exec.snoc (tr := []) .nil ⟨.removeSome s24 0 1 [5, 6] [] rfl rfl (List.Perm.refl _), hd _ _ rfl⟩

/-- C23 on the run: both updates are in the removed state. -/
example : ∃ s, Exec (SStep conf) SSys.new (tr₁ ++ .startPass 1 :: tr₂ ++ .endPass 1 [(1, [5, 6])] :: tr₃) s ∧
    updatesOf 1 (tr₁ ++ .startPass 1 :: tr₂ ++ .endPass 1 [(1, [5, 6])] :: tr₃) = [5, 6] ∧
    removedOf 1 (tr₁ ++ .startPass 1 :: tr₂ ++ .endPass 1 [(1, [5, 6])] :: tr₃) = [[5, 6]] := by
  obtain ⟨s, h, _⟩ := run
  exact ⟨s, exec_of_disciplined h, by decide, by decide⟩

/-- C24 on the run: metric 1 is live throughout and is written once. -/
example : (.startPass 1 ∉ tr₂) ∧ emitted 1 tr₂ = [(1, [5, 6])] ∧ (∀ k, conf.shardOf k < conf.n) ∧
    ∀ p, p <+: tr₂ → mapOf (tr₁ ++ .startPass 1 :: p) 1 ≠ none := by
  refine ⟨by simp [tr₂], rfl, fun k => Nat.mod_lt _ (by decide), ?_⟩
  intro p hp
  have h : ∀ p ∈ tr₂.inits, mapOf (tr₁ ++ .startPass 1 :: p) 1 ≠ none := by decide
  exact h p ((List.mem_inits _ _).2 hp)

/-- C25 on the run: thread 1 waits for the write lock while thread 0 holds it; someone can go on. -/
example : ∃ s, Exec (fun s e s' => SStep conf s e s' ∧ Disciplined s e) SSys.new
    (tr₁ ++ .startPass 1 :: tr₂ ++ .endPass 1 [(1, [5, 6])] :: tr₃) s ∧
    ∃ e s', SStep conf s e s' ∧ Strict conf s e ∧ e.finishes := by
  obtain ⟨s, h, hp, _⟩ := run
  exact ⟨s, h, C25_progress h ⟨1, .inl (by rw [hp]; intro h; cases h)⟩⟩

/-- With 4 shards. -/
example : GoodShards 4 := ⟨2, by decide, by decide, by decide, by decide⟩

/-- C25: a thread keeps a guard on 1 and looks up 1 again, while another waits to remove 3. -/
example : ∃ s : SSys Nat Nat, Exec (fun s e s' => SStep conf s e s' ∧ Strict conf s e) SSys.new
    [.startGet 0 1, .lockR 0 1, .silent 0, .silent 0, .lockW 0 1, .insert 0 1, .silent 0, .acquired 0 1,
      .startRemove 1 3, .startGet 0 1] s ∧
    1 ∈ (s.thr 0).guards ∧ (s.thr 0).pc = .getRead 1 ∧ (s.thr 1).pc = .rmWrite 3 ∧
    conf.shardOf 3 = conf.shardOf 1 := by
  let s0 : SSys Nat Nat := SSys.new
  let s1 := s0.goto 0 (.getRead 1)
  let s2 := s1.goto 0 (.probe 1)
  let s3 := s2.goto 0 (.missed 1)
  let s4 := s3.goto 0 (.getWrite 1)
  let s5 := s4.goto 0 (.insert 1)
  let s6 := (s5.setShard 1 [(1, [])]).goto 0 (.inserted 1)
  let s7 := s6.goto 0 (.refind 1)
  let s8 := s7.setGuards 0 .idle [1]
  let s9 := s8.goto 1 (.rmWrite 3)
  let s10 := s9.goto 0 (.getRead 1)
  have w0 : Two s0 := fun _ _ => rfl
  have w1 : Two s1 := w0.goto (by decide) _
  have w4 : Two s4 := ((w1.goto (by decide) _).goto (by decide) _).goto (by decide) _
  refine ⟨s10, ?_, List.mem_singleton.2 rfl, rfl, rfl, rfl⟩
  refine exec_cons (m := s1) ⟨.startGet s0 0 1 rfl, trivial⟩ ?_
  refine exec_cons (m := s2) ⟨.lockRead s1 0 1 rfl (w1.canRead (by decide) (by decide)), ?_⟩ ?_
  · rintro u ⟨k, _, hk⟩
    by_cases hu0 : u = 0
    · subst hu0; rcases hk with hk | hk <;> cases hk
    · simp [s1, s0, SSys.goto, SSys.new, hu0] at hk
  refine exec_cons (m := s3) ⟨.miss s2 0 1 rfl rfl, trivial⟩ ?_
  refine exec_cons (m := s4) ⟨.missRelease s3 0 1 rfl, trivial⟩ ?_
  refine exec_cons (m := s5) ⟨.lockWrite s4 0 1 rfl (w4.canWrite (by decide) (by decide) (by decide) (by decide)
    (by decide) (by decide)), trivial⟩ ?_
  refine exec_cons (m := s6) ⟨.insertNew s5 0 1 [(1, [])] rfl rfl (List.Perm.refl _), trivial⟩ ?_
  refine exec_cons (m := s7) ⟨.downgrade s6 0 1 rfl, trivial⟩ ?_
  refine exec_cons (m := s8) ⟨.refind s7 0 1 [] rfl rfl, trivial⟩ ?_
  refine exec_cons (m := s9) ⟨.startRemove s8 1 3 rfl, trivial⟩ ?_
  exact Exec.snoc (tr := []) .nil ⟨.startGet s9 0 1 rfl, trivial⟩

end SparseExample

end Measured
