import Verif.Spec.HistVec
import Verif.Props.HistConc
import Verif.Props.SparseConc
import Verif.Proof.Live
import Verif.Proof.SparseLive

/-! A vector of histograms: every run is one in which observations are single steps. -/

namespace Measured.Conc
open Measured.Spec

variable {K U : Type}

/-! ## Forgetting what the entries record -/

def SPc.erase : SPc K U → SPc K Empty
  | .idle => .idle
  | .getRead k => .getRead k
  | .probe k => .probe k
  | .missed k => .missed k
  | .getWrite k => .getWrite k
  | .insert k => .insert k
  | .inserted k => .inserted k
  | .refind k => .refind k
  | .rmWrite k => .rmWrite k
  | .removing k => .removing k
  | .removed k => .removed k
  | .collect i acc => .collect i (eraseT acc)
  | .scan i j acc snap => .scan i j (eraseT acc) (eraseT snap)
  | .panicked => .panicked

def SThread.erase (th : SThread K U) : SThread K Empty := ⟨th.pc.erase, th.guards⟩

def SSys.erase (s : SSys K U) : SSys K Empty := ⟨fun i => eraseT (s.shards i), fun t => (s.thr t).erase⟩

variable [DecidableEq K]

theorem findKey_eraseT (k : K) (l : List (K × List U)) : findKey k (eraseT l) = (findKey k l).map fun _ => [] := by
  induction l with
  | nil => rfl
  | cons e l ih =>
    show findKey k ((e.1, []) :: eraseT l) = _
    rw [findKey, findKey]
    split
    · rfl
    · exact ih

omit [DecidableEq K] in
theorem erase_readLock (c : ShardConf K) (p : SPc K U) : p.erase.readLock c = p.readLock c := by cases p <;> rfl

omit [DecidableEq K] in
theorem erase_writeLock (c : ShardConf K) (p : SPc K U) : p.erase.writeLock c = p.writeLock c := by cases p <;> rfl

omit [DecidableEq K] in
theorem erase_holdsR {c : ShardConf K} {th : SThread K U} {i : Nat} : th.erase.HoldsR c i ↔ th.HoldsR c i := by
  unfold SThread.HoldsR SThread.erase
  rw [erase_readLock]

omit [DecidableEq K] in
theorem erase_holdsW {c : ShardConf K} {th : SThread K U} {i : Nat} : th.erase.HoldsW c i ↔ th.HoldsW c i := by
  unfold SThread.HoldsW SThread.erase
  rw [erase_writeLock]

omit [DecidableEq K] in
theorem erase_canRead {c : ShardConf K} {s : SSys K U} {i : Nat} : s.erase.CanRead c i ↔ s.CanRead c i :=
  forall_congr' fun _ => not_congr erase_holdsW

omit [DecidableEq K] in
theorem erase_canWrite {c : ShardConf K} {s : SSys K U} {i : Nat} : s.erase.CanWrite c i ↔ s.CanWrite c i :=
  forall_congr' fun _ => and_congr (not_congr erase_holdsW) (not_congr erase_holdsR)

omit [DecidableEq K] in
theorem erase_setGuards (s : SSys K U) (t : Tid) (p : SPc K U) (gs : List K) :
    (s.setGuards t p gs).erase = s.erase.setGuards t p.erase gs := by
  simp only [SSys.erase, SSys.setGuards]
  congr 1
  funext u
  by_cases hu : u = t
  · subst hu; simp [SThread.erase]
  · simp [hu]

omit [DecidableEq K] in
theorem erase_goto (s : SSys K U) (t : Tid) (p : SPc K U) : (s.goto t p).erase = s.erase.goto t p.erase :=
  erase_setGuards s t p _

omit [DecidableEq K] in
theorem erase_setShard (s : SSys K U) (i : Nat) (l : List (K × List U)) :
    (s.setShard i l).erase = s.erase.setShard i (eraseT l) := by
  simp only [SSys.erase, SSys.setShard]
  congr 1
  funext u
  by_cases hu : u = i
  · subst hu; simp
  · simp [hu]

/-- A permutation of the erased table comes from one of the table. -/
theorem perm_map_lift {α β : Type} (f : α → β) {l : List β} {l₀ : List α} (h : l.Perm (l₀.map f)) :
    ∃ l' : List α, l'.Perm l₀ ∧ l'.map f = l := by
  generalize hm : l₀.map f = m at h
  induction h generalizing l₀ with
  | nil => exact ⟨[], by rw [List.map_eq_nil_iff.1 hm], rfl⟩
  | @cons x l m _ ih =>
    obtain ⟨y, l₁, rfl, rfl, hm'⟩ := List.map_eq_cons_iff.1 hm
    obtain ⟨l', h1, rfl⟩ := ih hm'
    exact ⟨y :: l', h1.cons y, rfl⟩
  | swap x y l =>
    obtain ⟨a, l₁, rfl, rfl, hm'⟩ := List.map_eq_cons_iff.1 hm
    obtain ⟨b, l₂, rfl, rfl, rfl⟩ := List.map_eq_cons_iff.1 hm'
    exact ⟨b :: a :: l₂, .swap a b l₂, rfl⟩
  | trans _ _ ih1 ih2 =>
    obtain ⟨l', h1, rfl⟩ := ih2 hm
    obtain ⟨l'', h2, rfl⟩ := ih1 rfl
    exact ⟨l'', h2.trans h1, rfl⟩

/-- What is removed or written is the entry of the moment. -/
def SEvent.AtNow (c : ShardConf K) (a : SSys K U) : SEvent K U → Prop
  | .emit _ k us => findKey k (a.shards (c.shardOf k)) = some us
  | .remove _ k (some us) => findKey k (a.shards (c.shardOf k)) = some us
  | .update .. => False
  | _ => True

/-- A step of the map without records is a step of the map with them. -/
theorem erase_step {c : ShardConf K} {tr : List (SEvent K U)} {a : SSys K U} {e : SEvent K Empty} {v : SSys K Empty}
    (hi : SInv c tr a)
    (hsnap : ∀ t i j acc snap, (a.thr t).pc = .scan i j acc snap → SnapOk (a.shards i) snap)
    (hs : SStep c a.erase e v) : ∃ e' a', SStep c a e' a' ∧ a'.erase = v ∧ e'.erase = e ∧ e'.AtNow c a := by
  have hinv : ∀ t, ((a.erase).thr t).pc = (a.thr t).pc.erase := fun _ => rfl
  have hnone : ∀ k i, findKey k (a.erase.shards i) = none → findKey k (a.shards i) = none := by
    intro k i h
    rw [show a.erase.shards i = eraseT (a.shards i) from rfl, findKey_eraseT] at h
    simpa using h
  have hsome : ∀ k i us, findKey k (a.erase.shards i) = some us → ∃ us, findKey k (a.shards i) = some us := by
    intro k i us h
    rw [show a.erase.shards i = eraseT (a.shards i) from rfl, findKey_eraseT] at h
    cases hf : findKey k (a.shards i) with
    | none => rw [hf] at h; cases h
    | some us => exact ⟨us, rfl⟩
  cases hs with
  | startGet t k h =>
    rw [hinv] at h
    cases hp : (a.thr t).pc <;> rw [hp] at h <;> cases h
    exact ⟨_, _, .startGet a t k hp, erase_goto .., rfl, trivial⟩
  | lockRead t k h hl =>
    rw [hinv] at h
    cases hp : (a.thr t).pc <;> rw [hp] at h <;> cases h
    exact ⟨_, _, .lockRead a t k hp (erase_canRead.1 hl), erase_goto .., rfl, trivial⟩
  | hit t k us h hf =>
    rw [hinv] at h
    obtain ⟨us', hf'⟩ := hsome _ _ _ hf
    cases hp : (a.thr t).pc <;> rw [hp] at h <;> cases h
    exact ⟨_, _, .hit a t k us' hp hf', erase_setGuards .., rfl, trivial⟩
  | miss t k h hf =>
    rw [hinv] at h
    cases hp : (a.thr t).pc <;> rw [hp] at h <;> cases h
    exact ⟨_, _, .miss a t k hp (hnone _ _ hf), erase_goto .., rfl, trivial⟩
  | missRelease t k h =>
    rw [hinv] at h
    cases hp : (a.thr t).pc <;> rw [hp] at h <;> cases h
    exact ⟨_, _, .missRelease a t k hp, erase_goto .., rfl, trivial⟩
  | lockWrite t k h hl =>
    rw [hinv] at h
    cases hp : (a.thr t).pc <;> rw [hp] at h <;> cases h
    exact ⟨_, _, .lockWrite a t k hp (erase_canWrite.1 hl), erase_goto .., rfl, trivial⟩
  | insertFound t k us h hf =>
    rw [hinv] at h
    obtain ⟨us', hf'⟩ := hsome _ _ _ hf
    cases hp : (a.thr t).pc <;> rw [hp] at h <;> cases h
    exact ⟨_, _, .insertFound a t k us' hp hf', erase_goto .., rfl, trivial⟩
  | insertNew t k l h hf hl =>
    rw [hinv] at h
    obtain ⟨l', h1, h2⟩ := perm_map_lift (f := fun e : K × List U => (e.1, ([] : List Empty)))
      (l₀ := (k, []) :: a.shards (c.shardOf k)) hl
    cases hp : (a.thr t).pc <;> rw [hp] at h <;> cases h
    refine ⟨_, _, .insertNew a t k l' hp (hnone _ _ hf) h1, ?_, rfl, trivial⟩
    rw [erase_goto, erase_setShard, show eraseT l' = l from h2]
    rfl
  | downgrade t k h =>
    rw [hinv] at h
    cases hp : (a.thr t).pc <;> rw [hp] at h <;> cases h
    exact ⟨_, _, .downgrade a t k hp, erase_goto .., rfl, trivial⟩
  | refind t k us h hf =>
    rw [hinv] at h
    obtain ⟨us', hf'⟩ := hsome _ _ _ hf
    cases hp : (a.thr t).pc <;> rw [hp] at h <;> cases h
    exact ⟨_, _, .refind a t k us' hp hf', erase_setGuards .., rfl, trivial⟩
  | refindPanic t k h hf =>
    rw [hinv] at h
    cases hp : (a.thr t).pc <;> rw [hp] at h <;> cases h
    exact ⟨_, _, .refindPanic a t k hp (hnone _ _ hf), erase_goto .., rfl, trivial⟩
  | update t k u => exact u.elim
  | dangling t k h hg hf =>
    rw [hinv] at h
    cases hp : (a.thr t).pc <;> rw [hp] at h <;> cases h
    exact ⟨_, _, .dangling a t k hp hg (hnone _ _ hf), erase_goto .., rfl, trivial⟩
  | release t k h hg =>
    rw [hinv] at h
    cases hp : (a.thr t).pc <;> rw [hp] at h <;> cases h
    exact ⟨_, _, .release a t k hp hg, erase_setGuards .., rfl, trivial⟩
  | startRemove t k h =>
    rw [hinv] at h
    cases hp : (a.thr t).pc <;> rw [hp] at h <;> cases h
    exact ⟨_, _, .startRemove a t k hp, erase_goto .., rfl, trivial⟩
  | rmLock t k h hl =>
    rw [hinv] at h
    cases hp : (a.thr t).pc <;> rw [hp] at h <;> cases h
    exact ⟨_, _, .rmLock a t k hp (erase_canWrite.1 hl), erase_goto .., rfl, trivial⟩
  | removeSome t k us l h hf hl =>
    rw [hinv] at h
    obtain ⟨us', hf'⟩ := hsome _ _ _ hf
    have hus : us = [] := by cases us with
      | nil => rfl
      | cons u _ => exact u.elim
    subst hus
    obtain ⟨l', h1, h2⟩ := perm_map_lift (f := fun e : K × List U => (e.1, ([] : List Empty))) hl
    obtain ⟨⟨k', us₁⟩, l₁, rfl, hk, h3⟩ := List.map_eq_cons_iff.1 h2
    simp only [Prod.mk.injEq, and_true] at hk
    subst hk
    have hus : us₁ = us' := by
      have := findKey_mem (hi.nodup _) (h1.mem_iff.1 List.mem_cons_self)
      rw [hf'] at this
      cases this; rfl
    subst hus
    cases hp : (a.thr t).pc <;> rw [hp] at h <;> cases h
    refine ⟨_, _, .removeSome a t k' us₁ l₁ hp hf' h1, ?_, rfl, hf'⟩
    rw [erase_goto, erase_setShard, show eraseT l₁ = l from h3]
    rfl
  | removeNone t k h hf =>
    rw [hinv] at h
    cases hp : (a.thr t).pc <;> rw [hp] at h <;> cases h
    exact ⟨_, _, .removeNone a t k hp (hnone _ _ hf), erase_goto .., rfl, trivial⟩
  | rmRelease t k h =>
    rw [hinv] at h
    cases hp : (a.thr t).pc <;> rw [hp] at h <;> cases h
    exact ⟨_, _, .rmRelease a t k hp, erase_goto .., rfl, trivial⟩
  | startPass t h =>
    rw [hinv] at h
    cases hp : (a.thr t).pc <;> rw [hp] at h <;> cases h
    exact ⟨_, _, .startPass a t hp, erase_goto .., rfl, trivial⟩
  | passLock t i acc h hin hl =>
    rw [hinv] at h
    cases hp : (a.thr t).pc <;> rw [hp] at h <;> cases h
    exact ⟨_, _, .passLock a t _ _ hp hin (erase_canRead.1 hl), erase_goto .., rfl, trivial⟩
  | emit t i j acc snap k old us cur h hc ho h1 h2 =>
    rw [hinv] at h
    cases hp : (a.thr t).pc <;> rw [hp] at h <;> cases h
    have hc : ((a.shards i).map fun e => (e.1, ([] : List Empty)))[j]? = some (k, cur) := hc
    rw [List.getElem?_map, Option.map_eq_some_iff] at hc
    obtain ⟨⟨k', cur'⟩, hc', he⟩ := hc
    simp only [Prod.mk.injEq] at he
    obtain ⟨rfl, _⟩ := he
    obtain ⟨old', ho', hpre⟩ := (hsnap t i j _ _ hp).get hc'
    have hus : us = [] := by cases us with
      | nil => rfl
      | cons u _ => exact u.elim
    subst hus
    have hm : (k', cur') ∈ a.shards i := List.mem_of_getElem? hc'
    refine ⟨_, _, .emit a t i j _ _ k' old' cur' cur' hp hc' ho' hpre (List.prefix_refl _), ?_, rfl, ?_⟩
    · rw [erase_goto]
      simp [SPc.erase, eraseT]
    · show findKey k' (a.shards (c.shardOf k')) = some cur'
      rw [hi.place i _ hm]
      exact findKey_mem (hi.nodup i) hm
  | abort t i j acc snap h =>
    rw [hinv] at h
    cases hp : (a.thr t).pc <;> rw [hp] at h <;> cases h
    exact ⟨_, _, .abort a t _ _ _ _ hp, erase_goto .., rfl, trivial⟩
  | passNext t i j acc snap h hj =>
    rw [hinv] at h
    cases hp : (a.thr t).pc <;> rw [hp] at h <;> cases h
    refine ⟨_, _, .passNext a t _ _ _ _ hp ?_, erase_goto .., rfl, trivial⟩
    simpa [SSys.erase, eraseT] using hj
  | endPass t i acc h hin =>
    rw [hinv] at h
    cases hp : (a.thr t).pc <;> rw [hp] at h <;> cases h
    exact ⟨_, _, .endPass a t _ _ hp hin, erase_goto .., rfl, trivial⟩

/-! ## The invariant -/

/-- A thread is in `observe` only with a guard and in `sample` only in front of the entry. -/
def Busy (a : SSys K HistCall) (k : K) (t : Tid) (p : HistPc) : Prop :=
  p = .idle ∨ (p.ofSampler = false ∧ (a.thr t).pc = .idle ∧ k ∈ (a.thr t).guards) ∨
    (p.ofSampler = true ∧ ∃ i j acc snap us, (a.thr t).pc = .scan i j acc snap ∧ (a.shards i)[j]? = some (k, us))

/-- `a` is the map of single-step histograms that the vector stands for. -/
structure HVInv (c : ShardConf K) (le : List F64) (tr : List (HVEvent K)) (tr' : List (SEvent K HistCall))
    (a : SSys K HistCall) (s : HVSys K) : Prop where
  exec : Exec (SStep c) SSys.new tr' a
  vec : a.erase = s.vec
  busy : ∀ k t, Busy a k t ((s.hist k).pc t)
  hist : ∀ k us, mapOf tr' k = some us → ∃ htr, Exec (HistStep le) (HistSys.new le.length) htr (s.hist k) ∧
    (sums htr).map Prod.snd = us.map HistCall.value ∧ finishedOf tr k = some ((dones htr).map Prod.snd)
  gone : ∀ k, mapOf tr' k = none → finishedOf tr k = none

theorem finishedOf_snoc (tr : List (HVEvent K)) (e : HVEvent K) :
    finishedOf (tr ++ [e]) = finishedAfter (finishedOf tr) e := by
  simp [finishedOf, List.foldl_append]

/-- While somebody has the write lock of its shard, nobody is busy with the histogram. -/
theorem HVInv.alone {c : ShardConf K} {le : List F64} {tr : List (HVEvent K)} {tr' : List (SEvent K HistCall)}
    {a : SSys K HistCall} {s : HVSys K} (h : HVInv c le tr tr' a s) {k : K} {t : Tid}
    (hw : (a.thr t).HoldsW c (c.shardOf k)) (u : Tid) : (s.hist k).pc u = .idle := by
  have hi := s_inv h.exec
  have hno := (hi.excl t _ hw).1 u
  rcases h.busy k u with hb | ⟨_, _, hg⟩ | ⟨_, i, j, acc, snap, us, hp, hk⟩
  · exact hb
  · exact absurd (.inr ⟨k, hg, rfl⟩) hno
  · refine absurd (.inl ?_) hno
    rw [hp, ← hi.place i _ (List.mem_of_getElem? hk)]
    rfl

/-- A histogram that nobody is busy with holds exactly the observations that are over. -/
theorem hist_quiet {le : List F64} {htr : List HistEvent} {h : HistSys}
    (hx : Exec (HistStep le) (HistSys.new le.length) htr h) (hq : ∀ u, h.pc u = .idle) :
    HistOf le ((sums htr).map Prod.snd) h.inner ∧ ((sums htr).map Prod.snd).Perm ((dones htr).map Prod.snd) := by
  have hi := (hist_inv hx).1
  have hb : (bumps htr).Perm (dones htr) := perm_of_threads fun u => by
    rw [hi.pendB u, hq u]; exact List.append_nil _
  have hsm : (sums htr).Perm (dones htr) := perm_of_threads fun u => by
    rw [hi.pendS u, hq u]; exact List.append_nil _
  refine ⟨?_, hsm.map _⟩
  obtain ⟨h', g1, g2, g3⟩ := observeAll_counted le ((sums htr).map Prod.snd) [] _ (counted_default le)
  unfold HistOf
  rw [g1]
  congr 1
  refine counted_unique g2 (counted_perm ?_ hi.counted) ?_
  · exact (hb.trans hsm.symm).map _
  · rw [g3, hi.sum]; rfl

/-- An entry in front of which another thread is stays where it is. -/
theorem scan_stays {c : ShardConf K} {tr : List (SEvent K U)} {a a' : SSys K U} {e : SEvent K U} (hi : SInv c tr a)
    (hs : SStep c a e a') {u : Tid} {i j : Nat} {acc snap : List (K × List U)} {k : K} {us : List U}
    (hp : (a.thr u).pc = .scan i j acc snap) (hk : (a.shards i)[j]? = some (k, us)) :
    ∃ us', (a'.shards i)[j]? = some (k, us') := by
  have hother : ∀ i' l, i ≠ i' → ∃ us', (Function.update a.shards i' l i)[j]? = some (k, us') := fun i' l h =>
    ⟨us, by rw [Function.update_of_ne h]; exact hk⟩
  cases hs with
  | insertNew t' k' l hp' hf hl =>
    refine hother _ _ fun he => ?_
    refine (hi.excl t' (c.shardOf k') (by show (a.thr t').pc.writeLock c = _; rw [hp']; rfl)).1 u (.inl ?_)
    rw [hp, ← he]; rfl
  | removeSome t' k' us' l hp' hf hl =>
    refine hother _ _ fun he => ?_
    refine (hi.excl t' (c.shardOf k') (by show (a.thr t').pc.writeLock c = _; rw [hp']; rfl)).1 u (.inl ?_)
    rw [hp, ← he]; rfl
  | update t' k' x us' hg hf =>
    by_cases he : i = c.shardOf k'
    · subst he
      show ∃ us', (Function.update a.shards _ _ _)[j]? = some (k, us')
      rw [Function.update_self, addUpdate, List.getElem?_map, hk]
      simp only [Option.map_some]
      split
      · exact ⟨_, rfl⟩
      · exact ⟨_, rfl⟩
    · exact hother _ _ he
  | _ => exact ⟨us, hk⟩

/-- A step on the map by a thread that is in no histogram disturbs nobody. -/
theorem busy_step {c : ShardConf K} {tr : List (SEvent K HistCall)} {a a' : SSys K HistCall}
    {e : SEvent K HistCall} (hi : SInv c tr a) (hs : SStep c a e a') {k : K} {t : Tid} {p : HistPc}
    (hb : Busy a k t p) (hidle : t = e.tid → p = .idle) : Busy a' k t p := by
  by_cases ht : t = e.tid
  · exact .inl (hidle ht)
  · rcases hb with hb | ⟨h1, h2, h3⟩ | ⟨h1, i, j, acc, snap, us, h2, h3⟩
    · exact .inl hb
    · exact .inr (.inl ⟨h1, by rw [step_other hs ht]; exact h2, by rw [step_other hs ht]; exact h3⟩)
    · obtain ⟨us', h4⟩ := scan_stays hi hs h2 h3
      exact .inr (.inr ⟨h1, i, j, acc, snap, us', by rw [step_other hs ht]; exact h2, h4⟩)

omit [DecidableEq K] in
theorem erase_tid (e : SEvent K U) : e.erase.tid = e.tid := by cases e <;> rfl

theorem sampler_event {le : List F64} {s h : HistSys} {e : HistEvent} (hs : HistStep le s e h)
    (h1 : (h.pc e.tid).ofSampler = true) : sums [e] = [] ∧ dones [e] = [] := by
  cases hs <;> first
    | exact ⟨rfl, rfl⟩
    | (simp [HistEvent.tid, HistPc.ofSampler, HistSys.goto] at h1)

/-- The collecting thread writes a sample: it has exactly the observations that are over. -/
theorem hv_step_emit {c : ShardConf K} {le : List F64} {tr : List (HVEvent K)} {tr' : List (SEvent K HistCall)}
    {a : SSys K HistCall} {s : HVSys K} {t : Tid} {k : K} {r : List Nat × Nat × F64} {hh : HistSys} {v : SSys K Empty}
    (w : F64 → HistCall) (h : HVInv c le tr tr' a s) (hv : HistStep le (s.hist k) (.sample t r) hh)
    (hv' : SStep c s.vec (.emit t k []) v) :
    ∃ us xs a', mapOf tr' k = some us ∧ finishedOf tr k = some xs ∧ (us.map HistCall.value).Perm xs ∧
      HVShowsBy w le (.emit t k r) [.emit t k us] ∧ Exec (SStep c) a [.emit t k us] a' ∧
      HVInv c le (tr ++ [.emit t k r]) (tr' ++ [.emit t k us]) a' ⟨v, Function.update s.hist k hh⟩ := by
  have hi := s_inv h.exec
  have hsnap := fun t i j acc snap => snap_inv h.exec t i j acc snap
  rw [← h.vec] at hv'
  obtain ⟨e', a', h1, h2, h3, h4⟩ := erase_step hi hsnap hv'
  cases e' with
  | emit t' k' us =>
    cases h3
    have h4 : findKey k (a.shards (c.shardOf k)) = some us := h4
    rw [hi.abs] at h4
    obtain ⟨htr, x1, x2, x3⟩ := h.hist k us h4
    obtain ⟨st, z1, z2, z3⟩ := sample_is (tr' := []) (x1.snoc hv)
    have hmap : mapOf (tr' ++ [.emit t k us]) = mapOf tr' := by rw [mapOf_snoc]; rfl
    refine ⟨us, _, a', h4, x3, by rw [← x2, ← completed_eq]; exact z1, ?_, Exec.nil.snoc h1, h.exec.snoc h1, h2, ?_, ?_, ?_⟩
    · rw [← z3]
      refine .emit t k us st ?_
      rw [← x2]
      exact z2
    · have hidle : ∀ k', (Function.update s.hist k hh k').pc t = .idle := by
        intro k'
        by_cases hk : k' = k
        · subst hk
          rw [Function.update_self]
          cases hv with
          | unlockWrite => exact Function.update_self _ _ _
        · rw [Function.update_of_ne hk]
          cases h1 with
          | emit _ i j acc snap _ old _ cur hp hc ho _ _ =>
            rcases h.busy k' t with hb | ⟨_, hb, _⟩ | ⟨_, i', j', acc', snap', us', hb, hb'⟩
            · exact hb
            · rw [hp] at hb; cases hb
            · rw [hp] at hb
              cases hb
              rw [hc] at hb'
              cases hb'
              exact absurd rfl hk
      intro k' t'
      show Busy a' k' t' ((Function.update s.hist k hh k').pc t')
      by_cases htt : t' = t
      · subst htt; exact .inl (hidle k')
      · have hpc : (Function.update s.hist k hh k').pc t' = (s.hist k').pc t' := by
          by_cases hk : k' = k
          · subst hk; rw [Function.update_self]; exact hist_other hv htt
          · rw [Function.update_of_ne hk]
        rw [hpc]
        exact busy_step hi h1 (h.busy k' t') fun ht => absurd ht htt
    · intro k' us' hm
      rw [hmap] at hm
      rw [finishedOf_snoc]
      by_cases hk : k' = k
      · subst hk
        rw [h4] at hm
        cases hm
        dsimp only
        rw [Function.update_self]
        exact ⟨htr ++ [.sample t r], x1.snoc hv, by rw [sums_append]; simpa [sums] using x2, by
          rw [dones_append]; simpa [dones, finishedAfter] using x3⟩
      dsimp only
      · rw [Function.update_of_ne hk]
        exact h.hist k' us' hm
    · intro k' hm
      rw [hmap] at hm
      rw [finishedOf_snoc]
      exact h.gone k' hm
  | _ => cases h3

theorem hv_step_by {c : ShardConf K} {le : List F64} {tr : List (HVEvent K)} {tr' : List (SEvent K HistCall)}
    {a : SSys K HistCall} {s s' : HVSys K} {e : HVEvent K} {w : F64 → HistCall} (hw : ∀ x, HistCall.value (w x) = x)
    (h : HVInv c le tr tr' a s) (hs : HVStep c le s e s') :
    ∃ part a', HVShowsBy w le e part ∧ Exec (SStep c) a part a' ∧ HVInv c le (tr ++ [e]) (tr' ++ part) a' s' := by
  have hi := s_inv h.exec
  have hsnap := fun t i j acc snap => snap_inv h.exec t i j acc snap
  have hvec := h.vec
  cases hs with
  | vec e v hv he hq =>
    rw [← h.vec] at hv
    obtain ⟨e', a', h1, h2, h3, h4⟩ := erase_step hi hsnap hv
    have hmap : mapOf (tr' ++ [e']) = mapOf tr' := by
      rw [mapOf_snoc]
      subst h3
      cases e' with
      | insert => cases he
      | update => exact h4.elim
      | remove t k r =>
        cases r with
        | none =>
          have hok : none = mapOf tr' k := (sstep_inv hi h1).2
          funext k'
          simp only [mapAfter]
          split
          · rename_i hk; rw [hk]; exact hok
          · rfl
        | some us => cases he
      | _ => rfl
    have hfin : finishedOf (tr ++ [.vec e]) = finishedOf tr := by
      rw [finishedOf_snoc]
      cases e <;> first | rfl | cases he
    refine ⟨[e'], a', .vec e e' h3 ?_ ?_ ?_, Exec.nil.snoc h1, h.exec.snoc h1, h2, ?_, ?_, ?_⟩
    · rintro t k x rfl; exact h4
    · rintro t k us rfl; subst h3; cases he
    · rintro t k us rfl; subst h3; cases he
    · intro k t
      refine busy_step hi h1 (h.busy k t) fun ht => ?_
      rw [ht, ← erase_tid, h3]
      exact hq k
    · rw [hmap, hfin]; exact h.hist
    · rw [hmap, hfin]; exact h.gone
  | insert t k v hv hq =>
    rw [← h.vec] at hv
    obtain ⟨e', a', h1, h2, h3, h4⟩ := erase_step hi hsnap hv
    cases e' <;> cases h3
    have hwl : (a.thr t).HoldsW c (c.shardOf k) := by
      cases h1 with
      | insertNew _ _ l hp => show (a.thr t).pc.writeLock c = _; rw [hp]; rfl
    have hnew : (⟨HistInner.default le.length, (s.hist k).pc⟩ : HistSys) = HistSys.new le.length := by
      unfold HistSys.new
      congr 1
      funext u
      exact h.alone hwl u
    refine ⟨[.insert t k], a', .vec _ _ rfl (by simp) (by simp) (by simp), Exec.nil.snoc h1, h.exec.snoc h1, h2, ?_, ?_, ?_⟩
    · intro k' t'
      have hpc : (Function.update s.hist k ⟨HistInner.default le.length, (s.hist k).pc⟩ k').pc t' = (s.hist k').pc t' := by
        by_cases hk : k' = k
        · subst hk; rw [Function.update_self]
        · rw [Function.update_of_ne hk]
      show Busy a' k' t' ((Function.update s.hist k ⟨HistInner.default le.length, (s.hist k).pc⟩ k').pc t')
      rw [hpc]
      refine busy_step hi h1 (h.busy k' t') fun ht => ?_
      rw [ht]; exact hq k'
    · intro k' us hm
      rw [mapOf_snoc] at hm
      rw [finishedOf_snoc]
      simp only [mapAfter, finishedAfter] at hm ⊢
      by_cases hk : k' = k
      · subst hk
        rw [if_pos rfl] at hm ⊢
        cases hm
        refine ⟨[], ?_, rfl, rfl⟩
        rw [Function.update_self, hnew]
        exact .nil
      · rw [if_neg hk] at hm ⊢
        rw [Function.update_of_ne hk]
        exact h.hist k' us hm
    · intro k' hm
      rw [mapOf_snoc] at hm
      rw [finishedOf_snoc]
      simp only [mapAfter, finishedAfter] at hm ⊢
      by_cases hk : k' = k
      · rw [if_pos hk] at hm; cases hm
      · rw [if_neg hk] at hm ⊢; exact h.gone k' hm
  | remove t k v hv hq =>
    rw [← h.vec] at hv
    obtain ⟨e', a', h1, h2, h3, h4⟩ := erase_step hi hsnap hv
    cases e' with
    | remove t' k' r =>
      cases r with
      | none => cases h3
      | some us =>
        cases h3
        have hwl : (a.thr t).HoldsW c (c.shardOf k) := by
          cases h1 with
          | removeSome _ _ _ l hp => show (a.thr t).pc.writeLock c = _; rw [hp]; rfl
        have h4 : findKey k (a.shards (c.shardOf k)) = some us := h4
        rw [hi.abs] at h4
        obtain ⟨htr, x1, x2, x3⟩ := h.hist k us h4
        have hx := (hist_quiet x1 (h.alone hwl)).1
        refine ⟨[.remove t k (some us)], a', .removed t k us _ ?_, Exec.nil.snoc h1, h.exec.snoc h1, h2, ?_, ?_, ?_⟩
        · rw [← x2]; exact hx
        · intro k' t'
          refine busy_step hi h1 (h.busy k' t') fun ht => ?_
          rw [ht]; exact hq k'
        · intro k' us' hm
          rw [mapOf_snoc] at hm
          rw [finishedOf_snoc]
          simp only [mapAfter, finishedAfter] at hm ⊢
          by_cases hk : k' = k
          · rw [if_pos hk] at hm; cases hm
          · rw [if_neg hk] at hm ⊢; exact h.hist k' us' hm
        · intro k' hm
          rw [mapOf_snoc] at hm
          rw [finishedOf_snoc]
          simp only [mapAfter, finishedAfter] at hm ⊢
          by_cases hk : k' = k
          · rw [if_pos hk]
          · rw [if_neg hk] at hm ⊢; exact h.gone k' hm
    | _ => cases h3
  | observe t k e hh hv ht hp hg hq h0 h1 =>
    subst ht
    rw [← h.vec] at hp hg
    have hp' : (a.thr e.tid).pc = .idle := by
      cases hp' : (a.thr e.tid).pc <;> rw [show (a.erase.thr e.tid).pc = (a.thr e.tid).pc.erase from rfl, hp'] at hp <;>
        cases hp
    obtain ⟨us, hus⟩ := Option.ne_none_iff_exists'.1 ((hi.ok e.tid).guards k hg)
    have hm : mapOf tr' k = some us := by rw [← hi.abs]; exact hus
    obtain ⟨htr, x1, x2, x3⟩ := h.hist k us hm
    have hbusy : ∀ k' t', Busy a k' t' ((Function.update s.hist k hh k').pc t') := by
      intro k' t'
      by_cases hk : k' = k
      · subst hk
        rw [Function.update_self]
        by_cases htt : t' = e.tid
        · subst htt; exact .inr (.inl ⟨h1, hp', hg⟩)
        · rw [hist_other hv htt]; exact h.busy k' t'
      · rw [Function.update_of_ne hk]; exact h.busy k' t'
    by_cases hsum : ∃ u x, e = .summed u x
    · obtain ⟨u, x, rfl⟩ := hsum
      have hstep := SStep.update (c := c) a u k (w x) us hg hus
      refine ⟨[.update u k (w x)], _, .observed u k x, Exec.nil.snoc hstep, h.exec.snoc hstep, ?_, ?_, ?_, ?_⟩
      · rw [erase_setShard, ← h.vec]
        have : eraseT (addUpdate k (w x) (a.shards (c.shardOf k))) = eraseT (a.shards (c.shardOf k)) := by
          unfold eraseT addUpdate
          rw [List.map_map]
          refine List.map_congr_left fun q _ => ?_
          simp only [Function.comp_apply]
          split <;> rfl
        rw [this]
        simp [SSys.setShard, SSys.erase]
      · intro k' t'
        rcases hbusy k' t' with hb | hb | ⟨hb, i, j, acc, snap, us, h2, h3⟩
        · exact .inl hb
        · exact .inr (.inl hb)
        · obtain ⟨us', h4⟩ := scan_stays hi hstep h2 h3
          exact .inr (.inr ⟨hb, i, j, acc, snap, us', h2, h4⟩)
      · intro k' us' hm'
        rw [mapOf_snoc] at hm'
        rw [finishedOf_snoc]
        simp only [mapAfter, finishedAfter] at hm' ⊢
        by_cases hk : k' = k
        · subst hk
          rw [if_pos rfl, hm] at hm'
          cases hm'
          rw [Function.update_self]
          refine ⟨htr ++ [.summed u x], x1.snoc hv, ?_, ?_⟩
          · rw [sums_append, List.map_append, x2, List.map_append]; simp [sums, hw]
          · rw [dones_append, x3]; simp [dones]
        · rw [if_neg hk] at hm'
          rw [Function.update_of_ne hk]
          exact h.hist k' us' hm'
      · intro k' hm'
        rw [mapOf_snoc] at hm'
        rw [finishedOf_snoc]
        simp only [mapAfter, finishedAfter] at hm' ⊢
        by_cases hk : k' = k
        · subst hk; rw [if_pos rfl, hm] at hm'; cases hm'
        · rw [if_neg hk] at hm'; exact h.gone k' hm'
    · have hno : ∀ u x, e ≠ .summed u x := fun u x he => hsum ⟨u, x, he⟩
      refine ⟨[], a, .observing _ k e hno, .nil, by simpa using h.exec, h.vec, hbusy, ?_, ?_⟩
      · intro k' us' hm'
        rw [List.append_nil] at hm'
        rw [finishedOf_snoc]
        by_cases hk : k' = k
        · subst hk
          rw [hm] at hm'
          cases hm'
          dsimp only
          rw [Function.update_self]
          refine ⟨htr ++ [e], x1.snoc hv, ?_, ?_⟩
          · rw [sums_append, List.map_append, x2]
            cases e with
            | summed u x => exact absurd rfl (hno u x)
            | _ => exact List.append_nil _
          · cases e with
            | done u x => simp [finishedAfter, x3, dones_append, dones]
            | _ => simp [finishedAfter, x3, dones_append, dones]
        dsimp only
        · rw [Function.update_of_ne hk]
          have : finishedAfter (finishedOf tr) (.observe e.tid k e) k' = finishedOf tr k' := by
            cases e <;> simp [finishedAfter, hk]
          rw [this]
          exact h.hist k' us' hm'
      · intro k' hm'
        rw [List.append_nil] at hm'
        rw [finishedOf_snoc]
        have hk : k' ≠ k := by rintro rfl; rw [hm] at hm'; cases hm'
        have : finishedAfter (finishedOf tr) (.observe e.tid k e) k' = finishedOf tr k' := by
          cases e <;> simp [finishedAfter, hk]
        rw [this]
        exact h.gone k' hm'
  | sampling t k e hh i j acc snap hv ht hp hk h1 =>
    subst ht
    rw [← h.vec] at hp hk
    obtain ⟨acc', snap', hp'⟩ : ∃ acc' snap', (a.thr e.tid).pc = .scan i j acc' snap' := by
      cases hp' : (a.thr e.tid).pc <;> rw [show (a.erase.thr e.tid).pc = (a.thr e.tid).pc.erase from rfl, hp'] at hp <;>
        cases hp
      exact ⟨_, _, rfl⟩
    have hk' : ((a.shards i).map fun q => (q.1, ([] : List Empty)))[j]? = some (k, []) := hk
    rw [List.getElem?_map, Option.map_eq_some_iff] at hk'
    obtain ⟨⟨k', us⟩, hk', he⟩ := hk'
    simp only [Prod.mk.injEq, and_true] at he
    subst he
    have hmem := List.mem_of_getElem? hk'
    have hm : mapOf tr' k' = some us := by
      rw [← hi.abs, hi.place i _ hmem]
      exact findKey_mem (hi.nodup i) hmem
    obtain ⟨htr, x1, x2, x3⟩ := h.hist k' us hm
    obtain ⟨y1, y2⟩ := sampler_event hv h1
    refine ⟨[], a, .sampling _ _ _, .nil, by simpa using h.exec, h.vec, ?_, ?_, ?_⟩
    · intro k₂ t₂
      by_cases hkk : k₂ = k'
      · subst hkk
        show Busy a k₂ t₂ ((Function.update s.hist k₂ hh k₂).pc t₂)
        rw [Function.update_self]
        by_cases htt : t₂ = e.tid
        · subst htt; exact .inr (.inr ⟨h1, i, j, acc', snap', us, hp', hk'⟩)
        · rw [hist_other hv htt]; exact h.busy k₂ t₂
      · show Busy a k₂ t₂ ((Function.update s.hist k' hh k₂).pc t₂)
        rw [Function.update_of_ne hkk]; exact h.busy k₂ t₂
    · intro k₂ us' hm'
      rw [List.append_nil] at hm'
      rw [finishedOf_snoc]
      by_cases hkk : k₂ = k'
      · subst hkk
        rw [hm] at hm'
        cases hm'
        dsimp only
        rw [Function.update_self]
        refine ⟨htr ++ [e], x1.snoc hv, ?_, ?_⟩
        · rw [sums_append, y1, List.append_nil, x2]
        · rw [dones_append, y2, List.append_nil]; exact x3
      dsimp only
      · rw [Function.update_of_ne hkk]
        exact h.hist k₂ us' hm'
    · intro k₂ hm'
      rw [List.append_nil] at hm'
      rw [finishedOf_snoc]
      exact h.gone k₂ hm'
  | emit t k r hh v hv hv' =>
    obtain ⟨us, xs, a', _, _, _, h1, h2, h3⟩ := hv_step_emit w h hv hv'
    exact ⟨_, a', h1, h2, h3⟩

theorem hv_step {c : ShardConf K} {le : List F64} {tr : List (HVEvent K)} {tr' : List (SEvent K HistCall)}
    {a : SSys K HistCall} {s s' : HVSys K} {e : HVEvent K} (h : HVInv c le tr tr' a s) (hs : HVStep c le s e s') :
    ∃ part a', HVShows le e part ∧ HVInv c le (tr ++ [e]) (tr' ++ part) a' s' := by
  obtain ⟨part, a', h1, _, h2⟩ := hv_step_by (w := .observe) (fun _ => rfl) h hs
  exact ⟨part, a', h1, h2⟩

theorem hv_inv {c : ShardConf K} {le : List F64} {tr : List (HVEvent K)} {s : HVSys K}
    (h : Exec (HVStep c le) (HVSys.new le.length) tr s) :
    ∃ parts a, List.Forall₂ (HVShows le) tr parts ∧ HVInv c le tr parts.flatten a s := by
  induction h with
  | nil =>
    refine ⟨[], SSys.new, .nil, .nil, ?_, fun k t => .inl rfl, ?_, fun _ _ => rfl⟩
    · simp [SSys.erase, SSys.new, HVSys.new, eraseT, SThread.erase, SPc.erase]
    · intro k us hm; cases hm
  | snoc _ hs ih =>
    obtain ⟨parts, a, h1, h2⟩ := ih
    obtain ⟨part, a', h3, h4⟩ := hv_step h2 hs
    refine ⟨parts ++ [part], a', ?_, ?_⟩
    · exact List.rel_append h1 (.cons h3 .nil)
    · simpa using h4

/-- The same, with what is known of the samples. -/
theorem hv_all {c : ShardConf K} {le : List F64} {tr : List (HVEvent K)} {s : HVSys K}
    (h : Exec (HVStep c le) (HVSys.new le.length) tr s) :
    ∃ parts a, List.Forall₂ (HVShows le) tr parts ∧ HVInv c le tr parts.flatten a s ∧
      ∀ p t k r q P us Q, tr = p ++ .emit t k r :: q → parts = P ++ [.emit t k us] :: Q → p.length = P.length →
        ∃ xs, finishedOf p k = some xs ∧ (us.map HistCall.value).Perm xs := by
  induction h with
  | nil =>
    obtain ⟨parts, a, h1, h2⟩ := hv_inv (c := c) (le := le) .nil
    exact ⟨parts, a, h1, h2, fun p t k r q P us Q hp => by simp at hp⟩
  | @snoc tr s e s' _ hs ih =>
    obtain ⟨parts, a, h1, h2, h3⟩ := ih
    obtain ⟨part, a', g1, g2, g3⟩ : ∃ part a', HVShows le e part ∧ HVInv c le (tr ++ [e]) (parts.flatten ++ part) a' s' ∧
        ∀ t k r us, e = .emit t k r → part = [.emit t k us] →
          ∃ xs, finishedOf tr k = some xs ∧ (us.map HistCall.value).Perm xs := by
      cases hs with
      | emit t k r hh v hv hv' =>
        obtain ⟨us, xs, a', _, x1, x2, x3, _, x4⟩ := hv_step_emit .observe h2 hv hv'
        refine ⟨_, a', x3, x4, fun t' k' r' us' he hp => ?_⟩
        cases he; cases hp
        exact ⟨xs, x1, x2⟩
      | _ =>
        obtain ⟨part, a', g1, g2⟩ := hv_step h2 (by first
          | exact .vec _ _ _ (by assumption) (by assumption) (by assumption)
          | exact .insert _ _ _ _ (by assumption) (by assumption)
          | exact .remove _ _ _ _ (by assumption) (by assumption)
          | exact .observe _ _ _ _ _ (by assumption) (by assumption) (by assumption) (by assumption) (by assumption)
              (by assumption) (by assumption)
          | exact .sampling _ _ _ _ _ _ _ _ _ (by assumption) (by assumption) (by assumption) (by assumption)
              (by assumption))
        exact ⟨part, a', g1, g2, fun t k r us he => by cases he⟩
    have hlen := h1.length_eq
    refine ⟨parts ++ [part], a', List.rel_append h1 (.cons g1 .nil), by simpa using g2,
      fun p t k r q P us Q hp hP hl => ?_⟩
    have e1 : (p ++ [.emit t k r]) ++ q = tr ++ [e] := by rw [hp]; simp
    have e2 : (P ++ [[.emit t k us]]) ++ Q = parts ++ [part] := by rw [hP]; simp
    rcases List.eq_nil_or_concat q with rfl | ⟨q', x, rfl⟩
    · rw [List.append_nil] at e1
      have hl1 := congrArg List.length e1
      have hl2 := congrArg List.length e2
      simp only [List.length_append, List.length_singleton] at hl1 hl2
      have hQ : Q = [] := List.length_eq_zero_iff.1 (by omega)
      subst hQ
      rw [List.append_nil] at e2
      obtain ⟨rfl, e3⟩ := List.append_inj' e1 rfl
      obtain ⟨rfl, e4⟩ := List.append_inj' e2 rfl
      exact g3 t k r us (List.cons.inj e3).1.symm (List.cons.inj e4).1.symm
    · have hl1 := congrArg List.length e1
      have hl2 := congrArg List.length e2
      simp only [List.length_append, List.length_singleton, List.concat_eq_append] at hl1 hl2
      rcases List.eq_nil_or_concat Q with rfl | ⟨Q', X, rfl⟩
      · simp only [List.length_nil] at hl2; omega
      · rw [List.concat_eq_append, ← List.append_assoc] at e1 e2
        obtain ⟨e3, _⟩ := List.append_inj' e1 rfl
        obtain ⟨e4, _⟩ := List.append_inj' e2 rfl
        exact h3 p t k r q' P us Q' (by rw [← e3]; simp) (by rw [← e4]; simp) hl

end Measured.Conc
