import Verif.Spec.HistVecLive
import Verif.Proof.HistVec
import Mathlib.Algebra.BigOperators.Group.Finset.Basic
import Mathlib.Algebra.BigOperators.Ring.List

/-! Progress on vectors of histograms. -/

namespace Measured
open Conc Spec

variable {K : Type} [DecidableEq K]

/-- The steps on the map alone. -/
theorem hv_vec {c : ShardConf K} {le : List F64} {tr : List (HVEvent K)} {s : HVSys K}
    (h : Exec (fun s e s' => HVStep c le s e s' ∧ HVDisciplined s e) (HVSys.new le.length) tr s) :
    ∃ vtr, Exec (fun s e s' => SStep c s e s' ∧ Disciplined s e) SSys.new vtr s.vec := by
  induction h with
  | nil => exact ⟨[], .nil⟩
  | @snoc tr s e s' _ hs ih =>
    obtain ⟨vtr, ih⟩ := ih
    obtain ⟨hs, hd⟩ := hs
    cases hs with
    | vec e v hv => exact ⟨_, ih.snoc ⟨hv, hd⟩⟩
    | insert t k v hv => exact ⟨_, ih.snoc ⟨hv, hd⟩⟩
    | remove t k v hv => exact ⟨_, ih.snoc ⟨hv, fun _ h => by cases h⟩⟩
    | emit t k r h v hh hv => exact ⟨_, ih.snoc ⟨hv, fun _ h => by cases h⟩⟩
    | _ => exact ⟨vtr, ih⟩

/-- A thread is at work on one histogram at a time. -/
theorem hv_one {c : ShardConf K} {le : List F64} {tr : List (HVEvent K)} {s : HVSys K}
    (h : Exec (HVStep c le) (HVSys.new le.length) tr s) :
    ∀ t k k', (s.hist k).pc t ≠ .idle → (s.hist k').pc t ≠ .idle → k = k' := by
  induction h with
  | nil => intro t k k' h; exact absurd rfl h
  | @snoc tr s e s' hex hs ih =>
    obtain ⟨parts, a, _, hi⟩ := hv_inv hex
    have upd : ∀ (k₀ : K) (h : HistSys) (t₀ : Tid), (∀ u, u ≠ t₀ → h.pc u = (s.hist k₀).pc u) →
        (∀ k', k' ≠ k₀ → (s.hist k').pc t₀ = .idle) →
        ∀ t k k', ((Function.update s.hist k₀ h) k).pc t ≠ .idle → ((Function.update s.hist k₀ h) k').pc t ≠ .idle →
          k = k' := by
      intro k₀ h t₀ ho hq t k k' h1 h2
      by_cases ht : t = t₀
      · subst ht
        have : ∀ k, ((Function.update s.hist k₀ h) k).pc t ≠ .idle → k = k₀ := by
          intro k hk
          by_contra hne
          rw [Function.update_of_ne hne] at hk
          exact hk (hq k hne)
        rw [this k h1, this k' h2]
      · have : ∀ k, ((Function.update s.hist k₀ h) k).pc t = (s.hist k).pc t := by
          intro k
          by_cases hk : k = k₀
          · subst hk; rw [Function.update_self]; exact ho t ht
          · rw [Function.update_of_ne hk]
        rw [this] at h1 h2
        exact ih t k k' h1 h2
    have scanning : ∀ t k i j acc snap, (s.vec.thr t).pc = .scan i j acc snap → (s.vec.shards i)[j]? = some (k, []) →
        ∀ k', k' ≠ k → (s.hist k').pc t = .idle := by
      intro t k i j acc snap hp hk k' hne
      rw [← hi.vec] at hp hk
      rcases hi.busy k' t with hb | ⟨_, h2, _⟩ | ⟨_, i', j', acc', snap', us, h2, h3⟩
      · exact hb
      · have hp : (a.thr t).pc.erase = _ := hp
        rw [h2] at hp; cases hp
      · have hp : (a.thr t).pc.erase = _ := hp
        rw [h2] at hp; cases hp
        have hk : (eraseT (a.shards i))[j]? = _ := hk
        rw [eraseT, List.getElem?_map, h3] at hk
        cases hk
        exact absurd rfl hne
    cases hs with
    | vec => exact ih
    | remove => exact ih
    | insert t k v hv hq => exact upd k _ t (fun u _ => rfl) (fun k' _ => hq k')
    | observe t k e h hh ht hp hg hq h0 h1 => subst ht; exact upd k h _ (fun u hu => hist_other hh hu) hq
    | sampling t k e h i j acc snap hh ht hp hk h1 =>
      subst ht
      exact upd k h _ (fun u hu => hist_other hh hu) (scanning _ k i j acc snap hp hk)
    | emit t k r h v hh hv =>
      refine upd k h t (fun u hu => hist_other hh hu) ?_
      cases hv with
      | emit _ i j acc snap _ old us cur hp hc =>
        cases cur with
        | nil => exact scanning t k i j acc snap hp hc
        | cons x => exact x.elim

theorem hist_thread_busy {le : List F64} {s s' : HistSys} {e : HistEvent} (hs : HistStep le s e s')
    (hg : HistGoes s s') : s.pc e.tid ≠ .idle ∧ (s'.pc e.tid = .idle ∨ (s'.pc e.tid).ofSampler = (s.pc e.tid).ofSampler) := by
  have hgo : ∀ (t : Tid) (p : HistPc), (s.goto t p).pc t = p := fun t p => Function.update_self _ _ _
  cases hs with
  | start t x b hp hb => have := hg.noStart t hp; rw [hgo] at this; cases this
  | startPanic t x hp hb => have := hg.noStart t hp; rw [hgo] at this; cases this
  | startSample t hp => have := hg.noStart t hp; rw [hgo] at this; cases this
  | _ => simp_all [HistEvent.tid, HistPc.ofSampler, HistSys.goto]

theorem hv_progress {c : ShardConf K} {le : List F64} {tr : List (HVEvent K)} {s : HVSys K}
    (h : Exec (fun s e s' => HVStep c le s e s' ∧ HVDisciplined s e) (HVSys.new le.length) tr s)
    (hact : ∃ t, (s.vec.thr t).pc ≠ .idle ∨ (s.vec.thr t).guards ≠ []) :
    ∃ e s', HVStep c le s e s' ∧ HVGoes c s e s' := by
  have hex := exec_weaken (fun _ _ _ h => h.1) h
  obtain ⟨parts, a, _, hi⟩ := hv_inv hex
  have hI := s_inv hi.exec
  obtain ⟨vtr, hv⟩ := hv_vec h
  have hvI := s_inv (exec_of_disciplined hv)
  by_cases hbusy : ∃ k t, (s.hist k).pc t ≠ .idle
  · obtain ⟨k, t, hb⟩ := hbusy
    have hm : ∃ us, mapOf parts.flatten k = some us := by
      rw [← Option.ne_none_iff_exists', ← hI.abs]
      rcases hi.busy k t with hb' | ⟨_, _, hg⟩ | ⟨_, i, j, acc, snap, us, _, h3⟩
      · exact absurd hb' hb
      · exact (hI.ok t).guards k hg
      · have hmem := List.mem_of_getElem? h3
        have := hI.place i _ hmem
        rw [show c.shardOf k = i from this, findKey_mem (hI.nodup i) hmem]
        simp
    obtain ⟨us, hus⟩ := hm
    obtain ⟨htr, hx, _, _⟩ := hi.hist k us hus
    obtain ⟨e, h', hs, hg⟩ := hist_progress (hist_inv hx).1 ⟨t, hb⟩
    obtain ⟨hne, hsame⟩ := hist_thread_busy hs hg
    rcases hi.busy k e.tid with hb' | ⟨h1, h2, h3⟩ | ⟨h1, i, j, acc, snap, us, h2, h3⟩
    · exact absurd hb' hne
    · refine ⟨.observe e.tid k e, _, .observe s e.tid k e h' hs rfl ?_ ?_ ?_ h1 ?_, ?_⟩
      · rw [← hi.vec]; show (a.thr e.tid).pc.erase = _; rw [h2]; rfl
      · rw [← hi.vec]; exact h3
      · intro k' hk'
        by_contra hne'
        exact hk' (hv_one hex e.tid k' k hne' hne)
      · rcases hsame with h | h
        · rw [h]; rfl
        · rw [h, h1]
      · show HistGoes (s.hist k) (Function.update s.hist k h' k)
        rw [Function.update_self]; exact hg
    · have hp : (s.vec.thr e.tid).pc = .scan i j (eraseT acc) (eraseT snap) := by
        rw [← hi.vec]; show (a.thr e.tid).pc.erase = _; rw [h2]; rfl
      have hk : (s.vec.shards i)[j]? = some (k, []) := by
        rw [← hi.vec]; show (eraseT (a.shards i))[j]? = _; rw [eraseT, List.getElem?_map, h3]; rfl
      by_cases hidle : (h'.pc e.tid) = .idle
      · have hsamp : ∃ r, e = .sample e.tid r := by
          cases hs <;> simp_all [HistEvent.tid, HistPc.ofSampler, HistSys.goto]
        obtain ⟨r, hr⟩ := hsamp
        obtain ⟨old, ho, _⟩ := (snap_inv (exec_of_disciplined hv) e.tid i j _ _ hp).get hk
        cases old with
        | nil =>
          exact ⟨.emit e.tid k r, _, .emit s e.tid k r h' _ (hr ▸ hs)
            (.emit s.vec e.tid i j _ _ k [] [] [] hp hk ho (List.prefix_refl _) (List.prefix_refl _)), trivial⟩
        | cons x => exact x.elim
      · refine ⟨.sampling e.tid k e, _, .sampling s e.tid k e h' i j _ _ hs rfl hp hk ?_, .inr ?_⟩
        · rcases hsame with h | h
          · exact absurd h hidle
          · rw [h, h1]
        · show HistGoes (s.hist k) (Function.update s.hist k h' k)
          rw [Function.update_self]; exact hg
  · have hidle : ∀ k t, (s.hist k).pc t = .idle := fun k t => by
      by_contra hne; exact hbusy ⟨k, t, hne⟩
    obtain ⟨e, v, hs, hst, hf⟩ := sparse_progress hvI (snap_inv (exec_of_disciplined hv)) (disciplined_guards hv) hact
    have hf' : SEvent.goesOn e := by cases e <;> exact hf
    by_cases hpl : e.plain = true
    · exact ⟨.vec e, _, .vec s e v hs hpl (fun k => hidle k _), hst, hf'⟩
    · cases e with
      | insert t k => exact ⟨.vec (.insert t k), _, .insert s t k v hs (fun k => hidle k _), hst, hf'⟩
      | remove t k r =>
        cases r with
        | none => exact absurd rfl hpl
        | some us =>
          cases us with
          | nil => exact ⟨_, _, .remove s t k v hs (fun k => hidle k _), trivial⟩
          | cons x => exact x.elim
      | emit t k us =>
        cases hs with
        | emit _ i j acc snap _ old us cur hp hc =>
          cases cur with
          | nil =>
            refine ⟨.sampling t k (.silent t), _, .sampling s t k _ _ i j acc snap (.startSample _ t (hidle k t)) rfl hp hc ?_,
              .inl (hidle k t)⟩
            simp [HistSys.goto, HistPc.ofSampler]
          | cons x => exact x.elim
      | _ => exact absurd rfl hpl

/-! ## Going on comes to an end -/

theorem hv_vec_exec {c : ShardConf K} {le : List F64} {tr : List (HVEvent K)} {s : HVSys K}
    (h : Exec (HVStep c le) (HVSys.new le.length) tr s) : ∃ vtr, Exec (SStep c) SSys.new vtr s.vec := by
  induction h with
  | nil => exact ⟨[], .nil⟩
  | @snoc tr s e s' _ hs ih =>
    obtain ⟨vtr, ih⟩ := ih
    cases hs with
    | vec e v hv => exact ⟨_, ih.snoc hv⟩
    | insert t k v hv => exact ⟨_, ih.snoc hv⟩
    | remove t k v hv => exact ⟨_, ih.snoc hv⟩
    | emit t k r h v hh hv => exact ⟨_, ih.snoc hv⟩
    | _ => exact ⟨vtr, ih⟩

omit [DecidableEq K] in
/-- The key that a lookup may add. -/
def SPc.looksUp {U : Type} : SPc K U → Option K
  | .getRead k | .probe k | .missed k | .getWrite k | .insert k => some k
  | _ => none

/-- All keys in the tables and all that lookups in progress may add. -/
structure KeysIn {U : Type} (Ks : Finset K) (v : SSys K U) : Prop where
  tables : ∀ i, ∀ e ∈ v.shards i, e.1 ∈ Ks
  lookups : ∀ t k, SPc.looksUp (v.thr t).pc = some k → k ∈ Ks

theorem keysIn_mono {U : Type} {Ks Ks' : Finset K} {v : SSys K U} (h : KeysIn Ks v) (hs : Ks ⊆ Ks') : KeysIn Ks' v :=
  ⟨fun i e he => hs (h.tables i e he), fun t k hk => hs (h.lookups t k hk)⟩

theorem keysIn_step {U : Type} {c : ShardConf K} {Ks : Finset K} {v v' : SSys K U} {e : SEvent K U} (h : KeysIn Ks v)
    (hs : SStep c v e v') (he : ∀ t k, e = .startGet t k → k ∈ Ks) : KeysIn Ks v' := by
  have look : ∀ (v : SSys K U) (t : Tid) (p : SPc K U) (gs : List K), KeysIn Ks v →
      (∀ k, SPc.looksUp p = some k → k ∈ Ks) → KeysIn Ks (v.setGuards t p gs) := by
    intro v t p gs hv hp
    refine ⟨hv.tables, fun u k hk => ?_⟩
    by_cases hu : u = t
    · subst hu
      simp only [SSys.setGuards, Function.update_self] at hk
      exact hp k hk
    · simp only [SSys.setGuards, Function.update_of_ne hu] at hk
      exact hv.lookups u k hk
  have tab : ∀ (i : Nat) (l : List (K × List U)), (∀ e ∈ l, e.1 ∈ Ks) → KeysIn Ks (v.setShard i l) := by
    intro i l hl
    refine ⟨fun i' e he => ?_, h.lookups⟩
    by_cases hi : i' = i
    · subst hi
      simp only [SSys.setShard, Function.update_self] at he
      exact hl e he
    · simp only [SSys.setShard, Function.update_of_ne hi] at he
      exact h.tables i' e he
  cases hs with
  | startGet t k hp => exact look v t _ _ h fun k' hk => by cases hk; exact he t k rfl
  | lockRead t k hp => exact look v t _ _ h fun k' hk => by cases hk; exact h.lookups t k (by rw [hp]; rfl)
  | miss t k hp => exact look v t _ _ h fun k' hk => by cases hk; exact h.lookups t k (by rw [hp]; rfl)
  | missRelease t k hp => exact look v t _ _ h fun k' hk => by cases hk; exact h.lookups t k (by rw [hp]; rfl)
  | lockWrite t k hp => exact look v t _ _ h fun k' hk => by cases hk; exact h.lookups t k (by rw [hp]; rfl)
  | insertNew t k l hp hf hl =>
    refine look _ t _ _ (tab _ l fun e he' => ?_) fun k' hk => by cases hk
    rcases List.mem_cons.1 (hl.subset he') with rfl | hm
    · exact h.lookups t k (by rw [hp]; rfl)
    · exact h.tables _ e hm
  | removeSome t k us l hp hf hl =>
    exact look _ t _ _ (tab _ l fun e he' => h.tables _ e (hl.subset (by simp [he']))) fun k' hk => by cases hk
  | update t k u us hg hf =>
    refine tab _ _ fun e he' => ?_
    have hm : e.1 ∈ (addUpdate k u (v.shards (c.shardOf k))).map Prod.fst := List.mem_map_of_mem he'
    have hkeys : (addUpdate k u (v.shards (c.shardOf k))).map Prod.fst = (v.shards (c.shardOf k)).map Prod.fst := by
      unfold addUpdate
      rw [List.map_map]
      refine List.map_congr_left fun x _ => ?_
      simp only [Function.comp]
      split <;> rfl
    rw [hkeys] at hm
    obtain ⟨x, hx, hxe⟩ := List.mem_map.1 hm
    rw [← hxe]; exact h.tables _ x hx
  | _ => exact look v _ _ _ h fun k' hk => by cases hk

theorem finite_keys {U : Type} {c : ShardConf K} {tr : List (SEvent K U)} {v : SSys K U}
    (h : Exec (SStep c) SSys.new tr v) : ∃ Ks : Finset K, KeysIn Ks v := by
  induction h with
  | nil => exact ⟨∅, ⟨fun _ _ he => (by cases he), fun _ _ hk => (by cases hk)⟩⟩
  | @snoc tr v e v' _ hs ih =>
    obtain ⟨Ks, hK⟩ := ih
    by_cases he : ∃ t k, e = .startGet t k
    · obtain ⟨t, k, rfl⟩ := he
      refine ⟨insert k Ks, keysIn_step (keysIn_mono hK (Finset.subset_insert _ _)) hs fun t' k' h => ?_⟩
      cases h; exact Finset.mem_insert_self _ _
    · exact ⟨Ks, keysIn_step hK hs fun t k h => absurd ⟨t, k, h⟩ he⟩

/-- What is left to do on a histogram; a collection still has to come to it. -/
def hvHist (n : Nat) (T : List Tid) (h : HistSys) : Nat :=
  (T.map fun t => histWork n (2 * T.length) h.inner.sum (h.pc t) +
    (n + 5) * (if (h.pc t).ofSampler then 0 else 1)).sum

def hvWork (c : ShardConf K) (n : Nat) (T : List Tid) (Ks : Finset K) (s : HVSys K) : Nat :=
  (n + 6) * sysWork c T s.vec + ∑ k ∈ Ks, hvHist n T (s.hist k)

theorem hvHist_eq (n : Nat) (T : List Tid) (h : HistSys) :
    hvHist n T h = histTotal n T h + (n + 5) * (T.map fun t => if (h.pc t).ofSampler then 0 else 1).sum := by
  rw [hvHist, histTotal, List.sum_map_add, List.sum_map_mul_left]

theorem sum_swap {T : List Tid} (hn : T.Nodup) {f g : Tid → Nat} {t : Tid} (ht : t ∈ T) (ho : ∀ u, u ≠ t → g u = f u) :
    (T.map g).sum + f t = (T.map f).sum + g t := by
  induction T with
  | nil => cases ht
  | cons x T ih =>
    rw [List.nodup_cons] at hn
    simp only [List.map_cons, List.sum_cons]
    by_cases hx : x = t
    · subst hx
      have : T.map g = T.map f := List.map_congr_left fun u hu => ho u (fun h => hn.1 (h ▸ hu))
      rw [this]; omega
    · have := ih hn.2 (by rcases List.mem_cons.1 ht with h | h; exacts [absurd h.symm hx, h])
      rw [ho x hx]; omega

theorem hvHist_goto {n : Nat} {T : List Tid} (hn : T.Nodup) {h : HistSys} {t : Tid} (ht : t ∈ T) (p : HistPc) :
    hvHist n T (h.goto t p) + (histWork n (2 * T.length) h.inner.sum (h.pc t) +
        (n + 5) * (if (h.pc t).ofSampler then 0 else 1)) =
      hvHist n T h + (histWork n (2 * T.length) h.inner.sum p + (n + 5) * (if p.ofSampler then 0 else 1)) := by
  have := sum_swap hn (f := fun t => histWork n (2 * T.length) h.inner.sum (h.pc t) +
    (n + 5) * (if (h.pc t).ofSampler then 0 else 1)) (g := fun u => histWork n (2 * T.length) h.inner.sum ((h.goto t p).pc u) +
    (n + 5) * (if ((h.goto t p).pc u).ofSampler then 0 else 1)) ht (fun u hu => by
      simp only [HistSys.goto, Function.update_of_ne hu])
  simp only [HistSys.goto, Function.update_self] at this
  exact this

theorem sum_hist {Ks : Finset K} {hist : K → HistSys} {k : K} (hk : k ∈ Ks) (h : HistSys) (f : HistSys → Nat) :
    (∑ k' ∈ Ks, f (Function.update hist k h k')) + f (hist k) = (∑ k' ∈ Ks, f (hist k')) + f h := by
  rw [← Finset.add_sum_erase Ks _ hk, ← Finset.add_sum_erase Ks (fun k' => f (hist k')) hk, Function.update_self]
  have : ∑ x ∈ Ks.erase k, f (Function.update hist k h x) = ∑ x ∈ Ks.erase k, f (hist x) :=
    Finset.sum_congr rfl fun x hx => by rw [Function.update_of_ne (Finset.ne_of_mem_erase hx)]
  rw [this]; omega

theorem hvHist_goes {le : List F64} {T : List Tid} (hn : T.Nodup) {htr : List HistEvent} {h h' : HistSys} {e : HistEvent}
    (hi : HistInv le htr h) (hT : ∀ t, t ∉ T → h.pc t = .idle) (hs : HistStep le h e h') (hg : HistGoes h h')
    (hsame : (h'.pc e.tid).ofSampler = (h.pc e.tid).ofSampler) : hvHist le.length T h' + 1 ≤ hvHist le.length T h := by
  have h1 := (hist_decreases hn hi hT hs hg).1
  rw [hvHist_eq, hvHist_eq]
  have : (T.map fun t => if (h'.pc t).ofSampler then 0 else 1) = T.map fun t => if (h.pc t).ofSampler then 0 else 1 := by
    refine List.map_congr_left fun u _ => ?_
    by_cases hu : u = e.tid
    · rw [hu, hsame]
    · rw [hist_other hs hu]
  rw [this]; omega

theorem hv_decreases {c : ShardConf K} {le : List F64} {T : List Tid} (hn : T.Nodup) {Ks : Finset K}
    {tr : List (HVEvent K)} {s s' : HVSys K} {e : HVEvent K} (hex : Exec (HVStep c le) (HVSys.new le.length) tr s)
    (hT : ∀ t, t ∉ T → s.vec.thr t = ⟨.idle, []⟩) (hK : KeysIn Ks s.vec) (hs : HVStep c le s e s') (hg : HVGoes c s e s') :
    hvWork c le.length T Ks s' + 1 ≤ hvWork c le.length T Ks s ∧ (∀ t, t ∉ T → s'.vec.thr t = ⟨.idle, []⟩) ∧
      KeysIn Ks s'.vec := by
  obtain ⟨parts, a, _, hi⟩ := hv_inv hex
  have hI := s_inv hi.exec
  obtain ⟨vtr, hv⟩ := hv_vec_exec hex
  have hvI := s_inv hv
  have hth : ∀ k t, t ∉ T → (s.hist k).pc t = .idle := by
    intro k t ht
    have h0 := hT t ht
    rw [← hi.vec] at h0
    have h1 : (a.thr t).pc.erase = .idle := congrArg SThread.pc h0
    have h2 : (a.thr t).guards = [] := congrArg SThread.guards h0
    rcases hi.busy k t with hb | ⟨_, _, hg⟩ | ⟨_, i, j, acc, snap, us, hp, _⟩
    · exact hb
    · rw [h2] at hg; cases hg
    · rw [hp] at h1; cases h1
  have hinv : ∀ k t, (s.hist k).pc t ≠ .idle → ∃ htr, HistInv le htr (s.hist k) := by
    intro k t hb
    have hm : mapOf parts.flatten k ≠ none := by
      rw [← hI.abs]
      rcases hi.busy k t with hb' | ⟨_, _, hg⟩ | ⟨_, i, j, acc, snap, us, _, h3⟩
      · exact absurd hb' hb
      · exact (hI.ok t).guards k hg
      · have hmem := List.mem_of_getElem? h3
        rw [show c.shardOf k = i from hI.place i _ hmem, findKey_mem (hI.nodup i) hmem]
        simp
    obtain ⟨us, hus⟩ := Option.ne_none_iff_exists'.1 hm
    obtain ⟨htr, hx, _, _⟩ := hi.hist k us hus
    exact ⟨htr, (hist_inv hx).1⟩
  have vecStep : ∀ {e v}, SStep c s.vec e v → SEvent.goesOn e →
      sysWork c T v + 1 ≤ sysWork c T s.vec ∧ (∀ t, t ∉ T → v.thr t = ⟨.idle, []⟩) ∧ KeysIn Ks v := by
    intro e v hs hf
    obtain ⟨h1, h2⟩ := work_decreases hn hvI hT hs (by cases e <;> exact hf)
    refine ⟨h1, h2, keysIn_step hK hs ?_⟩
    rintro t k rfl; exact hf.elim
  have scan : ∀ {t k i j acc snap}, (s.vec.thr t).pc = .scan i j acc snap → (s.vec.shards i)[j]? = some (k, []) →
      t ∈ T ∧ k ∈ Ks := by
    intro t k i j acc snap hp hk
    refine ⟨?_, hK.tables i _ (List.mem_of_getElem? hk)⟩
    by_contra ht
    rw [hT t ht] at hp; cases hp
  unfold hvWork
  cases hs with
  | vec e v hv he hq =>
    obtain ⟨h1, h2, h3⟩ := vecStep hv hg.2
    refine ⟨?_, h2, h3⟩
    have := Nat.mul_le_mul_left (le.length + 6) h1
    dsimp only
    rw [Nat.mul_add] at this
    omega
  | insert t k v hv hq =>
    obtain ⟨h1, h2, h3⟩ := vecStep hv hg.2
    refine ⟨?_, h2, h3⟩
    have hw : (s.vec.thr t).HoldsW c (c.shardOf k) ∧ k ∈ Ks := by
      cases hv with
      | insertNew _ _ l hp =>
        exact ⟨by show (s.vec.thr t).pc.writeLock c = _; rw [hp]; rfl, hK.lookups t k (by rw [hp]; rfl)⟩
    have hal : ∀ u, (s.hist k).pc u = .idle := fun u => by
      refine hi.alone (t := t) ?_ u
      rw [← erase_holdsW]
      have := hw.1
      rw [← hi.vec] at this
      exact this
    have hsame : hvHist le.length T ⟨HistInner.default le.length, (s.hist k).pc⟩ = hvHist le.length T (s.hist k) := by
      unfold hvHist
      refine congrArg List.sum (List.map_congr_left fun u _ => ?_)
      simp only [hal u, histWork]
    have hsum := sum_hist hw.2 (hist := s.hist) ⟨HistInner.default le.length, (s.hist k).pc⟩ (hvHist le.length T)
    have := Nat.mul_le_mul_left (le.length + 6) h1
    dsimp only
    rw [Nat.mul_add] at this
    omega
  | remove t k v hv hq =>
    obtain ⟨h1, h2, h3⟩ := vecStep hv trivial
    refine ⟨?_, h2, h3⟩
    have := Nat.mul_le_mul_left (le.length + 6) h1
    dsimp only
    rw [Nat.mul_add] at this
    omega
  | observe t k e h hh ht hp hgd hq h0 h1 =>
    subst ht
    have hg : HistGoes (s.hist k) h := by
      have : HistGoes (s.hist k) (Function.update s.hist k h k) := hg
      rwa [Function.update_self] at this
    obtain ⟨htr, hI'⟩ := hinv k _ (hist_thread_busy hh hg).1
    have hk : k ∈ Ks := by
      have := (hvI.ok e.tid).guards k hgd
      obtain ⟨us, hus⟩ := Option.ne_none_iff_exists'.1 this
      exact hK.tables _ _ (findKey_some_mem hus)
    have hd := hvHist_goes hn hI' (hth k) hh hg (by rw [h0, h1])
    have hsum := sum_hist hk (hist := s.hist) h (hvHist le.length T)
    refine ⟨?_, hT, hK⟩
    dsimp only
    omega
  | sampling t k e h i j acc snap hh ht hp hk h1 =>
    subst ht
    obtain ⟨htT, hkK⟩ := scan hp hk
    have hsum := sum_hist hkK (hist := s.hist) h (hvHist le.length T)
    refine ⟨?_, hT, hK⟩
    suffices hvHist le.length T h + 1 ≤ hvHist le.length T (s.hist k) by
      dsimp only
      omega
    by_cases hidle : (s.hist k).pc e.tid = .idle
    · have heq : h = (s.hist k).goto e.tid .wantWrite := by
        cases hh <;> simp_all [HistEvent.tid, HistPc.ofSampler, HistSys.goto]
      have := hvHist_goto (n := le.length) hn (h := s.hist k) htT .wantWrite
      rw [← heq, hidle] at this
      simp only [histWork, HistPc.ofSampler, if_true] at this
      simp at this
      omega
    · have hg : HistGoes (s.hist k) h := by
        have : (s.hist k).pc e.tid = .idle ∨ HistGoes (s.hist k) (Function.update s.hist k h k) := hg
        rw [Function.update_self] at this
        exact this.resolve_left hidle
      obtain ⟨htr, hI'⟩ := hinv k _ hidle
      refine hvHist_goes hn hI' (hth k) hh hg ?_
      rcases (hist_thread_busy hh hg).2 with h' | h'
      · rw [h'] at h1; cases h1
      · exact h'
  | emit t k r h v hh hv =>
    obtain ⟨h1, h2, h3⟩ := vecStep hv trivial
    refine ⟨?_, h2, h3⟩
    obtain ⟨htT, hkK⟩ : t ∈ T ∧ k ∈ Ks := by
      cases hv with
      | emit _ i j acc snap _ old us cur hp hc =>
        cases cur with
        | nil => exact scan hp hc
        | cons x => exact x.elim
    have hsum := sum_hist hkK (hist := s.hist) h (hvHist le.length T)
    have hd : hvHist le.length T h = hvHist le.length T (s.hist k) + (le.length + 4) := by
      cases hh with
      | unlockWrite _ out inf sum hp =>
        have := hvHist_goto (n := le.length) hn (h := s.hist k) htT .idle
        rw [hp] at this
        simp [histWork, HistPc.ofSampler] at this
        omega
    have := Nat.mul_le_mul_left (le.length + 6) h1
    dsimp only
    rw [Nat.mul_add] at this
    omega

end Measured
