import Verif.Proof.ExportHistFree
import Verif.Props.ExportLive

/-! # Proofs about the example server with its histograms: nobody goes on for ever -/

namespace Measured.Server
open Measured.Conc Measured.Spec
open Classical in

/-- 0 while the request is at work on a histogram and the step that the work stands for is still to come. -/
noncomputable def unengaged (hist : Key → HistSys) (t : Tid) : Nat :=
  if ∃ k, (hist k).pc t ≠ .idle ∧ ∀ x, (hist k).pc t ≠ .added x then 0 else 1

def histCost (n R : Nat) : Nat := n + 6 + 2 * R

/-- What is left to do. -/
noncomputable def dWork (c : Vec → ShardConf Key) (n : Nat) (T : List Tid) (Ks : Finset Key) (a : ESys) (hist : Key → HistSys) : Nat :=
  (histCost n T.length + 1) * (T.map (taskWork c T.length a)).sum +
    (histCost n T.length * (T.map (unengaged hist)).sum + ∑ k ∈ Ks, histTotal n T (hist k))

theorem unengaged_le (hist : Key → HistSys) (t : Tid) : unengaged hist t ≤ 1 := by unfold unengaged; split <;> omega

theorem unengaged_congr {hist hist' : Key → HistSys} {t : Tid} (h : ∀ k, (hist' k).pc t = (hist k).pc t) :
    unengaged hist' t = unengaged hist t := by
  have : (∃ k, (hist' k).pc t ≠ .idle ∧ ∀ x, (hist' k).pc t ≠ .added x) ↔ ∃ k, (hist k).pc t ≠ .idle ∧ ∀ x, (hist k).pc t ≠ .added x :=
    exists_congr fun k => by rw [h k]
  unfold unengaged
  rw [this]

theorem sum_one {T : List Tid} (hn : T.Nodup) {f g : Tid → Nat} {t : Tid} (ho : ∀ u, u ≠ t → g u = f u) (hg : g t ≤ f t + 1) :
    (T.map g).sum ≤ (T.map f).sum + 1 := by
  by_cases ht : t ∈ T
  · have := sum_swap hn ht ho
    omega
  · have : T.map g = T.map f := List.map_congr_left fun u hu => ho u fun h => ht (h ▸ hu)
    rw [this]; omega

theorem sum_hist_le {Ks : Finset Key} {hist : Key → HistSys} {k : Key} {h : HistSys} {f : HistSys → Nat} (hf : f h ≤ f (hist k)) :
    ∑ k' ∈ Ks, f (Function.update hist k h k') ≤ ∑ k' ∈ Ks, f (hist k') :=
  Finset.sum_le_sum fun x _ => by
    by_cases hx : x = k
    · subst hx; rw [Function.update_self]; exact hf
    · rw [Function.update_of_ne hx]

theorem update_pc {hist : Key → HistSys} {k : Key} {h : HistSys} {u : Tid} (ho : h.pc u = (hist k).pc u) (k' : Key) :
    (Function.update hist k h k').pc u = (hist k').pc u := by
  by_cases hk : k' = k
  · subst hk; rw [Function.update_self]; exact ho
  · rw [Function.update_of_ne hk]

section
variable {m : Mode} {c : Vec → ShardConf Key} {ryu : F64 → Bytes} {le : List F64} {cap : Nat} {tr : List EEvent} {a : ESys} {s s' : DSys}

theorem DInv.histInv (I : DInv m c ryu le cap tr a s) {k : Key} {t : Tid} (hb : (s.hist k).pc t ≠ .idle) :
    ∃ htr, HistInv le htr (s.hist k) := by
  obtain ⟨htr, H⟩ := I.base.hv
  have hI := s_inv H.exec
  have hm : mapOf (mapEvents .duration (baseEvents tr)) k ≠ none := by
    rw [← hI.abs]
    rcases H.busy k t with hb' | ⟨_, _, hg⟩ | ⟨_, i, j, acc, snap, us, _, h3⟩
    · exact absurd hb' hb
    · exact (hI.ok t).guards k hg
    · have hmem := List.mem_of_getElem? h3
      rw [show (c .duration).shardOf k = i from hI.place i _ hmem, findKey_mem (hI.nodup i) hmem]
      simp
  obtain ⟨us, hus⟩ := Option.ne_none_iff_exists'.1 hm
  obtain ⟨tr', hx, _, _⟩ := H.hist k us hus
  exact ⟨tr', (hist_inv hx).1⟩

theorem DInv.busy_begun (I : DInv m c ryu le cap tr a s) (B : DBusy s) (P : PlaceInv a.base a.at') {T : List Tid}
    (hT : ∀ t, a.base.pc t ≠ .new → t ∈ T) (k : Key) (t : Tid) (ht : t ∉ T) : (s.hist k).pc t = .idle := by
  by_contra hb
  refine ht (hT t ?_)
  rcases B k t hb with ⟨_, ⟨r, st, b2⟩, _⟩ | ⟨_, b2, _⟩
  · rcases I.base.pc t with ⟨_, _, _, _, _, _, h⟩ | ⟨_, h⟩
    · rw [h]; simp
    · rw [h, b2]; simp
  · obtain ⟨r, k', h⟩ := P.inside t (by rw [I.at', b2]; simp)
    rw [h]; simp

/-- A step that stands for a step with single-step histograms. -/
theorem shows_less (I : DInv m c ryu le cap tr a s) (B : DBusy s) (P : PlaceInv a.base a.at') {T : List Tid} (hn : T.Nodup)
    (hT : ∀ t, a.base.pc t ≠ .new → t ∈ T) (Ks : Finset Key) {e : DEvent} (hs : DStep m c ryu le s e s') (hg : DGoes s e s')
    (he : ∀ t k f, e = .hist t k f → ∃ u x, f = .summed u x) :
    (T.map (unengaged s'.hist)).sum ≤ (T.map (unengaged s.hist)).sum + 1 ∧
      ∑ k ∈ Ks, histTotal le.length T (s'.hist k) ≤ ∑ k ∈ Ks, histTotal le.length T (s.hist k) := by
  have hbusy := I.busy_begun B P hT
  have one : ∀ {k h t}, (∀ u, u ≠ t → h.pc u = (s.hist k).pc u) →
      (T.map (unengaged (Function.update s.hist k h))).sum ≤ (T.map (unengaged s.hist)).sum + 1 := fun {k h t} ho =>
    sum_one hn (t := t) (fun u hu => unengaged_congr fun k' => update_pc (ho u hu) k') (by
      have := unengaged_le (Function.update s.hist k h) t
      omega)
  have smp : ∀ {k h t r}, HistStep le (s.hist k) (.sample t r) h → histTotal le.length T h ≤ histTotal le.length T (s.hist k) := by
    intro k h t r hs
    cases hs with
    | unlockWrite _ out inf sum hp =>
      have ht : t ∈ T := by
        by_contra hc
        have := hbusy k t hc
        rw [hp] at this; cases this
      have := hist_move (n := le.length) hn ht (h' := (s.hist k).inner) (p' := .idle) rfl hp (by simp [histWork])
      exact Nat.le_of_succ_le this
  cases hs with
  | top => exact ⟨Nat.le_succ _, Nat.le_refl _⟩
  | @insert t k x hs hq =>
    refine ⟨one (t := t) fun u _ => rfl, sum_hist_le (f := histTotal le.length T) ?_⟩
    have hw : ((s.top.base.vecs.own .duration).vec.thr t).HoldsW (c .duration) ((c .duration).shardOf k) := by
      have hm := exec_single (estep_map hs)
      generalize (x.base.vecs.own .duration).vec = y at hm
      cases hm with
      | insertNew _ _ l hp => show (SThread.pc _).writeLock _ = _; rw [hp]; rfl
    obtain ⟨htr, H⟩ := I.base.hv
    have hal : ∀ u, (s.hist k).pc u = .idle := fun u => by
      refine H.alone (t := t) ?_ u
      rw [← erase_holdsW]
      have hthr : ((a.base.vecs.own .duration).vec.thr t).erase = ((s.top.base.vecs.own .duration).vec.thr t).erase :=
        congrArg (fun v : SSys Key Empty => v.thr t) I.base.vec
      rw [hthr]
      exact erase_holdsW.2 hw
    unfold histTotal
    simp only [hal, histWork]
    exact Nat.le_refl _
  | @observe t r k st e h hp ho hi hg' hq hs ht h0 h1 hd hno =>
    obtain ⟨u, x, rfl⟩ := he _ _ _ rfl
    refine ⟨one (t := u) fun v hv => hist_other hs hv, sum_hist_le (f := histTotal le.length T) ?_⟩
    have hb : (s.hist k).pc u ≠ .idle := by
      cases hs with
      | casOk _ _ cur hp => rw [hp]; simp
    obtain rfl : u = t := ht
    have hgo : HistGoes (s.hist k) h := by
      have := hg.resolve_left hb
      simpa only [Function.update_self] using this
    obtain ⟨htr, hI⟩ := I.histInv hb
    have := (hist_decreases hn hI (hbusy k) hs hgo).1
    omega
  | observed => obtain ⟨u, x, h⟩ := he _ _ _ rfl; cases h
  | @sampling t k e h i j acc snap us g hp hc hk hg' hs ht h1 =>
    obtain ⟨u, x, rfl⟩ := he _ _ _ rfl
    obtain rfl : u = t := ht
    cases hs with
    | casOk _ _ cur hp => simp [HistPc.ofSampler] at h1
  | @entry t k g r h x enc hp hs hx he =>
    exact ⟨one (t := t) fun u hu => hist_other hs hu, sum_hist_le (f := histTotal le.length T) (smp hs)⟩
  | @entryCrash t k g r h x o enc hp hs hx he ho =>
    exact ⟨one (t := t) fun u hu => hist_other hs hu, sum_hist_le (f := histTotal le.length T) (smp hs)⟩

theorem histTotal_goto {n : Nat} {T : List Tid} (hn : T.Nodup) {h : HistSys} {t : Tid} (ht : t ∈ T) (p : HistPc) :
    histTotal n T (h.goto t p) + histWork n (2 * T.length) h.inner.sum (h.pc t) =
      histTotal n T h + histWork n (2 * T.length) h.inner.sum p := by
  have := sum_swap hn (f := fun t => histWork n (2 * T.length) h.inner.sum (h.pc t))
    (g := fun u => histWork n (2 * T.length) h.inner.sum ((h.goto t p).pc u)) ht (fun u hu => by
      simp only [HistSys.goto, Function.update_of_ne hu])
  simp only [HistSys.goto, Function.update_self] at this
  exact this

theorem start_goto {h h' : HistSys} {e : HistEvent} (hs : HistStep le h e h') (hi : h.pc e.tid = .idle) :
    ∃ p, h' = h.goto e.tid p ∧ p ≠ .idle ∧ (∀ x, p ≠ .added x) ∧ ∀ n w sum, histWork n w sum p ≤ n + 5 + w := by
  cases hs <;> simp_all [HistEvent.tid]
  · exact ⟨_, rfl, by simp, by simp, fun n w sum => by simp only [histWork]; omega⟩
  · exact ⟨_, rfl, by simp, by simp, fun n w sum => by simp only [histWork]; omega⟩
  · exact ⟨_, rfl, by simp, by simp, fun n w sum => by simp only [histWork]; omega⟩

/-- A step inside of `observe` or `sample`. -/
theorem inside_less (I : DInv m c ryu le cap tr a s) (B : DBusy s) (P : PlaceInv a.base a.at') {T : List Tid} (hn : T.Nodup)
    (hT : ∀ t, a.base.pc t ≠ .new → t ∈ T) (Ks : Finset Key) {t : Tid} {k : Key} {e : HistEvent} (hk : k ∈ Ks)
    (hs : DStep m c ryu le s (.hist t k e) s') (hg : DGoes s (.hist t k e) s') (he : ∀ u x, e ≠ .summed u x) :
    histCost le.length T.length * (T.map (unengaged s'.hist)).sum + ∑ k ∈ Ks, histTotal le.length T (s'.hist k) + 1 ≤
      histCost le.length T.length * (T.map (unengaged s.hist)).sum + ∑ k ∈ Ks, histTotal le.length T (s.hist k) := by
  have hbusy := I.busy_begun B P hT
  have B' := dbusy_step B hs
  obtain ⟨h, hh, hst, ht, hne, htT⟩ : ∃ h, s'.hist = Function.update s.hist k h ∧ HistStep le (s.hist k) e h ∧ e.tid = t ∧
      (∀ r, e ≠ .sample t r) ∧ t ∈ T := by
    cases hs with
    | @observe _ r _ st _ h hp ho hi hg' hq hs ht h0 h1 hd hno =>
      refine ⟨h, rfl, hs, ht, ?_, ?_⟩
      · rintro r rfl
        cases hs with
        | unlockWrite _ out inf sum hp => rw [hp] at h0; cases h0
      · refine hT t ?_
        rcases I.base.pc t with ⟨_, _, _, _, _, _, h⟩ | ⟨_, h⟩
        · rw [h]; simp
        · rw [h, hp]; simp
    | @observed _ r _ st x h hp ho hi hg' hq hs =>
      refine ⟨h, rfl, hs, rfl, by simp, hT t ?_⟩
      rcases I.base.pc t with ⟨_, _, _, _, _, _, h⟩ | ⟨_, h⟩
      · rw [h]; simp
      · rw [h, hp]; simp
    | @sampling _ _ _ h i j acc snap us g hp hc hk hg' hs ht h1 =>
      refine ⟨h, rfl, hs, ht, ?_, ?_⟩
      · rintro r rfl
        rw [(sample_pc hs).2] at h1; cases h1
      · obtain ⟨r, k', h⟩ := P.inside t (by rw [I.at', hp]; simp)
        exact hT t (by rw [h]; simp)
  subst ht
  have hsum := sum_hist hk (hist := s.hist) h (histTotal le.length T)
  have hoth : ∀ u, u ≠ e.tid → unengaged s'.hist u = unengaged s.hist u := fun u hu => by
    rw [hh]; exact unengaged_congr fun k' => update_pc (hist_other hst hu) k'
  have hpc' : s'.hist k = h := by rw [hh, Function.update_self]
  by_cases hidle : (s.hist k).pc e.tid = .idle
  · obtain ⟨p, rfl, h1, h2, h3⟩ := start_goto hst hidle
    have hp : (s'.hist k).pc e.tid = p := by rw [hpc']; exact Function.update_self ..
    have hu' : unengaged s'.hist e.tid = 0 := by
      unfold unengaged
      rw [if_pos ⟨k, by rw [hp]; exact h1, by rw [hp]; exact h2⟩]
    have hu : unengaged s.hist e.tid = 1 := by
      unfold unengaged
      rw [if_neg]
      rintro ⟨k', h4, _⟩
      by_cases hk' : k' = k
      · rw [hk'] at h4; exact h4 hidle
      · have : (s'.hist k').pc e.tid ≠ .idle := by rw [hh, Function.update_of_ne hk']; exact h4
        exact hk' (B'.one this (by rw [hp]; exact h1))
    have hsw := sum_swap hn (f := unengaged s.hist) (g := unengaged s'.hist) htT hoth
    have hgo := histTotal_goto (n := le.length) hn (h := s.hist k) htT p
    have h3 := h3 le.length (2 * T.length) (s.hist k).inner.sum
    rw [hidle, show histWork le.length (2 * T.length) (s.hist k).inner.sum .idle = 0 from rfl] at hgo
    rw [← hh] at hsum
    have : (T.map (unengaged s.hist)).sum = (T.map (unengaged s'.hist)).sum + 1 := by omega
    rw [this, Nat.mul_add]
    unfold histCost at *
    omega
  · have hgo : HistGoes (s.hist k) h := by rw [← hpc']; exact hg.resolve_left hidle
    obtain ⟨htr, hI⟩ := I.histInv hidle
    have hd := (hist_decreases hn hI (hbusy k) hst hgo).1
    have hsame : T.map (unengaged s'.hist) = T.map (unengaged s.hist) := by
      refine List.map_congr_left fun u _ => ?_
      by_cases hu : u = e.tid
      · rw [hu]
        by_cases hadd : ∃ x, (s.hist k).pc e.tid = .added x
        · obtain ⟨x, hadd⟩ := hadd
          have hi' : (s'.hist k).pc e.tid = .idle := by
            rw [hpc']
            have hev := added_from hst hadd
            generalize e.tid = w at *
            subst hev
            cases hst with
            | unlockRead => exact Function.update_self ..
          unfold unengaged
          rw [if_neg, if_neg]
          · rintro ⟨k', h4, h5⟩
            have hk' := B.one h4 hidle
            subst hk'
            exact h5 x hadd
          · rintro ⟨k', h4, h5⟩
            by_cases hk' : k' = k
            · rw [hk'] at h4; exact h4 hi'
            · rw [hh, Function.update_of_ne hk'] at h4
              exact hk' (B.one h4 hidle)
        · have h1 : (s'.hist k).pc e.tid ≠ .idle ∧ ∀ x, (s'.hist k).pc e.tid ≠ .added x := by
            rw [hpc']
            have hadd : ∀ x, (s.hist k).pc e.tid ≠ .added x := fun x h => hadd ⟨x, h⟩
            cases hst <;> simp_all [HistEvent.tid, HistSys.goto]
          unfold unengaged
          rw [if_pos ⟨k, h1⟩, if_pos ⟨k, hidle, fun x h => hadd ⟨x, h⟩⟩]
      · exact hoth u hu
    rw [hsame]
    rw [← hh] at hsum
    omega

theorem goes_up {a : ESys} {s s' : DSys} (hat : a.at' = s.top.at') {e : DEvent} {e' : EEvent} (h : DShows e [e']) (hg : DGoes s e s') :
    Goes a e' := by
  cases h with
  | top e =>
    cases e' with
    | base e =>
      cases e with
      | answer t st => show a.at' t ≠ _; rw [hat]; exact hg
      | _ => exact hg
    | _ => exact hg
  | _ => trivial

/-- Every step leaves less to do. -/
theorem dwork_step (I : DInv m c ryu le cap tr a s) (B : DBusy s) (hlen : FewRequests (baseEvents tr)) (hle : thresholds = .ok le)
    {T : List Tid} (hn : T.Nodup) (hT : ∀ t, a.base.pc t ≠ .new → t ∈ T) {Ks : Finset Key} {e : DEvent}
    (hk : ∀ t k f, e = .hist t k f → k ∈ Ks) (hs : DStep m c ryu le s e s') (hg : DGoes s e s') :
    ∃ part a', DShows e part ∧ Exec (fun s e s' => EStep m c ryu le s e s' ∧ Goes s e) a part a' ∧
      DInv m c ryu le cap (tr ++ part) a' s' ∧ (∀ t, a'.base.pc t ≠ .new → t ∈ T) ∧
      dWork c le.length T Ks a' s'.hist + 1 ≤ dWork c le.length T Ks a s.hist := by
  have P := place_inv I.exec (C88_no_crash I.exec hlen hle)
  obtain ⟨part, a', h1, h2, h3⟩ := d_step I hs
  have big : ∀ e', part = [e'] → (∀ t k f, e = .hist t k f → ∃ u x, f = .summed u x) →
      ∃ part a', DShows e part ∧ Exec (fun s e s' => EStep m c ryu le s e s' ∧ Goes s e) a part a' ∧
      DInv m c ryu le cap (tr ++ part) a' s' ∧ (∀ t, a'.base.pc t ≠ .new → t ∈ T) ∧
      dWork c le.length T Ks a' s'.hist + 1 ≤ dWork c le.length T Ks a s.hist := by
    rintro e' rfl he
    have hgo := goes_up I.at' h1 hg
    have hst := exec_single h2
    obtain ⟨t, L⟩ := work_step I.exec P hT hst hgo
    refine ⟨_, a', h1, Exec.nil.snoc ⟨hst, hgo⟩, h3, L.all, ?_⟩
    have w1 := sum_decrease hn L.here (f := taskWork c T.length a) (g := taskWork c T.length a') 0
      (fun u hu => by rw [L.same u hu]; exact Nat.le_refl _) (by have := L.less; omega)
    obtain ⟨w2, w3⟩ := shows_less I B P hn hT Ks hs hg he
    unfold dWork
    generalize (T.map (taskWork c T.length a)).sum = A, (T.map (taskWork c T.length a')).sum = A', (T.map (unengaged s.hist)).sum = U,
      (T.map (unengaged s'.hist)).sum = U' at *
    have w1 := Nat.mul_le_mul_left (histCost le.length T.length + 1) w1
    have w2 := Nat.mul_le_mul_left (histCost le.length T.length) w2
    rw [Nat.mul_add] at w1 w2
    omega
  cases h1 with
  | top e => exact big _ rfl (by simp)
  | ended => exact big _ rfl (by simp)
  | shown => exact big _ rfl (by simp)
  | recorded t k x d h hx => exact big _ rfl fun t' k' f h => by cases h; exact ⟨_, _, rfl⟩
  | inside t k f hf =>
    obtain rfl := exec_none h2
    refine ⟨[], a', .inside t k f hf, .nil, h3, hT, ?_⟩
    have := inside_less I B P hn hT Ks (hk _ _ _ rfl) hs hg hf
    unfold dWork
    omega

end

theorem histWork_le (n w : Nat) (sum : F64) (p : HistPc) : histWork n w sum p ≤ n + 5 + w := by
  cases p <;> simp only [histWork] <;> first | omega | (split <;> omega)

/-- A request is at work on one histogram at most. -/
theorem histTotal_le {s : DSys} (B : DBusy s) (n : Nat) (T : List Tid) (Ks : Finset Key) :
    ∑ k ∈ Ks, histTotal n T (s.hist k) ≤ T.length * histCost n T.length := by
  have key : ∀ w (L : List Tid), ∑ k ∈ Ks, (L.map fun t => histWork n w (s.hist k).inner.sum ((s.hist k).pc t)).sum ≤
      L.length * (n + 5 + w) := by
    intro w L
    induction L with
    | nil => simp
    | cons t L ih =>
      simp only [List.map_cons, List.sum_cons, Finset.sum_add_distrib, List.length_cons]
      have : ∑ k ∈ Ks, histWork n w (s.hist k).inner.sum ((s.hist k).pc t) ≤ n + 5 + w := by
        by_cases hb : ∃ k ∈ Ks, (s.hist k).pc t ≠ .idle
        · obtain ⟨k, hk, hb⟩ := hb
          rw [Finset.sum_eq_single_of_mem k hk]
          · exact histWork_le ..
          · intro k' _ hne
            have : (s.hist k').pc t = .idle := by
              by_contra hc
              exact hne (B.one hc hb)
            rw [this]; rfl
        · push Not at hb
          rw [Finset.sum_eq_zero fun k hk => by rw [hb k hk]; rfl]
          omega
      rw [Nat.add_mul, Nat.one_mul]
      omega
  have := key (2 * T.length) T
  refine Nat.le_trans this (Nat.mul_le_mul_left _ ?_)
  unfold histCost
  omega

end Measured.Server
