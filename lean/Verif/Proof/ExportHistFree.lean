import Verif.Spec.ExportHistLive
import Verif.Proof.ExportRefine
import Verif.Proof.HistVecLive
import Verif.Props.ExportHist

/-! # Proofs about the example server with its histograms: somebody can always go on -/

namespace Measured.Server
open Measured.Conc Measured.Spec

variable {m : Mode} {c : Vec → ShardConf Key} {ryu : F64 → Bytes} {le : List F64} {cap : Nat}

/-! ## Who is at work on a histogram -/

theorem step_other {s s' : Sys} {e : Event} (hs : Step m c s e s') {t u : Tid} (ht : e.Of t) (hu : u ≠ t) :
    s'.pc u = s.pc u ∧ ∀ i, (s'.vecs.own i).seen u = (s.vecs.own i).seen u := by
  cases hs with
  | @own v _ p _ hm =>
    obtain rfl := of_unique ht (moves_of hm)
    exact ⟨Function.update_of_ne hu .., fun _ => rfl⟩
  | @on v i f x p hl hm hi =>
    obtain rfl := of_unique ht (moves_of hm)
    refine ⟨Function.update_of_ne hu .., fun j => ?_⟩
    by_cases hj : j = i
    · subst hj
      show ((s.vecs.put j x).own j).seen u = _
      rw [put_self]
      exact (lv_others hl ht hu).2.2
    · show ((s.vecs.put i x).own j).seen u = _
      rw [put_ne _ hj]

theorem estep_other {s s' : ESys} {e : EEvent} (hs : EStep m c ryu le s e s') {t u : Tid} (ht : e.Of t) (hu : u ≠ t) :
    s'.base.pc u = s.base.pc u ∧ s'.at' u = s.at' u ∧ ∀ i, (s'.base.vecs.own i).seen u = (s.base.vecs.own i).seen u := by
  cases hs with
  | run h hs ht' => obtain ⟨h1, h2⟩ := step_other hs ht hu; exact ⟨h1, rfl, h2⟩
  | call => cases ht; exact ⟨rfl, Function.update_of_ne hu .., fun _ => rfl⟩
  | lock => cases ht; exact ⟨rfl, Function.update_of_ne hu .., fun _ => rfl⟩
  | giveUp h hs => obtain ⟨h1, h2⟩ := step_other hs ht hu; cases ht; exact ⟨h1, Function.update_of_ne hu .., h2⟩
  | head h hs => obtain ⟨h1, h2⟩ := step_other hs ht hu; cases ht; exact ⟨h1, Function.update_of_ne hu .., h2⟩
  | headCrash => cases ht; exact ⟨rfl, Function.update_of_ne hu .., fun _ => rfl⟩
  | pass h hs => obtain ⟨h1, h2⟩ := step_other hs ht hu; exact ⟨h1, rfl, h2⟩
  | entry h hs => obtain ⟨h1, h2⟩ := step_other hs ht hu; exact ⟨h1, rfl, h2⟩
  | entryCrash => cases ht; exact ⟨rfl, Function.update_of_ne hu .., fun _ => rfl⟩
  | next h hs => obtain ⟨h1, h2⟩ := step_other hs ht hu; cases ht; exact ⟨h1, Function.update_of_ne hu .., h2⟩
  | finish => cases ht; exact ⟨rfl, Function.update_of_ne hu .., fun _ => rfl⟩
  | answer h hs => obtain ⟨h1, h2⟩ := step_other hs ht hu; cases ht; exact ⟨h1, Function.update_of_ne hu .., h2⟩

theorem of_some (e : EEvent) : ∃ t, e.Of t := by
  cases e with
  | base e =>
    cases e with
    | on i f =>
      cases f with
      | lab f => cases f <;> exact ⟨_, rfl⟩
      | vec f => exact ⟨_, rfl⟩
      | shown => exact ⟨_, rfl⟩
    | _ => exact ⟨_, rfl⟩
  | _ => exact ⟨_, rfl⟩

/-- Why somebody is at work on a histogram: it observes its duration, or it writes the entry. -/
def DBusy (s : DSys) : Prop := ∀ k t, (s.hist k).pc t ≠ .idle →
  (((s.hist k).pc t).ofSampler = false ∧ (∃ r st, s.top.base.pc t = .durObserve r k st) ∧ s.top.at' t = .out) ∨
  (((s.hist k).pc t).ofSampler = true ∧ s.top.at' t = .pass .duration ∧ ∃ g, (s.top.base.vecs.own .duration).seen t = some (k, g))

theorem DBusy.one {s : DSys} (h : DBusy s) {k k' : Key} {t : Tid} (h1 : (s.hist k).pc t ≠ .idle) (h2 : (s.hist k').pc t ≠ .idle) :
    k = k' := by
  rcases h k t h1 with ⟨_, ⟨r, st, a1⟩, a2⟩ | ⟨_, a2, g, a1⟩ <;> rcases h k' t h2 with ⟨_, ⟨r', st', b1⟩, b2⟩ | ⟨_, b2, g', b1⟩
  · rw [a1] at b1; cases b1; rfl
  · rw [a2] at b2; cases b2
  · rw [a2] at b2; cases b2
  · rw [a1] at b1; cases b1; rfl

/-- Steps of a thread that is not at work on any histogram, and does not change them. -/
theorem DBusy.top {s s' : DSys} (h : DBusy s) {e : EEvent} (hs : EStep m c ryu le s.top e s'.top) (hq : ∀ t, e.Of t → ∀ k, (s.hist k).pc t = .idle)
    (hh : ∀ k t, (s'.hist k).pc t = (s.hist k).pc t) : DBusy s' := by
  obtain ⟨t, ht⟩ := of_some e
  intro k u hu
  rw [hh] at hu ⊢
  have hne : u ≠ t := by rintro rfl; exact hu (hq u ht k)
  obtain ⟨h1, h2, h3⟩ := estep_other hs ht hne
  rw [h1, h2, h3]
  exact h k u hu

/-- A step on a histogram. -/
theorem DBusy.hist {s s' : DSys} (I : DBusy s) {k : Key} {t : Tid} {h : HistSys} (hs' : s'.hist = Function.update s.hist k h)
    (ho : ∀ u, u ≠ t → h.pc u = (s.hist k).pc u)
    (hother : ∀ u, u ≠ t → s'.top.base.pc u = s.top.base.pc u ∧ s'.top.at' u = s.top.at' u ∧
      (s'.top.base.vecs.own .duration).seen u = (s.top.base.vecs.own .duration).seen u)
    (hq : ∀ k', k' ≠ k → (s.hist k').pc t = .idle)
    (ht : h.pc t ≠ .idle → ((h.pc t).ofSampler = false ∧ (∃ r st, s'.top.base.pc t = .durObserve r k st) ∧ s'.top.at' t = .out) ∨
      ((h.pc t).ofSampler = true ∧ s'.top.at' t = .pass .duration ∧ ∃ g, (s'.top.base.vecs.own .duration).seen t = some (k, g))) : DBusy s' := by
  intro k' u hu
  rw [hs'] at hu ⊢
  by_cases hut : u = t
  · subst hut
    by_cases hk : k' = k
    · subst hk
      rw [Function.update_self] at hu ⊢
      exact ht hu
    · rw [Function.update_of_ne hk] at hu
      exact absurd (hq k' hk) hu
  · obtain ⟨h1, h2, h3⟩ := hother u hut
    have : (Function.update s.hist k h k').pc u = (s.hist k').pc u := by
      by_cases hk : k' = k
      · subst hk; rw [Function.update_self]; exact ho u hut
      · rw [Function.update_of_ne hk]
    rw [this] at hu ⊢
    rw [h1, h2, h3]
    exact I k' u hu

theorem sample_pc {a h : HistSys} {t : Tid} {r : List Nat × Nat × F64} (hs : HistStep le a (.sample t r) h) :
    a.pc t ≠ .idle ∧ h.pc t = .idle := by
  cases hs with
  | unlockWrite _ out inf sum hp => exact ⟨fun h => (by rw [hp] at h; cases h), Function.update_self ..⟩

theorem dbusy_step {s s' : DSys} {e : DEvent} (I : DBusy s) (hs : DStep m c ryu le s e s') : DBusy s' := by
  cases hs with
  | top hs he hq => exact I.top (s' := ⟨_, _⟩) hs hq fun _ _ => rfl
  | @insert t k x hs hq =>
    refine I.top (s' := ⟨_, _⟩) hs (fun u hu => by cases hu; exact hq) fun k' u => ?_
    by_cases hk : k' = k
    · subst hk; simp only [Function.update_self]
    · simp only [Function.update_of_ne hk]
  | @observe t r k st e h hp ho hi hg hq hs ht h0 h1 hd hn =>
    subst ht
    exact I.hist (s' := ⟨_, _⟩) rfl (fun u hu => hist_other hs hu) (fun _ _ => ⟨rfl, rfl, rfl⟩) hq fun _ => .inl ⟨h1, ⟨r, st, hp⟩, ho⟩
  | @observed t r k st x h hp ho hi hg hq hs =>
    refine I.hist (s' := ⟨_, _⟩) rfl (fun u hu => hist_other hs hu) (fun u hu => ⟨Function.update_of_ne hu .., rfl, rfl⟩) hq fun hne => ?_
    cases hs with
    | unlockRead => exact absurd (Function.update_self ..) hne
  | @sampling t k e h i j acc snap us g hp hc hk hg hs ht h1 =>
    subst ht
    refine I.hist (s' := ⟨_, _⟩) rfl (fun u hu => hist_other hs hu) (fun _ _ => ⟨rfl, rfl, rfl⟩) (fun k' hk' => ?_) fun _ => .inr ⟨h1, hp, g, hg⟩
    by_contra hb
    rcases I k' _ hb with ⟨_, _, a⟩ | ⟨_, _, g', a⟩
    · rw [hp] at a; cases a
    · rw [hg] at a; cases a; exact hk' rfl
  | @entry t k g r h x enc hp hs hx he =>
    obtain ⟨h1, h2⟩ := sample_pc hs
    refine I.hist (s' := ⟨_, _⟩) rfl (fun u hu => hist_other hs hu) (fun u hu => ?_) (fun k' hk' => ?_) fun hne => absurd h2 hne
    · obtain ⟨h1, h2⟩ := step_other hx (t := t) rfl hu
      exact ⟨h1, rfl, h2 _⟩
    · by_contra hb
      exact hk' (I.one hb h1)
  | @entryCrash t k g r h x o enc hp hs hx he ho =>
    obtain ⟨h1, h2⟩ := sample_pc hs
    refine I.hist (s' := ⟨_, _⟩) rfl (fun u hu => hist_other hs hu) (fun u hu => ⟨rfl, Function.update_of_ne hu .., rfl⟩) (fun k' hk' => ?_)
      fun hne => absurd h2 hne
    by_contra hb
    exact hk' (I.one hb h1)

theorem dbusy {tr : List DEvent} {s : DSys} (h : Exec (DStep m c ryu le) (.new cap le.length) tr s) : DBusy s := by
  induction h with
  | nil => intro k t h; exact absurd rfl h
  | snoc _ hs ih => exact dbusy_step ih hs

/-! ## The map of the durations -/

theorem step_map {s s' : Sys} {e : Event} (hs : Step m c s e s') :
    Exec (SStep (c .duration)) (s.vecs.own .duration).vec (mapEvents .duration [e]) (s'.vecs.own .duration).vec := by
  cases hs with
  | own hn _ =>
    have : mapEvents .duration [e] = [] := by cases e <;> first | rfl | exact absurd rfl (hn _ _)
    rw [this]; exact .nil
  | @on t j f x p hl hm hi =>
    by_cases hj : j = .duration
    · subst hj
      show Exec _ _ _ ((s.vecs.put .duration x).own .duration).vec
      rw [put_self]
      cases hl with
      | lab hl => exact .nil
      | vec hv ha => exact Exec.nil.snoc hv
      | shown hv hse => exact Exec.nil.snoc hv
    · show Exec _ _ _ ((s.vecs.put j x).own .duration).vec
      rw [put_ne _ (Ne.symm hj), mapEvents_ne hj]
      exact .nil

theorem estep_map {s s' : ESys} {e : EEvent} (hs : EStep m c ryu le s e s') :
    Exec (SStep (c .duration)) (s.base.vecs.own .duration).vec (mapEvents .duration (baseEvents [e])) (s'.base.vecs.own .duration).vec := by
  cases hs with
  | run h hs => exact step_map hs
  | call => exact .nil
  | lock => exact .nil
  | giveUp h hs => exact step_map hs
  | head h hs => exact step_map hs
  | headCrash => exact .nil
  | pass h hs => exact step_map hs
  | entry h hs => exact step_map hs
  | entryCrash => exact .nil
  | next h hs => exact step_map hs
  | finish => exact .nil
  | answer h hs => exact step_map hs

/-- The map itself, on which nothing is recorded. -/
theorem d_map {tr : List DEvent} {s : DSys} (h : Exec (DStep m c ryu le) (.new cap le.length) tr s) :
    ∃ vtr, Exec (SStep (c .duration)) SSys.new vtr (s.top.base.vecs.own .duration).vec ∧ ∀ t k u, .update t k u ∉ vtr := by
  induction h with
  | nil => exact ⟨[], .nil, by simp⟩
  | snoc _ hs ih =>
    obtain ⟨vtr, h1, h2⟩ := ih
    cases hs with
    | @top e x hs he hq =>
      refine ⟨_, exec_append h1 (estep_map hs), fun t k u hm => ?_⟩
      rcases List.mem_append.1 hm with hm | hm
      · exact h2 t k u hm
      · cases e with
        | base e =>
          have := (mem_mapEvents (i := .duration) (by simp)).1 hm
          obtain rfl := List.mem_singleton.1 this
          exact he
        | _ => cases hm
    | @insert t' k' x hs hq =>
      refine ⟨_, exec_append h1 (estep_map hs), fun t k u hm => ?_⟩
      rcases List.mem_append.1 hm with hm | hm
      · exact h2 t k u hm
      · have := (mem_mapEvents (i := .duration) (by simp)).1 hm
        cases List.mem_singleton.1 this
    | observe => exact ⟨vtr, h1, h2⟩
    | observed => exact ⟨vtr, h1, h2⟩
    | sampling => exact ⟨vtr, h1, h2⟩
    | @entry t' k' g r h x enc hp hs hx he =>
      refine ⟨_, exec_append h1 (step_map hx), fun t k u hm => ?_⟩
      rcases List.mem_append.1 hm with hm | hm
      · exact h2 t k u hm
      · have := (mem_mapEvents (i := .duration) (by simp)).1 hm
        cases List.mem_singleton.1 this
    | entryCrash => exact ⟨vtr, h1, h2⟩

theorem none_recorded {vtr : List (SEvent Key HistCall)} (h : ∀ t k u, .update t k u ∉ vtr) {k : Key} {us : List HistCall}
    (hk : mapOf vtr k = some us) : us = [] := by
  induction vtr using List.reverseRecOn generalizing us with
  | nil => cases hk
  | append_singleton vtr e ih =>
    have ih := @ih fun t k u hm => h t k u (List.mem_append_left _ hm)
    rw [mapOf_snoc] at hk
    cases e with
    | update t k' u => exact absurd (List.mem_append_right _ (List.mem_singleton.2 rfl)) (h t k' u)
    | insert t k' =>
      simp only [mapAfter] at hk
      split at hk
      · cases hk; rfl
      · exact ih hk
    | remove t k' r =>
      simp only [mapAfter] at hk
      split at hk
      · cases hk
      · exact ih hk
    | _ => exact ih hk

/-! ## From single-step histograms to histograms step by step -/

section
variable {b b' s s' : Sys} {t : Tid}

/-- The vector of the durations has become `y` and `x`, and the rest is as it was. -/
theorem Same.put (I : Same b s) {x y : LVSys (Rodeo Lab) Lab Vec.duration.Call Vec.duration.groups.n} {P A : Tid → Pc}
    (hl : y.lab = x.lab) (hs : y.seen = x.seen) (hv : y.vec.erase = x.vec.erase) :
    Same ⟨b.vecs.put .duration y, A⟩ ⟨s.vecs.put .duration x, P⟩ where
  heap := congrArg LabelSys.heap hl
  own := fun i hi => by
    show (b.vecs.put _ y).own i = (s.vecs.put _ x).own i
    rw [put_ne _ hi, put_ne _ hi]; exact I.own i hi
  ids := by
    show ((b.vecs.put _ y).own _).ids = ((s.vecs.put _ x).own _).ids
    rw [put_self, put_self]; exact congrArg LabelSys.ids hl
  lab := by
    show ((b.vecs.put _ y).own _).pc = ((s.vecs.put _ x).own _).pc
    rw [put_self, put_self]; exact congrArg LabelSys.pc hl
  seen := by
    show ((b.vecs.put _ y).own _).seen = ((s.vecs.put _ x).own _).seen
    rw [put_self, put_self]; exact hs
  vec := by
    show ((b.vecs.put _ y).own _).vec.erase = ((s.vecs.put _ x).own _).vec.erase
    rw [put_self, put_self]; exact hv

/-- A step outside of the histograms. -/
theorem lower_base {e : Event} (I : Same b s) (hpt : b.pc t = s.pc t) {vtr : List (SEvent Key HistCall)}
    (hx : Exec (SStep (c .duration)) SSys.new vtr (s.vecs.own .duration).vec) (hs : Step m c b e b') (ht : e.Of t)
    (hnu : ∀ u k x, e ≠ .on .duration (.vec (.update u k x))) (hns : ∀ u k g us, e ≠ .on .duration (.shown u k g us)) :
    ∃ e' s', Step m c s e' s' ∧ Like e e' ∧ Same b' s' := by
  cases hs with
  | @own u _ p hn hm =>
    have hu : u = t := of_unique (moves_of hm) ht
    subst hu
    exact ⟨e, ⟨s.vecs, Function.update s.pc u p⟩, .own hn (hpt ▸ hm), .inl rfl, I.heap, I.own, I.ids, I.lab, I.seen, I.vec⟩
  | @on u i f x p hl hm hi =>
    have hu : u = t := of_unique (moves_of hm) ht
    subst hu
    by_cases hdur : i = .duration
    · subst hdur
      cases hl with
      | @lab e l hl =>
        rw [hpt] at hm hi
        rw [I.lab_eq] at hl
        refine ⟨_, _, .on (.lab hl) hm ?_, .inl rfl, ?_⟩
        · rw [← I.heap]; exact hi
        · refine I.put rfl ?_ I.vec
          show noteDecode (b.vecs.own _).seen e = noteDecode (s.vecs.own _).seen e
          rw [I.seen]
      | @vec e v hv ha =>
        have hu : ∀ t k x, e ≠ .update t k x := by rintro t k x rfl; exact hnu _ _ _ rfl
        have hem : ∀ t k us, e ≠ .emit t k us := by rintro t k us rfl; exact ha
        have hrm : ∀ t k us, e ≠ .remove t k us := by
          rintro t k us rfl
          clear hpt hi
          generalize b.pc u = q at hm
          cases hm <;> rename_i h <;> cases h
        have ht : e.tid = u := ht
        have hv' := step_erase hv hu
        rw [show (b.vecs.at .duration).vec.erase = (s.vecs.own .duration).vec.erase from I.vec] at hv'
        obtain ⟨e', a', h1, h2, h3, h4⟩ := erase_step (s_inv hx) (snap_inv hx) hv'
        have hu' : ∀ t k x, e' ≠ .update t k x := by rintro t k x rfl; exact h4
        have hlike : Like (.on .duration (.vec e)) (.on .duration (.vec e')) := by
          rcases erase_inj h3 hu hu' hem hrm with rfl | ⟨t, acc, acc', rfl, rfl, h⟩
          · exact .inl rfl
          · exact .inr ⟨t, acc, acc', rfl, rfl, h⟩
        rw [hpt] at hm hi
        have hm' : Moves u (s.pc u) (.on .duration (.vec e')) p := by
          rcases erase_inj h3 hu hu' hem hrm with rfl | ⟨t, acc, acc', rfl, rfl, h⟩
          · exact hm
          · generalize s.pc u = q at hm
            cases hm with
            | collect r k _ h => cases h; exact .collect r k _ (.finish acc')
            | durGet r k st h => cases h
            | timerEncode r h => cases h
        have ha' : Allowed (s.vecs.own .duration).ids e' := by
          rw [← I.ids]
          rcases erase_inj h3 hu hu' hem hrm with rfl | ⟨t, acc, acc', rfl, rfl, h⟩
          · exact ha
          · trivial
        exact ⟨_, _, step_vec h1 ha' hm', hlike, I.put I.lab_eq I.seen h2.symm⟩
      | shown => exact absurd rfl (hns _ _ _ _)
    · rw [hpt] at hm hi
      rw [I.at_eq hdur] at hl
      refine ⟨_, _, .on hl hm (by rw [← I.heap]; exact hi), .inl rfl, rfl, fun j hj => ?_, ?_, ?_, ?_, ?_⟩
      · by_cases hji : j = i
        · subst hji
          show (b.vecs.put j x).own j = (s.vecs.put j x).own j
          rw [put_self, put_self]
        · show (b.vecs.put i x).own j = (s.vecs.put i x).own j
          rw [put_ne _ hji, put_ne _ hji]; exact I.own j hj
      · show ((b.vecs.put i x).own _).ids = ((s.vecs.put i x).own _).ids
        rw [put_ne _ (Ne.symm hdur), put_ne _ (Ne.symm hdur)]; exact I.ids
      · show ((b.vecs.put i x).own _).pc = ((s.vecs.put i x).own _).pc
        rw [put_ne _ (Ne.symm hdur), put_ne _ (Ne.symm hdur)]; exact I.lab
      · show ((b.vecs.put i x).own _).seen = ((s.vecs.put i x).own _).seen
        rw [put_ne _ (Ne.symm hdur), put_ne _ (Ne.symm hdur)]; exact I.seen
      · show ((b.vecs.put i x).own _).vec.erase = ((s.vecs.put i x).own _).vec.erase
        rw [put_ne _ (Ne.symm hdur), put_ne _ (Ne.symm hdur)]; exact I.vec

end

/-! ## Progress -/

theorem erase_waitsW {K U : Type} [DecidableEq K] {c : ShardConf K} {th : SThread K U} {i : Nat} : th.erase.WaitsW c i ↔ th.WaitsW c i := by
  unfold SThread.WaitsW SThread.erase
  cases th.pc <;> simp [SPc.erase]

theorem polite_lower {a s : ESys} (I : Same a.base s.base) {e e' : Event} (hl : Like e e') (h : Polite c a (.base e)) :
    Polite c s (.base e') := by
  rcases hl with rfl | ⟨t, acc, acc', rfl, rfl, _⟩
  · cases e' with
    | on i f =>
      cases f with
      | vec f =>
        by_cases hi : i = .duration
        · subst hi
          cases f with
          | lockR t sh =>
            intro u hw
            refine h u (erase_waitsW.1 ?_)
            have : (a.base.vecs.own .duration).vec.erase.thr u = (s.base.vecs.own .duration).vec.erase.thr u := by rw [I.vec]
            show ((a.base.vecs.own .duration).vec.erase.thr u).WaitsW _ _
            rw [this]
            exact erase_waitsW.2 hw
          | _ => trivial
        · have h : Strict (c i) (a.base.vecs.own i).vec f := h
          show Strict (c i) (s.base.vecs.own i).vec f
          rw [← I.own i hi]; exact h
      | _ => trivial
    | _ => trivial
  · trivial

/-- Somebody is at work on a histogram. -/
theorem busy_progress {tr : List DEvent} {s : DSys} (h : Exec (DStep m c ryu le) (.new cap le.length) tr s)
    (hlen : FewRequests (outer tr)) (hle : thresholds = .ok le) {k : Key} {t : Tid} (hb : (s.hist k).pc t ≠ .idle) :
    ∃ e s', DStep m c ryu le s e s' ∧ DGoes s e s' ∧ DPolite c s e := by
  obtain ⟨parts, a, h1, I⟩ := d_inv h
  have few := outer_few h1 hlen
  have P := place_inv I.exec (C88_no_crash I.exec few hle)
  have B := dbusy h
  obtain ⟨vtr, hv, hnu⟩ := d_map h
  obtain ⟨htr, H⟩ := I.base.hv
  have hI := s_inv H.exec
  have hm : ∃ us, mapOf (mapEvents .duration (baseEvents parts.flatten)) k = some us := by
    rw [← Option.ne_none_iff_exists', ← hI.abs]
    rcases H.busy k t with hb' | ⟨_, _, hg⟩ | ⟨_, i, j, acc, snap, us, _, h3⟩
    · exact absurd hb' hb
    · exact (hI.ok t).guards k hg
    · have hmem := List.mem_of_getElem? h3
      have := hI.place i _ hmem
      rw [show (c .duration).shardOf k = i from this, findKey_mem (hI.nodup i) hmem]
      simp
  obtain ⟨us, hus⟩ := hm
  obtain ⟨tr', hx, _, _⟩ := H.hist k us hus
  obtain ⟨e, h', hs, hg⟩ := hist_progress (hist_inv hx).1 ⟨t, hb⟩
  obtain ⟨hne, hsame⟩ := hist_thread_busy hs hg
  clear hb t
  have hs : HistStep le (s.hist k) e h' := hs
  have hne : (s.hist k).pc e.tid ≠ .idle := hne
  have hvec := I.base.vec
  have hthr : ∀ u, ((a.base.vecs.own .duration).vec.thr u).erase = ((s.top.base.vecs.own .duration).vec.thr u).erase := fun u =>
    congrArg (fun v : SSys Key Empty => v.thr u) hvec
  have hone : ∀ k', k' ≠ k → (s.hist k').pc e.tid = .idle := fun k' hk' => by
    by_contra hb
    exact hk' (B.one hb hne)
  have hgoes : HistGoes (s.hist k) (Function.update s.hist k h' k) := by rw [Function.update_self]; exact hg
  rcases B k e.tid hne with ⟨b1, ⟨r, st, b2⟩, b3⟩ | ⟨b1, b2, g, b3⟩
  · rcases H.busy k e.tid with hb' | ⟨_, h2, h3⟩ | ⟨h1, _⟩
    · exact absurd hb' hne
    · have hi : ((s.top.base.vecs.own .duration).vec.thr e.tid).pc = .idle := erase_idle (by
        exact (congrArg SThread.pc (hthr e.tid)).symm.trans (congrArg SPc.erase h2))
      have hgd : k ∈ ((s.top.base.vecs.own .duration).vec.thr e.tid).guards := by
        have := congrArg SThread.guards (hthr e.tid)
        exact (show ((a.base.vecs.own .duration).vec.thr e.tid).guards = ((s.top.base.vecs.own .duration).vec.thr e.tid).guards from this) ▸ h3
      by_cases hd : ∃ x, e = .done e.tid x
      · obtain ⟨x, hd⟩ := hd
        generalize hu : e.tid = u at *
        subst hd
        exact ⟨_, _, .observed b2 b3 hi hgd hone hs, .inr hgoes, trivial⟩
      · refine ⟨_, _, .observe b2 b3 hi hgd hone hs rfl b1 ?_ ?_ fun x hx => hd ⟨x, hx⟩, .inr hgoes, trivial⟩
        · rcases hsame with h | h
          · rw [h]; rfl
          · rw [h, b1]
        · intro x hx
          generalize e.tid = u at *
          subst hx
          cases hs with
          | start _ _ b h => exact absurd h hne
    · rw [show ((s.hist k).pc e.tid).ofSampler = true from h1] at b1; cases b1
  · rcases H.busy k e.tid with hb' | ⟨h1, _⟩ | ⟨_, i, j, acc, snap, us, h2, h3⟩
    · exact absurd hb' hne
    · rw [show ((s.hist k).pc e.tid).ofSampler = false from h1] at b1; cases b1
    · obtain ⟨acc', snap', hp⟩ : ∃ acc' snap', ((s.top.base.vecs.own .duration).vec.thr e.tid).pc = .scan i j acc' snap' := by
        have : ((s.top.base.vecs.own .duration).vec.thr e.tid).pc.erase = .scan i j (eraseT acc) (eraseT snap) := by
          rw [← show _ = ((s.top.base.vecs.own .duration).vec.thr e.tid).pc.erase from congrArg SThread.pc (hthr e.tid)]
          exact congrArg SPc.erase h2
        generalize eraseT acc = A, eraseT snap = S at this
        cases hp : ((s.top.base.vecs.own .duration).vec.thr e.tid).pc <;> rw [hp] at this <;> cases this
        exact ⟨_, _, rfl⟩
      have hk : ((s.top.base.vecs.own .duration).vec.shards i)[j]? = some (k, []) := by
        have g1 : (eraseT ((s.top.base.vecs.own .duration).vec.shards i))[j]? = some (k, []) := by
          have : (a.base.vecs.own .duration).vec.erase.shards i = (s.top.base.vecs.own .duration).vec.erase.shards i := by rw [hvec]
          show ((s.top.base.vecs.own .duration).vec.erase.shards i)[j]? = _
          rw [← this]
          show (eraseT _)[j]? = _
          unfold eraseT
          rw [List.getElem?_map, h3]; rfl
        unfold eraseT at g1
        rw [List.getElem?_map, Option.map_eq_some_iff] at g1
        obtain ⟨⟨k', us'⟩, g2, hk⟩ := g1
        simp only [Prod.mk.injEq, and_true] at hk
        subst hk
        rw [g2, none_recorded hnu (((C23_contents hv).2 i k' us').1 (List.mem_of_getElem? g2)).2]
      by_cases hidle : h'.pc e.tid = .idle
      · obtain ⟨rs, hr⟩ : ∃ r, e = .sample e.tid r := by
          cases hs <;> simp_all [HistEvent.tid, HistPc.ofSampler, HistSys.goto]
        obtain ⟨old, ho, hpre⟩ := (snap_inv hv e.tid i j _ _ hp).get hk
        obtain rfl : old = [] := List.prefix_nil.1 hpre
        obtain ⟨r, k', hin⟩ := P.inside e.tid (by rw [I.at', b2]; simp)
        have hin : s.top.base.pc e.tid = .inside r k' := by
          rcases I.base.pc e.tid with ⟨_, k₂, _, x, _, hx, _⟩ | ⟨_, hx⟩
          · have hk2 := B.one (k' := k₂) hne (by rw [hx]; simp)
            subst hk2
            rw [hx] at b1; cases b1
          · rw [← hx]; exact hin
        have hstep := SStep.emit (c := c .duration) (s.top.base.vecs.own .duration).vec e.tid i j _ _ k [] [] [] hp hk ho
          (List.prefix_refl _) (List.prefix_refl _)
        have hl : LVStep m threadedRodeo Vec.duration.groups (c .duration) (s.top.base.vecs.at .duration) (.shown e.tid k g []) _ :=
          .shown hstep b3
        have hstep' : Step m c s.top.base (.on .duration (.shown e.tid k g [])) _ :=
          .on hl (by rw [hin]; exact .collect r k' _ (.shown ..)) fun v hv => .inl hv
        generalize e.tid = u at *
        subst hr
        cases he : (textEncoder m ryu).sample (.histogram le ⟨rs.1, rs.2.1, rs.2.2⟩) (derivedLabels requestsDef Lab.shown g)
            Vec.duration.name s.top.enc with
        | mk o enc =>
          by_cases hok : o = .ok ()
          · subst hok
            exact ⟨_, _, .entry b2 hs hstep' he, trivial, trivial⟩
          · exact ⟨_, _, .entryCrash b2 hs hstep' he hok, trivial, trivial⟩
      · refine ⟨_, _, .sampling b2 hp hk b3 hs rfl ?_, .inr hgoes, trivial⟩
        rcases hsame with h | h
        · exact absurd h hidle
        · rw [h, b1]

theorem top_or_insert {s : DSys} {e : Event} {x : ESys} (hs : EStep m c ryu le s.top (.base e) x)
    (hi : ∀ k t, (s.hist k).pc t = .idle) (hnu : ∀ u k x, e ≠ .on .duration (.vec (.update u k x)))
    (hns : ∀ u k g us, e ≠ .on .duration (.shown u k g us)) (hg : Goes s.top (.base e)) (hp : Polite c s.top (.base e)) :
    ∃ e s', DStep m c ryu le s e s' ∧ DGoes s e s' ∧ DPolite c s e := by
  by_cases hin : ∃ t k, e = .on .duration (.vec (.insert t k))
  · obtain ⟨t, k, rfl⟩ := hin
    exact ⟨_, _, .insert hs fun k => hi k t, hg, hp⟩
  · have hc : Coarse s.top (.base e) := by
      cases e with
      | on i f =>
        cases i with
        | duration =>
          cases f with
          | vec f =>
            cases f with
            | insert t k => exact absurd ⟨t, k, rfl⟩ hin
            | update t k x => exact absurd rfl (hnu t k x)
            | _ => trivial
          | shown t k g us => exact absurd rfl (hns t k g us)
          | lab => trivial
        | _ => trivial
      | _ => trivial
    exact ⟨_, _, .top hs hc fun t _ k => hi k t, hg, hp⟩

theorem goes_like {a s : ESys} (hat : a.at' = s.at') {e e' : Event} (hl : Like e e') (h : Goes a (.base e)) : Goes s (.base e') := by
  rcases hl with rfl | ⟨t, acc, acc', rfl, rfl, _⟩
  · cases e' with
    | answer t st => show s.at' t ≠ _; rw [← hat]; exact h
    | _ => exact h
  · trivial

/-- Nobody is at work on a histogram. -/
theorem idle_progress {tr : List DEvent} {s : DSys} (h : Exec (DStep m c ryu le) (.new cap le.length) tr s)
    (hlen : FewRequests (outer tr)) (hle : thresholds = .ok le) (hi : ∀ k t, (s.hist k).pc t = .idle) (hr : ¬ AtRest s.top) :
    ∃ e s', DStep m c ryu le s e s' ∧ DGoes s e s' ∧ DPolite c s e := by
  obtain ⟨parts, a, h1, I⟩ := d_inv h
  have few := outer_few h1 hlen
  have P := place_inv I.exec (C88_no_crash I.exec few hle)
  obtain ⟨vtr, hv, hnu⟩ := d_map h
  have S := I.base.same
  have hpc : ∀ t, a.base.pc t = s.top.base.pc t := fun t => I.base.pc_idle fun k => hi k t
  have hat := congrFun I.at'
  have hra : ¬ AtRest a := by
    intro h
    refine hr fun t => ?_
    have := h t
    unfold Rests at this ⊢
    rw [hpc, hat] at this
    exact this
  have hthr : ∀ u, ((a.base.vecs.own .duration).vec.thr u).erase = ((s.top.base.vecs.own .duration).vec.thr u).erase := fun u =>
    congrArg (fun v : SSys Key Empty => v.thr u) S.vec
  obtain ⟨e, a', hs, hg, hp⟩ := C89_progress I.exec few hle hra
  cases hs with
  | @run t e x ho hs ht he =>
    by_cases hu : ∃ u k y, e = .on .duration (.vec (.update u k y))
    · obtain ⟨u, k, y, rfl⟩ := hu
      obtain rfl : u = t := ht
      obtain ⟨_, hm, _⟩ := on_step hs (t := u) rfl
      obtain ⟨r, st, d, hd, hp1⟩ : ∃ r st d, d / 10 ^ 9 < 2 ^ 64 ∧ a.base.pc u = .durObserve r k st := by
        generalize a.base.pc u = q, x.pc u = q' at hm
        cases hm with
        | durObserve r _ st d h => exact ⟨r, st, d, h, rfl⟩
        | collect r k _ h => cases h
        | durGet r k st h => cases h
        | timerEncode r h => cases h
      have ok := P.ok u .duration
      rw [ho, hp1] at ok
      obtain ⟨_, ok, _⟩ := ok
      have ok : (a.base.vecs.own .duration).vec.thr u = ⟨.idle, [k]⟩ := ok
      have hti : ((s.top.base.vecs.own .duration).vec.thr u).pc = .idle := erase_idle (by
        exact (congrArg SThread.pc (hthr u)).symm.trans (by rw [ok]; rfl))
      have hgd : k ∈ ((s.top.base.vecs.own .duration).vec.thr u).guards := by
        have := congrArg SThread.guards (hthr u)
        rw [← show _ = ((s.top.base.vecs.own .duration).vec.thr u).guards from this, ok]
        exact List.mem_singleton.2 rfl
      have hq : ∀ k', k' ≠ k → (s.hist k').pc u = .idle := fun k' _ => hi k' u
      have hpd := (hpc u).symm.trans hp1
      have hout := (hat u).symm.trans ho
      by_cases hb : ∃ b, slicePartitionPoint le (fun e => F64.flt e (asSecsF64 d)) = .ok b
      · obtain ⟨b, hb⟩ := hb
        refine ⟨_, _, .observe hpd hout hti hgd hq (.start _ u (asSecsF64 d) b (hi k u) hb) rfl (by rw [hi]; rfl) ?_ ?_ (by simp),
          .inl (hi k u), trivial⟩
        · rw [show ((s.hist k).goto u (.wantRead b (asSecsF64 d))).pc u = _ from Function.update_self ..]; rfl
        · intro y hy; exact ⟨d, hd, (HistEvent.start.inj hy).2.symm⟩
      · refine ⟨_, _, .observe hpd hout hti hgd hq (.startPanic _ u (asSecsF64 d) (hi k u) fun b h => hb ⟨b, h⟩) rfl (by rw [hi]; rfl) ?_
          (by simp) (by simp), .inl (hi k u), trivial⟩
        rw [show ((s.hist k).goto u .panicked).pc u = _ from Function.update_self ..]; rfl
    · have hu : ∀ u k y, e ≠ .on .duration (.vec (.update u k y)) := fun u k y h => hu ⟨u, k, y, h⟩
      have hsh : ∀ u k g us, e ≠ .on .duration (.shown u k g us) := by
        rintro u k g us rfl
        obtain rfl : u = t := ht
        obtain ⟨_, hm, _⟩ := on_step hs (t := u) rfl
        have he : ∀ r k, a.base.pc u ≠ .inside r k := he
        generalize a.base.pc u = q, x.pc u = q' at hm he
        cases hm with
        | collect r k _ h => exact he _ _ rfl
        | durGet r k st h => cases h
        | timerEncode r h => cases h
      obtain ⟨e', x', g1, g2, g3⟩ := lower_base S (hpc t) hv hs ht hu hsh
      have hstep : EStep m c ryu le s.top (.base e') { s.top with base := x' } :=
        .run ((hat t).symm.trans ho) g1 (g2.of ht) (follows_lift S.symm g3.symm (hpc t).symm g2 he)
      refine top_or_insert hstep hi ?_ ?_ (goes_like I.at' g2 hg) (polite_lower S g2 hp)
      · rintro u k y rfl
        rcases g2 with h | ⟨_, _, _, _, h, _⟩
        · exact hu _ _ _ h.symm
        · cases h
      · rintro u k g us rfl
        rcases g2 with h | ⟨_, _, _, _, h, _⟩
        · exact hsh _ _ _ _ h.symm
        · cases h
  | @call t r k ho hp => exact hg.elim
  | @lock t ho hl =>
    exact ⟨_, _, .top (.lock ((hat t).symm.trans ho) (I.lock.symm.trans hl)) trivial fun u _ k => hi k u, trivial, trivial⟩
  | @giveUp t x ho hs => exact hg.elim
  | @head t i x enc ho hs hh =>
    obtain ⟨e', x', g1, g2, g3⟩ := lower_base S (hpc t) hv hs rfl (by cases i <;> simp) (by cases i <;> simp)
    obtain rfl := like_eq g2 (by cases i <;> simp)
    exact top_or_insert (.head ((hat t).symm.trans ho) g1 (by rw [← I.enc]; exact hh)) hi (by cases i <;> simp) (by cases i <;> simp)
      (goes_like I.at' g2 hg) (polite_lower S g2 hp)
  | @headCrash t i o enc ho hh hc => exact absurd (by simp) (C88_no_crash (I.exec.snoc (.headCrash ho hh hc)) (by
      rw [baseEvents_append]; exact (List.append_nil _).symm ▸ few) hle t)
  | @pass t i e x ho hs ht hc =>
    have hu : ∀ u k y, Event.on i e ≠ .on .duration (.vec (.update u k y)) := by
      rintro u k y h; cases h; exact hc
    have hsh : ∀ u k g us, Event.on i e ≠ .on .duration (.shown u k g us) := by
      rintro u k g us h; cases h; exact hc
    obtain ⟨e', x', g1, g2, g3⟩ := lower_base S (hpc t) hv hs ht hu hsh
    obtain rfl := like_eq g2 (by
        rintro u acc he
        cases he
        exact hc)
    exact top_or_insert (.pass ((hat t).symm.trans ho) g1 ht (collects_lift S.symm g3.symm hc)) hi hu hsh
      (goes_like I.at' g2 hg) (polite_lower S g2 hp)
  | @entry t i k g us x enc ho hs hh =>
    by_cases hdur : i = .duration
    · subst hdur
      obtain ⟨hl, _⟩ := on_step hs (t := t) rfl
      generalize x.vecs.at .duration = y at hl
      cases hl with
      | @shown _ _ _ _ v hsv hseen =>
        cases hsv with
        | emit _ i j acc snap _ old _ cur hc hk _ _ _ =>
          obtain ⟨acc', snap', hp⟩ : ∃ acc' snap', ((s.top.base.vecs.own .duration).vec.thr t).pc = .scan i j acc' snap' := by
            have : ((s.top.base.vecs.own .duration).vec.thr t).pc.erase = .scan i j (eraseT acc) (eraseT snap) := by
              rw [← show _ = ((s.top.base.vecs.own .duration).vec.thr t).pc.erase from congrArg SThread.pc (hthr t)]
              exact congrArg SPc.erase hc
            generalize eraseT acc = A, eraseT snap = S at this
            cases hp : ((s.top.base.vecs.own .duration).vec.thr t).pc <;> rw [hp] at this <;> cases this
            exact ⟨_, _, rfl⟩
          obtain ⟨us', hk'⟩ : ∃ us', ((s.top.base.vecs.own .duration).vec.shards i)[j]? = some (k, us') := by
            have g1 : (eraseT ((s.top.base.vecs.own .duration).vec.shards i))[j]? = some (k, []) := by
              have : (a.base.vecs.own .duration).vec.erase.shards i = (s.top.base.vecs.own .duration).vec.erase.shards i := by rw [S.vec]
              show ((s.top.base.vecs.own .duration).vec.erase.shards i)[j]? = _
              rw [← this]
              show (eraseT ((a.base.vecs.own .duration).vec.shards i))[j]? = _
              unfold eraseT
              rw [List.getElem?_map, show ((a.base.vecs.own .duration).vec.shards i)[j]? = _ from hk]; rfl
            unfold eraseT at g1
            rw [List.getElem?_map, Option.map_eq_some_iff] at g1
            obtain ⟨⟨k', us'⟩, g2, hk⟩ := g1
            simp only [Prod.mk.injEq, and_true] at hk
            subst hk
            exact ⟨_, g2⟩
          refine ⟨_, _, .sampling ((hat t).symm.trans ho) hp hk' (by rw [← S.seen]; exact hseen) (.startSample _ t (hi k t)) rfl ?_,
            .inl (hi k t), trivial⟩
          rw [show ((s.hist k).goto t .wantWrite).pc t = _ from Function.update_self ..]; rfl
    · have hne : ∀ u k' g' us', Event.on i (.shown t k g us) ≠ .on .duration (.shown u k' g' us') := by
        rintro u k' g' us' h; cases h; exact hdur rfl
      obtain ⟨e', x', g1, g2, g3⟩ := lower_base S (hpc t) hv hs rfl (by cases i <;> simp) hne
      obtain rfl := like_eq g2 (by cases i <;> simp)
      exact top_or_insert (.entry ((hat t).symm.trans ho) g1 (by rw [← I.enc]; exact hh)) hi (by cases i <;> simp) hne
        (goes_like I.at' g2 hg) (polite_lower S g2 hp)
  | @entryCrash t i k g us x o enc ho hs hh hc => exact absurd (by simp) (C88_no_crash (I.exec.snoc (.entryCrash ho hs hh hc)) (by
      rw [baseEvents_append]; exact (List.append_nil _).symm ▸ few) hle t)
  | @next t i acc x ho hs =>
    obtain ⟨e', x', g1, g2, g3⟩ := lower_base S (hpc t) hv hs rfl (by cases i <;> simp) (by cases i <;> simp)
    rcases g2 with rfl | ⟨u, acc₁, acc', h1, rfl, h2⟩
    · exact top_or_insert (.next ((hat t).symm.trans ho) g1) hi (by cases i <;> simp) (by cases i <;> simp)
        (goes_like I.at' (.inl rfl) hg) (polite_lower S (.inl rfl) hp)
    · cases h1
      exact top_or_insert (.next ((hat t).symm.trans ho) g1) hi (by simp) (by simp) trivial trivial
  | @finish t out enc ho hh =>
    exact ⟨_, _, .top (.finish ((hat t).symm.trans ho) (by rw [← I.enc]; exact hh)) trivial fun u _ k => hi k u, trivial, trivial⟩
  | @answer t out x ho hs =>
    obtain ⟨e', x', g1, g2, g3⟩ := lower_base S (hpc t) hv hs rfl (by simp) (by simp)
    obtain rfl := like_eq g2 (by simp)
    exact top_or_insert (.answer ((hat t).symm.trans ho) g1) hi (by simp) (by simp) (goes_like I.at' g2 hg) (polite_lower S g2 hp)

theorem d_progress {tr : List DEvent} {s : DSys} (h : Exec (DStep m c ryu le) (.new cap le.length) tr s)
    (hlen : FewRequests (outer tr)) (hle : thresholds = .ok le) (hr : ¬ DAtRest s) :
    ∃ e s', DStep m c ryu le s e s' ∧ DGoes s e s' ∧ DPolite c s e := by
  by_cases hi : ∀ k t, (s.hist k).pc t = .idle
  · exact idle_progress h hlen hle hi fun hat => hr fun t => ⟨hat t, fun k => hi k t⟩
  · push Not at hi
    obtain ⟨k, t, hb⟩ := hi
    exact busy_progress h hlen hle hb

end Measured.Server
