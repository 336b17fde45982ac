import Verif.Proof.Live
import Verif.Props.Atomic
import Verif.Props.HistConc

/-!
# C64, C65: successive scrapes, and progress
-/

namespace Measured
open Conc Spec

/-! ## C64 -/

/-- What a thread knows it passes on to a thread that synchronises with it. -/
theorem int_view_sync {m m' : Mem IntOp Nat} {tr : List IntEvent} (h : Exec IntStep m tr m') {t u : Tid}
    (hu : u = t ∨ .sync u t ∈ tr) : m.view t ≤ m'.view u := by
  rcases hu with rfl | hu
  · exact int_view_mono h u
  · obtain ⟨a, b, rfl⟩ := List.append_of_mem hu
    obtain ⟨m₁, h1, h2⟩ := exec_split a _ h
    obtain ⟨m₂, hs, h3⟩ := exec_cons_inv h2
    have e1 := int_view_mono h1 t
    have e3 := int_view_mono h3 u
    cases hs with
    | sync =>
      have : (m₁.sync u t).view u = max (m₁.view u) (m₁.view t) := Function.update_self _ _ _
      omega

theorem netChange_append (a b : List (Tid × IntOp)) : netChange (a ++ b) = netChange a + netChange b := by
  simp [netChange]

theorem netChange_nonneg {us : List (Tid × IntOp)} (h : ∀ u ∈ us, ∃ x, u.2 = .add x) : 0 ≤ netChange us := by
  induction us with
  | nil => simp [netChange]
  | cons u us ih =>
    obtain ⟨x, hx⟩ := h u (by simp)
    have := ih fun v hv => h v (by simp [hv])
    have e : netChange (u :: us) = IntOp.delta u.2 + netChange us := by simp [netChange]
    rw [e, hx]
    have : IntOp.delta (.add x) = x := rfl
    omega

/-- A counter that only goes up and does not overflow: if a scrape has shown `v`, a later one, by the same thread or by
a thread that has synchronised with it in between, shows no less. -/
theorem C64_counter {v0 : Nat} {tr₁ tr₂ tr₃ : List IntEvent} {t u : Tid} {v w : Nat} {m : Mem IntOp Nat}
    (h : Exec IntStep (Mem.new v0) (tr₁ ++ .read t v :: tr₂ ++ .read u w :: tr₃) m)
    (hu : u = t ∨ .sync u t ∈ tr₂) (hadd : ∀ a ∈ intUpdates (tr₁ ++ tr₂), ∃ x, a.2 = .add x)
    (hov : v0 + netChange (intUpdates (tr₁ ++ tr₂)) < 2 ^ 64) : v ≤ w := by
  have hn : NoSet (intUpdates (tr₁ ++ tr₂)) := fun a ha x hx => by
    obtain ⟨y, hy⟩ := hadd a ha
    rw [hy] at hx; cases hx
  have hpos := netChange_nonneg hadd
  rw [intUpdates_append] at hn hov hadd hpos
  obtain ⟨m₃, h3, h4⟩ := exec_split (tr₁ ++ .read t v :: tr₂) _ h
  obtain ⟨m₄, hs₂, _⟩ := exec_cons_inv h4
  obtain ⟨m₁, h1, h2⟩ := exec_split tr₁ _ h3
  obtain ⟨m₂, hs₁, h2'⟩ := exec_cons_inv h2
  have hi1 := int_inv h1
  have hi3 := int_inv h3
  have hupd : intUpdates (tr₁ ++ .read t v :: tr₂) = intUpdates tr₁ ++ intUpdates tr₂ := by
    rw [intUpdates_append]; rfl
  have hn1 : NoSet (intUpdates tr₁) := fun u hu => hn u (by simp [hu])
  have ho1 := hi1.exact hn1
  have ho3 := hi3.exact (by rw [hupd]; exact hn)
  rw [hupd] at ho3
  cases hs₁ with
  | read t i hl =>
    cases hs₂ with
    | read u k hl' =>
      have hlen1 : m₁.mods.length = (intUpdates tr₁).length := by rw [← ho1]; simp [Mem.order]
      have hi' : i ≤ (intUpdates tr₁).length := by rw [← hlen1]; exact hl.2
      have hik : i ≤ k := by
        have := int_view_sync h2' hu
        have h5 : (m₁.load t i).view t = i := Function.update_self _ _ _
        rw [h5] at this
        exact this.trans hl'.1
      have ev := hi1.valAt i
      have ew := hi3.valAt k
      rw [ho1, ← List.take_append_of_le_length (l₂ := intUpdates tr₂) hi',
        net_fold (fun u hu => hn u (List.mem_of_mem_take hu)) _ (by omega)] at ev
      rw [ho3, net_fold (fun u hu => hn u (List.mem_of_mem_take hu)) _ (by omega)] at ew
      generalize hU : intUpdates tr₁ ++ intUpdates tr₂ = us at *
      have p1 : netChange (us.take i) + netChange ((us.take k).drop i) = netChange (us.take k) := by
        rw [← netChange_append]
        have := List.take_append_drop i (us.take k)
        rw [List.take_take, Nat.min_eq_left hik] at this
        rw [this]
      have p2 : netChange (us.take k) + netChange (us.drop k) = netChange us := by
        rw [← netChange_append, List.take_append_drop]
      have q0 := netChange_nonneg (us := us.take i) fun a ha => hadd a (List.mem_of_mem_take ha)
      have q1 := netChange_nonneg (us := (us.take k).drop i) fun a ha =>
        hadd a (List.mem_of_mem_take (List.mem_of_mem_drop ha))
      have q2 := netChange_nonneg (us := us.drop k) fun a ha => hadd a (List.mem_of_mem_drop ha)
      rw [Int.emod_eq_of_lt (by omega) (by omega)] at ev ew
      omega

/-- Without that synchronisation it may: `Relaxed` orders nothing between two threads that only read. -/
theorem C64_unsynced : ∃ m, Exec IntStep (Mem.new 0) ([.update 1 (.add 10)] ++ .read 2 10 :: [] ++ .read 3 0 :: []) m := by
  let m0 : Mem IntOp Nat := Mem.new 0
  let m1 := m0.modify 1 (.add 10) 0 ((IntOp.add 10).eff.apply (m0.valAt 0))
  let m2 := m1.load 2 1
  refine ⟨m2.load 3 0, ?_⟩
  have e1 : m1.valAt 1 = 10 := by decide +kernel
  have e2 : m2.valAt 0 = 0 := by decide +kernel
  have s2 : IntStep m1 (.read 2 10) m2 := by
    have := IntStep.read m1 2 1 ⟨by decide, by decide⟩
    rwa [e1] at this
  have s3 : IntStep m2 (.read 3 0) (m2.load 3 0) := by
    have := IntStep.read m2 3 0 ⟨by decide, by decide⟩
    rwa [e2] at this
  refine exec_cons (m := m1) (.update m0 1 (.add 10) 0 ⟨by decide, by decide, by simp [m0, Mem.new]⟩) ?_
  exact exec_cons (m := m2) s2 (Exec.snoc (tr := []) .nil s3)

/-- A scrape by thread 2, an increment, a scrape by thread 3 that knows of the first. -/
example : ∃ m, Exec IntStep (Mem.new 0)
    ([.update 1 (.add 10)] ++ .read 2 10 :: [.update 1 (.add 5), .sync 3 2] ++ .read 3 10 :: []) m := by
  let m0 : Mem IntOp Nat := Mem.new 0
  let m1 := m0.modify 1 (.add 10) 0 ((IntOp.add 10).eff.apply (m0.valAt 0))
  let m2 := m1.load 2 1
  let m3 := m2.modify 1 (.add 5) 1 ((IntOp.add 5).eff.apply (m2.valAt 1))
  let m4 := m3.sync 3 2
  refine ⟨m4.load 3 1, ?_⟩
  have e1 : m1.valAt 1 = 10 := by decide +kernel
  have e2 : m4.valAt 1 = 10 := by decide +kernel
  have s2 : IntStep m1 (.read 2 10) m2 := by
    have := IntStep.read m1 2 1 ⟨by decide, by decide⟩
    rwa [e1] at this
  have s3 : IntStep m4 (.read 3 10) (m4.load 3 1) := by
    have := IntStep.read m4 3 1 ⟨by decide, by decide⟩
    rwa [e2] at this
  refine exec_cons (m := m1) (.update m0 1 (.add 10) 0 ⟨by decide, by decide, by simp [m0, Mem.new]⟩) ?_
  refine exec_cons (m := m2) s2 ?_
  refine exec_cons (m := m3) (.update m2 1 (.add 5) 1 ⟨by decide, by decide, ?_⟩) ?_
  · intro x hx
    simp [m2, m1, m0, Mem.load, Mem.modify, Mem.new] at hx
  exact exec_cons (m := m4) (.sync m3 3 2) (Exec.snoc (tr := []) .nil s3)

theorem completed_append (a b : List HistEvent) : completed (a ++ b) = completed a ++ completed b :=
  List.filterMap_append

/-- Two samples of a histogram: no cumulative bucket count and no total count goes down. -/
theorem C64_histogram {le : List F64} (hle : NonDecreasing le) {tr₁ tr₂ tr₃ : List HistEvent} {t u : Tid}
    {out out' : List Nat} {inf inf' : Nat} {sum sum' : F64} {s : HistSys}
    (h : Exec (HistStep le) (HistSys.new le.length)
      (tr₁ ++ .sample t (out, inf, sum) :: tr₂ ++ .sample u (out', inf', sum') :: tr₃) s)
    (hn : (completed (tr₁ ++ tr₂)).length < 2 ^ 64) :
    out.length = out'.length ∧ (∀ i < out.length, (out.take (i + 1)).sum ≤ (out'.take (i + 1)).sum) ∧
      out.sum + inf ≤ out'.sum + inf' := by
  have hc : completed (tr₁ ++ .sample t (out, inf, sum) :: tr₂) = completed tr₁ ++ completed tr₂ := by
    rw [completed_append]; rfl
  rw [completed_append, List.length_append] at hn
  obtain ⟨a1, a2, a3, _⟩ := C22_counts hle (tr := tr₁) (tr' := tr₂ ++ .sample u (out', inf', sum') :: tr₃)
    (by rw [List.append_assoc, List.cons_append] at h; exact h) (by omega)
  obtain ⟨b1, b2, b3, _⟩ := C22_counts hle h (by rw [hc, List.length_append]; omega)
  rw [hc] at b2 b3
  refine ⟨by omega, fun i hi => ?_, by rw [a3, b3, List.length_append]; omega⟩
  have hb : le[i]? = some (le[i]'(by omega)) := List.getElem?_eq_getElem (by omega)
  rw [a2 i _ hb, b2 i _ hb, List.filter_append, List.length_append]
  omega

theorem nonneg_add {v x : F64} (hv : F64.NonNeg v) (hx : F64.fle F64.pzero x = true) :
    F64.NonNeg (F64.add v x) ∧ v.mag ≤ (F64.add v x).mag := by
  obtain ⟨_, hxn, hx0⟩ := F64.fle_iff.1 hx
  have hz : F64.pzero.val = 0 := by decide +kernel
  rw [hz] at hx0
  have hvn := hv.not_nan
  have hxm : x.mag ≤ F64.INF := by simpa [F64.isNaN] using hxn
  have hxs : x.sign = true → x.mag = 0 := fun h => by
    simp only [F64.val, h, if_true] at hx0
    exact F64.unit_eq_zero.1 (by omega)
  have hxv : x.val = F64.unit x.mag := by
    cases h : x.sign
    · simp [F64.val, h]
    · simp [F64.val, h, hxs h, F64.unit_zero]
  unfold F64.add
  simp only [hvn, hxn, Bool.or_self, Bool.false_eq_true, if_false]
  by_cases h1 : v.isInf = true
  · rw [if_pos h1]
    split
    · rename_i h2
      simp only [Bool.and_eq_true, hv.1] at h2
      have h3 : x.sign = true := by simpa using h2.2
      have h4 := hxs h3
      have h5 : x.mag = F64.INF := by simpa [F64.isInf] using h2.1
      rw [h4] at h5
      exact absurd h5 (by decide)
    · exact ⟨hv, Nat.le_refl _⟩
  · rw [if_neg h1]
    by_cases h2 : x.isInf = true
    · rw [if_pos h2]
      have h5 : x.mag = F64.INF := by simpa [F64.isInf] using h2
      refine ⟨⟨?_, hxm⟩, by rw [h5]; exact hv.2⟩
      cases h : x.sign
      · rfl
      · rw [hxs h] at h5; exact absurd h5 (by decide)
    · rw [if_neg h2]
      split
      · rename_i h3
        rw [hv.val, hxv] at h3
        have h4 : v.mag = 0 := F64.unit_eq_zero.1 (by omega)
        rw [hv.1, h4, Bool.false_and]
        exact ⟨⟨by decide +kernel, by decide +kernel⟩, Nat.zero_le _⟩
      · have h6 : ¬ v.val + x.val < 0 := by rw [hv.val, hxv]; omega
        refine ⟨⟨by rw [F64.round_sign]; simpa using h6, by rw [F64.round_mag]; exact F64.roundMag_le_INF _ _⟩, ?_⟩
        rw [F64.round_mag]
        have h7 := F64.roundMag_unit hv.2 0
        rw [Nat.pow_zero, Nat.mul_one] at h7
        have h8 : F64.unit v.mag ≤ (v.val + x.val).natAbs := by rw [hv.val, hxv]; omega
        exact (le_of_eq h7.symm).trans (F64.roundMag_mono 0 h8)

theorem nonneg_fold (xs : List F64) : ∀ v, F64.NonNeg v → (∀ x ∈ xs, F64.fle F64.pzero x = true) →
    F64.NonNeg (xs.foldl F64.add v) ∧ v.mag ≤ (xs.foldl F64.add v).mag := by
  induction xs with
  | nil => exact fun v hv _ => ⟨hv, Nat.le_refl _⟩
  | cons x xs ih =>
    intro v hv hx
    obtain ⟨h1, h2⟩ := nonneg_add hv (hx x (by simp))
    obtain ⟨h3, h4⟩ := ih _ h1 fun y hy => hx y (by simp [hy])
    exact ⟨h3, h2.trans h4⟩

theorem sample_sum {le : List F64} {tr tr' : List HistEvent} {t : Tid} {r : List Nat × Nat × F64} {s : HistSys}
    (h : Exec (HistStep le) (HistSys.new le.length) (tr ++ .sample t r :: tr') s) :
    r.2.2 = ((sums tr).map Prod.snd).foldl F64.add F64.pzero ∧ ((sums tr).map Prod.snd).Perm (completed tr) := by
  obtain ⟨s₁, h1, h2⟩ := exec_split tr _ h
  obtain ⟨s₂, hs, _⟩ := exec_cons_inv h2
  have hi := (hist_inv h1).1
  cases hs with
  | unlockWrite t out inf sum hp =>
    obtain ⟨_, hsm⟩ := hi.quiet (t := t) (by rw [hp]; rfl)
    have hok := hi.ok t
    rw [hp] at hok
    exact ⟨hok.2.2.trans hi.sum, by rw [completed_eq]; exact hsm.map _⟩

/-- If nothing negative (and no NaN) has been observed, the sum does not go down either. -/
theorem C64_sum {le : List F64} {tr₁ tr₂ tr₃ : List HistEvent} {t u : Tid} {out out' : List Nat} {inf inf' : Nat}
    {sum sum' : F64} {s : HistSys}
    (h : Exec (HistStep le) (HistSys.new le.length)
      (tr₁ ++ .sample t (out, inf, sum) :: tr₂ ++ .sample u (out', inf', sum') :: tr₃) s)
    (hpos : ∀ x ∈ completed (tr₁ ++ tr₂), F64.fle F64.pzero x = true) : F64.fle sum sum' = true := by
  have hc : completed (tr₁ ++ .sample t (out, inf, sum) :: tr₂) = completed (tr₁ ++ tr₂) := by
    rw [completed_append, completed_append]; rfl
  obtain ⟨a1, a2⟩ := sample_sum (tr := tr₁) (tr' := tr₂ ++ .sample u (out', inf', sum') :: tr₃)
    (by rw [List.append_assoc, List.cons_append] at h; exact h)
  obtain ⟨b1, b2⟩ := sample_sum h
  have hpos' : ∀ x ∈ (sums (tr₁ ++ .sample t (out, inf, sum) :: tr₂)).map Prod.snd, F64.fle F64.pzero x = true :=
    fun x hx => hpos x (hc ▸ b2.mem_iff.1 hx)
  have hsplit : (sums (tr₁ ++ .sample t (out, inf, sum) :: tr₂)).map Prod.snd
      = (sums tr₁).map Prod.snd ++ (sums tr₂).map Prod.snd := by
    rw [sums_append, List.map_append]; rfl
  rw [hsplit] at b1 hpos'
  rw [List.foldl_append] at b1
  change sum = _ at a1
  change sum' = _ at b1
  rw [← a1] at b1
  have hz : F64.NonNeg F64.pzero := ⟨by decide +kernel, by decide +kernel⟩
  obtain ⟨g1, g2⟩ := nonneg_fold ((sums tr₁).map Prod.snd) _ hz fun x hx => hpos' x (List.mem_append_left _ hx)
  rw [← a1] at g1 g2
  obtain ⟨g3, g4⟩ := nonneg_fold ((sums tr₂).map Prod.snd) _ g1 fun x hx => hpos' x (List.mem_append_right _ hx)
  rw [← b1] at g3 g4
  exact (g1.le_iff g3).2 g4

/-- A sample, an observation of 2 above the only bound, and another sample. -/
theorem exSamples : ∃ s, Exec (HistStep [F64.one]) (HistSys.new 1)
    ([.silent 3, .silent 3, .silent 3, .silent 3, .silent 3] ++ .sample 3 ([0], 0, F64.pzero) ::
      [.start 1 (F64.ofNat 2), .silent 1, .bumped 1 (F64.ofNat 2), .silent 1, .summed 1 (F64.ofNat 2),
        .done 1 (F64.ofNat 2), .silent 2, .silent 2, .silent 2, .silent 2, .silent 2] ++
      .sample 2 ([0], 1, F64.ofNat 2) :: []) s := by
  let b := F64.ofNat 2
  let s0 := HistSys.new 1
  let s1 := s0.goto 3 .wantWrite
  let s2 := s1.goto 3 (.sampling [])
  let s3 := s2.goto 3 (.sampling [0])
  let s4 := s3.goto 3 (.sampledInf [0] s3.inner.inf)
  let s5 := s4.goto 3 (.sampled [0] s3.inner.inf s4.inner.sum)
  let s6 := s5.goto 3 .idle
  let s7 := s6.goto 1 (.wantRead 1 b)
  let s8 := s7.goto 1 (.bump 1 b)
  let s9 : HistSys := ⟨bumpBucket s8.inner 1, Function.update s8.pc 1 (.adding b)⟩
  let s10 := s9.goto 1 (.loaded b s9.inner.sum)
  let s11 : HistSys := ⟨{ s10.inner with sum := F64.add s9.inner.sum b }, Function.update s10.pc 1 (.added b)⟩
  let s12 := s11.goto 1 .idle
  let s13 := s12.goto 2 .wantWrite
  let s14 := s13.goto 2 (.sampling [])
  let s15 := s14.goto 2 (.sampling [0])
  let s16 := s15.goto 2 (.sampledInf [0] s15.inner.inf)
  let s17 := s16.goto 2 (.sampled [0] s15.inner.inf s16.inner.sum)
  have e2 : F64.ofNat 2 = s16.inner.sum := by set_option exponentiation.threshold 3000 in decide +kernel
  have hw : ∀ u, u ≠ 2 → s13.pc u = .idle := by
    intro u h2
    simp [s13, s12, s11, s10, s9, s8, s7, s6, s5, s4, s3, s2, s1, s0, HistSys.goto, HistSys.new, h2]
  have hw7 : ∀ u, u ≠ 1 → s7.pc u = .idle := by
    intro u h1
    simp [s7, s6, s5, s4, s3, s2, s1, s0, HistSys.goto, HistSys.new, h1]
  have last : HistStep [F64.one] s17 (.sample 2 ([0], 1, F64.ofNat 2)) (s17.goto 2 .idle) := by
    rw [e2]
    exact .unlockWrite s17 2 _ _ _ rfl
  refine ⟨s17.goto 2 .idle, ?_⟩
  refine exec_cons (m := s1) (.startSample s0 3 rfl) ?_
  refine exec_cons (m := s2) (.lockWrite s1 3 rfl ?_) ?_
  · intro u
    by_cases h3 : u = 3
    · subst h3; exact ⟨rfl, rfl⟩
    · simp [s1, s0, HistSys.goto, HistSys.new, h3, HistPc.holdsWrite, HistPc.holdsRead]
  refine exec_cons (m := s3) (.readBucket s2 3 [] 0 rfl rfl) ?_
  refine exec_cons (m := s4) (.readInf s3 3 [0] rfl rfl) ?_
  refine exec_cons (m := s5) (.readSum s4 3 [0] _ rfl) ?_
  refine exec_cons (m := s6) (.unlockWrite s5 3 _ _ _ rfl) ?_
  refine exec_cons (m := s7) (.start s6 1 b 1 rfl (by decide +kernel)) ?_
  refine exec_cons (m := s8) (.lockRead s7 1 1 b rfl ?_) ?_
  · intro u
    by_cases h1 : u = 1
    · subst h1; rfl
    rw [hw7 u h1]; rfl
  refine exec_cons (m := s9) (.bump s8 1 1 b rfl (by decide)) ?_
  refine exec_cons (m := s10) (.load s9 1 b _ rfl) ?_
  refine exec_cons (m := s11) (.casOk s10 1 b _ rfl rfl) ?_
  refine exec_cons (m := s12) (.unlockRead s11 1 b rfl) ?_
  refine exec_cons (m := s13) (.startSample s12 2 rfl) ?_
  refine exec_cons (m := s14) (.lockWrite s13 2 rfl ?_) ?_
  · intro u
    by_cases h2 : u = 2
    · subst h2; exact ⟨rfl, rfl⟩
    rw [hw u h2]; exact ⟨rfl, rfl⟩
  refine exec_cons (m := s15) (.readBucket s14 2 [] 0 rfl rfl) ?_
  refine exec_cons (m := s16) (.readInf s15 2 [0] rfl rfl) ?_
  refine exec_cons (m := s17) (.readSum s16 2 [0] _ rfl) ?_
  exact Exec.snoc (tr := []) .nil last

example : F64.fle F64.pzero (F64.ofNat 2) = true := by
  obtain ⟨s, h⟩ := exSamples
  refine C64_sum (le := [F64.one]) h ?_
  intro x hx
  simp [completed] at hx
  subst hx
  set_option exponentiation.threshold 3000 in decide +kernel

/-! ## C65 -/

/-- Observations and samples in progress: someone can always take a step. -/
theorem C65_histogram_progress {le : List F64} {tr : List HistEvent} {s : HistSys}
    (h : Exec (HistStep le) (HistSys.new le.length) tr s) (hact : ∃ t, s.pc t ≠ .idle) :
    ∃ e s', HistStep le s e s' ∧ HistGoes s s' := hist_progress (hist_inv h).1 hact

/-- They end: however the threads go on, after a bounded number of steps all observations and samples are over. -/
theorem C65_histogram_finish {le : List F64} {tr : List HistEvent} {s : HistSys}
    (h : Exec (HistStep le) (HistSys.new le.length) tr s) :
    ∃ bound, ∀ tr' s', Exec (fun s e s' => HistStep le s e s' ∧ HistGoes s s') s tr' s' →
      tr'.length ≤ bound ∧ ((∀ e s'', ¬ (HistStep le s' e s'' ∧ HistGoes s' s'')) → ∀ t, s'.pc t = .idle) := by
  obtain ⟨T, hn, hT⟩ := hist_support h
  refine ⟨histTotal le.length T s, fun tr' s' h' => ⟨?_, fun hstuck t => ?_⟩⟩
  · have := (hist_bounded hn h hT h').1; omega
  · by_contra hc
    obtain ⟨e, s'', h1, h2⟩ := C65_histogram_progress
      (exec_trans h (exec_weaken (fun _ _ _ h => h.1) h')) ⟨t, hc⟩
    exact hstuck e s'' ⟨h1, h2⟩

/-- Calls on a float gauge in progress: someone can always take a step. -/
theorem C65_float_progress {v0 : F64} {tr : List FloatEvent} {s : FloatSys} (h : Exec FloatStep (FloatSys.new v0) tr s)
    (hact : ∃ t, s.pc t ≠ .idle) : ∃ e s', FloatStep s e s' ∧ FloatGoes s s' := float_progress (float_inv h) hact

/-- They end: compare-exchange loops do not retry for ever, as long as no new calls are made. -/
theorem C65_float_finish {v0 : F64} {tr : List FloatEvent} {s : FloatSys} (h : Exec FloatStep (FloatSys.new v0) tr s) :
    ∃ bound, ∀ tr' s', Exec (fun s e s' => FloatStep s e s' ∧ FloatGoes s s') s tr' s' →
      tr'.length ≤ bound ∧ ((∀ e s'', ¬ (FloatStep s' e s'' ∧ FloatGoes s' s'')) → ∀ t, s'.pc t = .idle) := by
  obtain ⟨T, hn, hT⟩ := float_support h
  refine ⟨floatTotal T s, fun tr' s' h' => ⟨?_, fun hstuck t => ?_⟩⟩
  · have := (float_bounded hn hT h').1; omega
  · by_contra hc
    obtain ⟨e, s'', h1, h2⟩ := C65_float_progress
      (exec_trans h (exec_weaken (fun _ _ _ h => h.1) h')) ⟨t, hc⟩
    exact hstuck e s'' ⟨h1, h2⟩

/-- An observer holds the lock, a sampler waits for it, and another observer waits behind the sampler. -/
example : ∃ s, Exec (HistStep [F64.one]) (HistSys.new 1)
    [.start 1 F64.one, .silent 1, .silent 3, .start 2 F64.one] s ∧ s.pc 3 = .wantWrite ∧
    s.pc 2 = .wantRead 0 F64.one ∧ ∃ e s', HistStep [F64.one] s e s' ∧ HistGoes s s' := by
  let a := F64.one
  let s0 := HistSys.new 1
  let s1 := s0.goto 1 (.wantRead 0 a)
  let s2 := s1.goto 1 (.bump 0 a)
  let s3 := s2.goto 3 .wantWrite
  let s4 := s3.goto 2 (.wantRead 0 a)
  have hex : Exec (HistStep [F64.one]) (HistSys.new 1) [.start 1 F64.one, .silent 1, .silent 3, .start 2 F64.one] s4 := by
    refine exec_cons (m := s1) (.start s0 1 a 0 rfl (by decide +kernel)) ?_
    refine exec_cons (m := s2) (.lockRead s1 1 0 a rfl ?_) ?_
    · intro u
      by_cases h1 : u = 1
      · subst h1; rfl
      · simp [s1, s0, HistSys.goto, HistSys.new, h1, HistPc.holdsWrite]
    refine exec_cons (m := s3) (.startSample s2 3 rfl) ?_
    exact Exec.snoc (tr := []) .nil (.start s3 2 a 0 rfl (by decide +kernel))
  refine ⟨s4, hex, rfl, rfl, C65_histogram_progress (le := [F64.one]) hex ⟨3, ?_⟩⟩
  show HistPc.wantWrite ≠ .idle
  intro h; cases h

/-- Two threads have loaded the same value of a gauge: only one compare-exchange will succeed at first. -/
example : ∃ s, Exec FloatStep (FloatSys.new F64.pzero)
    [.start 1 (.incBy F64.one), .silent 1, .start 2 (.incBy F64.one), .silent 2] s ∧
    s.pc 1 = .loaded F64.one F64.pzero ∧ s.pc 2 = .loaded F64.one F64.pzero ∧
    ∃ e s', FloatStep s e s' ∧ FloatGoes s s' := by
  let x := F64.one
  let s0 := FloatSys.new F64.pzero
  let s1 := s0.goto 1 (.loop x) s0.mem
  let s2 := s1.goto 1 (.loaded x (s1.mem.valAt 0)) (s1.mem.load 1 0)
  let s3 := s2.goto 2 (.loop x) s2.mem
  let s4 := s3.goto 2 (.loaded x (s3.mem.valAt 0)) (s3.mem.load 2 0)
  have hex : Exec FloatStep (FloatSys.new F64.pzero)
      [.start 1 (.incBy F64.one), .silent 1, .start 2 (.incBy F64.one), .silent 2] s4 := by
    refine exec_cons (m := s1) (.startInc s0 1 x rfl) ?_
    refine exec_cons (m := s2) (.load s1 1 x 0 rfl ⟨by decide, by decide⟩) ?_
    refine exec_cons (m := s3) (.startInc s2 2 x rfl) ?_
    exact Exec.snoc (tr := []) .nil (.load s3 2 x 0 rfl ⟨by decide, by decide⟩)
  refine ⟨s4, hex, rfl, rfl, C65_float_progress hex ⟨1, ?_⟩⟩
  show FloatPc.loaded x _ ≠ .idle
  intro h; cases h

end Measured
