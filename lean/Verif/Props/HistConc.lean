import Verif.Proof.HistConc
import Verif.Props.Histogram
import Verif.Proof.TextHist
import Verif.Spec.Concurrent

/-!
# C22: a sample of a histogram is a consistent snapshot
-/

namespace Measured
open Conc Spec

/-- The observations that are over. -/
def Spec.completed (tr : List HistEvent) : List F64 :=
  tr.filterMap fun e => match e with
    | .done _ x => some x
    | _ => none

theorem completed_eq (tr : List HistEvent) : completed tr = (dones tr).map Prod.snd := by
  unfold completed
  induction tr with
  | nil => rfl
  | cons e tr ih => cases e <;> simp [dones, ih]

theorem sample_is {le : List F64} {tr tr' : List HistEvent} {t : Tid} {r : List Nat × Nat × F64} {s : HistSys}
    (h : Exec (HistStep le) (HistSys.new le.length) (tr ++ .sample t r :: tr') s) :
    ∃ st, ((sums tr).map Prod.snd).Perm (completed tr) ∧
      histObserveAll le (HistInner.default le.length) ((sums tr).map Prod.snd) = .ok st ∧ st.sample = r := by
  obtain ⟨s₁, h1, h2⟩ := exec_split tr _ h
  obtain ⟨s₂, hs, _⟩ := exec_cons_inv h2
  have hi := (hist_inv h1).1
  cases hs with
  | unlockWrite t out inf sum hp =>
    obtain ⟨hb, hsm⟩ := hi.quiet (t := t) (by rw [hp]; rfl)
    have hok := hi.ok t
    rw [hp] at hok
    obtain ⟨e1, e2, e3⟩ := hok
    refine ⟨s₁.inner, ?_, ?_, ?_⟩
    · rw [completed_eq]; exact hsm.map _
    · obtain ⟨h', g1, g2, g3⟩ := observeAll_counted le ((sums tr).map Prod.snd) [] _ (counted_default le)
      rw [g1]
      congr 1
      refine counted_unique g2 (counted_perm ?_ hi.counted) ?_
      · exact (hb.trans hsm.symm).map _
      · rw [g3, hi.sum]; rfl
    · rw [e1, e2, e3]; rfl

/-- Whatever the threads do, each sample is what a single thread would get that makes exactly the observations
completed before it, in some order: none is missing, none is half recorded, none counts twice. -/
theorem C22_snapshot {le : List F64} {tr tr' : List HistEvent} {t : Tid} {r : List Nat × Nat × F64} {s : HistSys}
    (h : Exec (HistStep le) (HistSys.new le.length) (tr ++ .sample t r :: tr') s) :
    ∃ ys st, ys.Perm (completed tr) ∧ histObserveAll le (HistInner.default le.length) ys = .ok st ∧ st.sample = r := by
  obtain ⟨st, h1, h2, h3⟩ := sample_is h
  exact ⟨_, st, h1, h2, h3⟩

/-- The observations that have begun, and those that are over, with their threads. -/
def Spec.started (tr : List HistEvent) : List (Tid × F64) :=
  tr.filterMap fun e => match e with
    | .start t x => some (t, x)
    | _ => none

def Spec.finished (tr : List HistEvent) : List (Tid × F64) :=
  tr.filterMap fun e => match e with
    | .done t x => some (t, x)
    | _ => none

theorem finished_eq (tr : List HistEvent) : finished tr = dones tr := by
  unfold finished
  induction tr with
  | nil => rfl
  | cons e tr ih => cases e <;> simp [dones, ih]

/-- Begun, but not yet added to the sum. -/
def Conc.pendStart (t : Tid) : HistPc → List (Tid × F64)
  | .wantRead _ x => [(t, x)]
  | .bump _ x => [(t, x)]
  | .adding x => [(t, x)]
  | .loaded x _ => [(t, x)]
  | _ => []

theorem started_pend {le : List F64} {tr : List HistEvent} {s : HistSys}
    (h : Exec (HistStep le) (HistSys.new le.length) tr s) (u : Tid) :
    (started tr).filter (fun a => a.1 = u) = (sums tr).filter (fun a => a.1 = u) ++ pendStart u (s.pc u) := by
  induction h with
  | nil => rfl
  | @snoc tr s e s' hex hs ih =>
    have hno := (hist_inv (hex.snoc hs)).2
    rw [sums_append, started, List.filterMap_append, List.filter_append, List.filter_append]
    change (started tr).filter _ ++ _ = _
    rw [ih]
    cases hs with
    | start t x b hp hb =>
      by_cases hu : u = t
      · subst hu; simp [HistSys.goto, hp, sums, pendStart]
      · simp [HistSys.goto, Function.update_of_ne hu, sums, Ne.symm hu]
    | startPanic t x hp hb => exact absurd (List.mem_append_right _ (List.mem_singleton.2 rfl)) (hno t)
    | bumpPanic t b x hp hb => exact absurd (List.mem_append_right _ (List.mem_singleton.2 rfl)) (hno t)
    | casOk t x cur hp hc =>
      by_cases hu : u = t
      · subst hu; simp [hp, sums, pendStart]
      · simp [Function.update_of_ne hu, sums, Ne.symm hu]
    | lockRead t b x hp =>
      by_cases hu : u = t
      · subst hu; simp [HistSys.goto, hp, sums, pendStart]
      · simp [HistSys.goto, Function.update_of_ne hu, sums]
    | bump t b x hp hb =>
      by_cases hu : u = t
      · subst hu; simp [hp, sums, pendStart]
      · simp [Function.update_of_ne hu, sums]
    | load t x cur hp =>
      by_cases hu : u = t
      · subst hu; simp [HistSys.goto, hp, sums, pendStart]
      · simp [HistSys.goto, Function.update_of_ne hu, sums]
    | casFail t x cur hp =>
      by_cases hu : u = t
      · subst hu; simp [HistSys.goto, hp, sums, pendStart]
      · simp [HistSys.goto, Function.update_of_ne hu, sums]
    | unlockRead t x hp =>
      by_cases hu : u = t
      · subst hu; simp [HistSys.goto, hp, sums, pendStart]
      · simp [HistSys.goto, Function.update_of_ne hu, sums]
    | startSample t hp =>
      by_cases hu : u = t
      · subst hu; simp [HistSys.goto, hp, sums, pendStart]
      · simp [HistSys.goto, Function.update_of_ne hu, sums]
    | lockWrite t hp =>
      by_cases hu : u = t
      · subst hu; simp [HistSys.goto, hp, sums, pendStart]
      · simp [HistSys.goto, Function.update_of_ne hu, sums]
    | readBucket t out c hp =>
      by_cases hu : u = t
      · subst hu; simp [HistSys.goto, hp, sums, pendStart]
      · simp [HistSys.goto, Function.update_of_ne hu, sums]
    | readInf t out hp =>
      by_cases hu : u = t
      · subst hu; simp [HistSys.goto, hp, sums, pendStart]
      · simp [HistSys.goto, Function.update_of_ne hu, sums]
    | readSum t out inf hp =>
      by_cases hu : u = t
      · subst hu; simp [HistSys.goto, hp, sums, pendStart]
      · simp [HistSys.goto, Function.update_of_ne hu, sums]
    | unlockWrite t out inf sum hp =>
      by_cases hu : u = t
      · subst hu; simp [HistSys.goto, hp, sums, pendStart]
      · simp [HistSys.goto, Function.update_of_ne hu, sums]

theorem subperm_of_threads {a b : List (Tid × F64)}
    (h : ∀ t, a.filter (fun x => x.1 = t) <+: b.filter fun x => x.1 = t) : a.Subperm b := by
  refine List.subperm_ext_iff.2 fun x _ => ?_
  have h1 := (h x.1).sublist.count_le x
  rwa [List.count_filter (by simp), List.count_filter (by simp)] at h1

/-- The order of those observations is that of the threads, and of time: at any earlier moment (after the events `a`), the
observations that were over by then come first, together with some of those that had begun. -/
theorem C22_order {le : List F64} {tr tr' : List HistEvent} {t : Tid} {r : List Nat × Nat × F64} {s : HistSys}
    (h : Exec (HistStep le) (HistSys.new le.length) (tr ++ .sample t r :: tr') s) :
    ∃ ys st, Linearises (finished tr) ys ∧
      histObserveAll le (HistInner.default le.length) (ys.map Prod.snd) = .ok st ∧ st.sample = r ∧
      ∀ a b, tr = a ++ b → ∃ p q, ys = p ++ q ∧ (finished a).Subperm p ∧ p.Subperm (started a) := by
  obtain ⟨st, _, h2, h3⟩ := sample_is h
  obtain ⟨s₁, e1, e2⟩ := exec_split tr _ h
  obtain ⟨s₂, hs, _⟩ := exec_cons_inv e2
  have hi := (hist_inv e1).1
  refine ⟨sums tr, st, ?_, h2, h3, ?_⟩
  · cases hs with
    | unlockWrite t out inf sum hp =>
      have hq := hi.noPending (t := t) (by rw [hp]; rfl)
      rw [finished_eq]
      have := fun u => (hi.pendS u).trans (by rw [(hq u).2, List.append_nil])
      exact ⟨perm_of_threads this, this⟩
  · rintro a b rfl
    obtain ⟨s₃, e3, _⟩ := exec_split a _ e1
    refine ⟨sums a, sums b, sums_append a b, ?_, ?_⟩
    · rw [finished_eq]
      refine subperm_of_threads fun u => ?_
      rw [(hist_inv e3).1.pendS u]
      exact List.prefix_append _ _
    · refine subperm_of_threads fun u => ?_
      rw [started_pend e3 u]
      exact List.prefix_append _ _

/-- In numbers: the first `i + 1` buckets together hold the completed observations that are not above the bound of
bucket `i`, all buckets and `inf` together hold all of them, and the sum is their sum in some order. -/
theorem C22_counts {le : List F64} (hle : NonDecreasing le) {tr tr' : List HistEvent} {t : Tid} {out : List Nat}
    {inf : Nat} {sum : F64} {s : HistSys}
    (h : Exec (HistStep le) (HistSys.new le.length) (tr ++ .sample t (out, inf, sum) :: tr') s)
    (hn : (completed tr).length < 2 ^ 64) :
    out.length = le.length ∧
      (∀ (i : Nat) (b : F64), le[i]? = some b →
        (out.take (i + 1)).sum = ((completed tr).filter fun x => !F64.flt b x).length) ∧
      out.sum + inf = (completed tr).length ∧
      ∃ ys : List F64, ys.Perm (completed tr) ∧ sum = ys.foldl F64.add F64.pzero := by
  obtain ⟨ys, st, hp, hall, hr⟩ := C22_snapshot h
  rw [Spec.NonDecreasing.iff_pairwise] at hle
  obtain ⟨st', he, ha⟩ := histAfter_all hle ys [] _ (histAfter_default le)
  rw [hall] at he
  cases he
  rw [List.nil_append] at ha
  cases hr
  have hlt : ys.length < W64 := by rw [hp.length_eq]; exact hn
  obtain ⟨hc, ht⟩ := histAfter_counts hle ha hlt
  refine ⟨by rw [ha.buckets]; simp, ?_, by rw [ht]; exact hp.length_eq, ys, hp, ha.sum⟩
  intro i b hb
  rw [hc i b hb]
  rw [notAbove, List.countP_eq_length_filter]
  exact (hp.filter fun x => !F64.flt b x).length_eq

/-- No observation panics: the bucket found by `partition_point` is never out of range. -/
theorem C22_no_panic {le : List F64} {tr : List HistEvent} {s : HistSys}
    (h : Exec (HistStep le) (HistSys.new le.length) tr s) (t : Tid) : .panic t ∉ tr := (hist_inv h).2 t

/-- Two observers that overlap, a sampler that waits for both, and an observation that has only begun. -/
theorem exHist : ∃ s, Exec (HistStep [F64.one]) (HistSys.new 1)
    ([.start 1 F64.one, .start 2 (F64.ofNat 2), .silent 1, .silent 2, .bumped 1 F64.one, .silent 3,
      .bumped 2 (F64.ofNat 2), .silent 1, .silent 2, .summed 2 (F64.ofNat 2), .silent 1, .silent 1,
      .summed 1 F64.one, .done 2 (F64.ofNat 2), .done 1 F64.one, .start 4 F64.one, .silent 3, .silent 3, .silent 3,
      .silent 3] ++ [.sample 3 ([1], 1, F64.ofNat 3)]) s := by
  let a := F64.one
  let b := F64.ofNat 2
  let s0 := HistSys.new 1
  let s1 := s0.goto 1 (.wantRead 0 a)
  let s2 := s1.goto 2 (.wantRead 1 b)
  let s3 := s2.goto 1 (.bump 0 a)
  let s4 := s3.goto 2 (.bump 1 b)
  let s5 : HistSys := ⟨bumpBucket s4.inner 0, Function.update s4.pc 1 (.adding a)⟩
  let s6 := s5.goto 3 .wantWrite
  let s7 : HistSys := ⟨bumpBucket s6.inner 1, Function.update s6.pc 2 (.adding b)⟩
  let s8 := s7.goto 1 (.loaded a s7.inner.sum)
  let s9 := s8.goto 2 (.loaded b s8.inner.sum)
  let s10 : HistSys := ⟨{ s9.inner with sum := F64.add s8.inner.sum b }, Function.update s9.pc 2 (.added b)⟩
  let s11 := s10.goto 1 (.adding a)
  let s12 := s11.goto 1 (.loaded a s11.inner.sum)
  let s13 : HistSys := ⟨{ s12.inner with sum := F64.add s11.inner.sum a }, Function.update s12.pc 1 (.added a)⟩
  let s14 := s13.goto 2 .idle
  let s15 := s14.goto 1 .idle
  let s16 := s15.goto 4 (.wantRead 0 a)
  let s17 := s16.goto 3 (.sampling [])
  let s18 := s17.goto 3 (.sampling [1])
  let s19 := s18.goto 3 (.sampledInf [1] s18.inner.inf)
  let s20 := s19.goto 3 (.sampled [1] s19.inner.inf s19.inner.sum)
  have hval : (([1], 1, F64.ofNat 3) : List Nat × Nat × F64) = ([1], s18.inner.inf, s19.inner.sum) := by
    set_option exponentiation.threshold 3000 in decide +kernel
  have hpc : ∀ u, s16.pc u = if u = 1 then .idle else if u = 2 then .idle else if u = 3 then .wantWrite
      else if u = 4 then .wantRead 0 a else .idle := by
    intro u
    by_cases h4 : u = 4
    · subst h4; rfl
    by_cases h3 : u = 3
    · subst h3; rfl
    by_cases h2 : u = 2
    · subst h2; rfl
    by_cases h1 : u = 1
    · subst h1; rfl
    simp [s16, s15, s14, s13, s12, s11, s10, s9, s8, s7, s6, s5, s4, s3, s2, s1, s0, HistSys.goto, HistSys.new,
      h1, h2, h3, h4]
  have hpc2 : ∀ u, (s2.pc u).holdsWrite = false := by
    intro u
    by_cases h2 : u = 2
    · subst h2; rfl
    by_cases h1 : u = 1
    · subst h1; rfl
    simp [s2, s1, s0, HistSys.goto, HistSys.new, h1, h2, HistPc.holdsWrite]
  have hpc3 : ∀ u, (s3.pc u).holdsWrite = false := by
    intro u
    by_cases h1 : u = 1
    · subst h1; rfl
    show (Function.update s2.pc 1 _ u).holdsWrite = false
    rw [Function.update_of_ne h1]
    exact hpc2 u
  rw [hval]
  refine ⟨s20.goto 3 .idle, ?_⟩
  refine exec_cons (m := s1) (.start s0 1 a 0 rfl (by decide +kernel)) ?_
  refine exec_cons (m := s2) (.start s1 2 b 1 rfl (by decide +kernel)) ?_
  refine exec_cons (m := s3) (.lockRead s2 1 0 a rfl hpc2) ?_
  refine exec_cons (m := s4) (.lockRead s3 2 1 b rfl hpc3) ?_
  refine exec_cons (m := s5) (.bump s4 1 0 a rfl (by decide)) ?_
  refine exec_cons (m := s6) (.startSample s5 3 rfl) ?_
  refine exec_cons (m := s7) (.bump s6 2 1 b rfl (by decide)) ?_
  refine exec_cons (m := s8) (.load s7 1 a _ rfl) ?_
  refine exec_cons (m := s9) (.load s8 2 b _ rfl) ?_
  refine exec_cons (m := s10) (.casOk s9 2 b _ rfl rfl) ?_
  refine exec_cons (m := s11) (.casFail s10 1 a s7.inner.sum rfl) ?_
  refine exec_cons (m := s12) (.load s11 1 a _ rfl) ?_
  refine exec_cons (m := s13) (.casOk s12 1 a _ rfl rfl) ?_
  refine exec_cons (m := s14) (.unlockRead s13 2 b rfl) ?_
  refine exec_cons (m := s15) (.unlockRead s14 1 a rfl) ?_
  refine exec_cons (m := s16) (.start s15 4 a 0 rfl (by decide +kernel)) ?_
  refine exec_cons (m := s17) (.lockWrite s16 3 rfl ?_) ?_
  · intro u
    rw [hpc u]
    split
    · exact ⟨rfl, rfl⟩
    split
    · exact ⟨rfl, rfl⟩
    split
    · exact ⟨rfl, rfl⟩
    split <;> exact ⟨rfl, rfl⟩
  refine exec_cons (m := s18) (.readBucket s17 3 [] 1 rfl rfl) ?_
  refine exec_cons (m := s19) (.readInf s18 3 [1] rfl rfl) ?_
  refine exec_cons (m := s20) (.readSum s19 3 [1] _ rfl) ?_
  exact Exec.snoc (tr := []) .nil (.unlockWrite s20 3 _ _ _ rfl)

example : [1].sum + 1 = ([F64.ofNat 2, F64.one] : List F64).length := by
  obtain ⟨s, h⟩ := exHist
  exact (C22_counts (le := [F64.one]) (by
    intro i j x y hij hx hy
    have h1 := (List.getElem?_eq_some_iff.1 hx).1
    have h2 := (List.getElem?_eq_some_iff.1 hy).1
    simp only [List.length_singleton] at h1 h2
    omega) h (by decide)).2.2.1

end Measured
