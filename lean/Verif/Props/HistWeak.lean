import Verif.Proof.HistWeak
import Verif.Props.HistConc
import Verif.Props.Live

/-! # A histogram with relaxed memory (C97) -/

namespace Measured.Conc
open Measured.Spec

/-- C97. Every run with relaxed memory is a run, with the same events, of the program on cells with a single value each, so that
the theorems on the latter (C22, C64) hold for it. -/
theorem C97_refines {le : List F64} {tr : List HistEvent} {w : HWSys} (h : Exec (HWStep le) HWSys.new tr w) :
    Exec (HistStep le) (HistSys.new le.length) tr (w.last le.length) := by
  induction h with
  | nil => rw [last_new]; exact .nil
  | snoc h hs ih => exact .snoc ih (hw_step (hwInv h) hs)

/-- C97, samples. Each sample is what a single thread gets that makes exactly the observations that are over, in an order that is
that of the threads and of time. -/
theorem C97_snapshot {le : List F64} {tr tr' : List HistEvent} {t : Tid} {r : List Nat × Nat × F64} {w : HWSys}
    (h : Exec (HWStep le) HWSys.new (tr ++ .sample t r :: tr') w) :
    ∃ ys st, Linearises (finished tr) ys ∧
      histObserveAll le (HistInner.default le.length) (ys.map Prod.snd) = .ok st ∧ st.sample = r ∧
      ∀ a b, tr = a ++ b → ∃ p q, ys = p ++ q ∧ (finished a).Subperm p ∧ p.Subperm (started a) :=
  C22_order (C97_refines h)

/-- C97, in numbers. -/
theorem C97_counts {le : List F64} (hle : NonDecreasing le) {tr tr' : List HistEvent} {t : Tid} {out : List Nat}
    {inf : Nat} {sum : F64} {w : HWSys} (h : Exec (HWStep le) HWSys.new (tr ++ .sample t (out, inf, sum) :: tr') w)
    (hn : (completed tr).length < 2 ^ 64) :
    out.length = le.length ∧
      (∀ (i : Nat) (b : F64), le[i]? = some b →
        (out.take (i + 1)).sum = ((completed tr).filter fun x => !F64.flt b x).length) ∧
      out.sum + inf = (completed tr).length ∧
      ∃ ys : List F64, ys.Perm (completed tr) ∧ sum = ys.foldl F64.add F64.pzero :=
  C22_counts hle (C97_refines h) hn

/-- C97, two samples. -/
theorem C97_later {le : List F64} (hle : NonDecreasing le) {tr₁ tr₂ tr₃ : List HistEvent} {t u : Tid}
    {out out' : List Nat} {inf inf' : Nat} {sum sum' : F64} {w : HWSys}
    (h : Exec (HWStep le) HWSys.new (tr₁ ++ .sample t (out, inf, sum) :: tr₂ ++ .sample u (out', inf', sum') :: tr₃) w)
    (hn : (completed (tr₁ ++ tr₂)).length < 2 ^ 64) :
    out.length = out'.length ∧ (∀ i < out.length, (out.take (i + 1)).sum ≤ (out'.take (i + 1)).sum) ∧
      out.sum + inf ≤ out'.sum + inf' :=
  C64_histogram hle (C97_refines h) hn

/-- C97, no panics. -/
theorem C97_no_panic {le : List F64} {tr : List HistEvent} {w : HWSys} (h : Exec (HWStep le) HWSys.new tr w) (t : Tid) :
    .panic t ∉ tr :=
  C22_no_panic (C97_refines h) t

/-- C97, no data races. `sample` reads the cells without atomic instructions (`get_mut`). While it does, the thread knows of all
modifications of all cells, and no thread is about to make another one. -/
theorem C97_no_race {le : List F64} {tr : List HistEvent} {w : HWSys} (h : Exec (HWStep le) HWSys.new tr w) (t : Tid)
    (ht : (w.pc t).holdsWrite = true) :
    (∀ i, (w.counts i).length ≤ w.view t (.count i) + 1) ∧ w.sum.length ≤ w.view t .sum + 1 ∧
      ∀ u e w', HWStep le w e w' → e.tid = u → u ≠ t → w'.counts = w.counts ∧ w'.sum = w.sum := by
  have I := hwInv h
  refine ⟨fun i => I.writer t ht (.count i), I.writer t ht .sum, ?_⟩
  intro u e w' hs he hu
  have hr := (I.excl t ht u).1
  cases hs <;> first
    | exact ⟨rfl, rfl⟩
    | (rename_i h _
       simp only [HistEvent.tid] at he
       subst he
       rw [h] at hr
       simp [HistPc.holdsRead] at hr)

/-- Two threads observe at the same time. The second one loads a sum that is stale, so that its compare-exchange fails, and
tries again. The third thread, which knows of nothing before it takes the lock, samples. -/
theorem exWeak : ∃ w, Exec (HWStep [F64.one]) HWSys.new
    ([.start 1 F64.one, .start 2 (F64.ofNat 2), .silent 1, .silent 2, .bumped 1 F64.one, .bumped 2 (F64.ofNat 2),
      .silent 1, .summed 1 F64.one, .silent 2, .silent 2, .silent 2, .summed 2 (F64.ofNat 2), .done 1 F64.one,
      .done 2 (F64.ofNat 2), .silent 3, .silent 3, .silent 3, .silent 3, .silent 3] ++ [.sample 3 ([1], 1, F64.ofNat 3)]) w := by
  let a := F64.one
  let b := F64.ofNat 2
  let w0 := HWSys.new
  let w1 := w0.goto 1 (.wantRead 0 a)
  let w2 := w1.goto 2 (.wantRead 1 b)
  let w3 := (w2.learn 1 w2.byWriters).goto 1 (.bump 0 a)
  let w4 := (w3.learn 2 w3.byWriters).goto 2 (.bump 1 b)
  let w5 := ({ w4 with counts := Function.update w4.counts 0 (w4.counts 0 ++ [incU64 ((w4.counts 0).getLastD 0)]) }.saw 1
    (.count 0) (w4.counts 0).length).goto 1 (.adding a)
  let w6 := ({ w5 with counts := Function.update w5.counts 1 (w5.counts 1 ++ [incU64 ((w5.counts 1).getLastD 0)]) }.saw 2
    (.count 1) (w5.counts 1).length).goto 2 (.adding b)
  let w7 := (w6.saw 1 .sum 0).goto 1 (.loaded a F64.pzero)
  let w8 := ({ w7 with sum := w7.sum ++ [F64.add F64.pzero a] }.saw 1 .sum w7.sum.length).goto 1 (.added a)
  let w9 := (w8.saw 2 .sum 0).goto 2 (.loaded b F64.pzero)
  let w10 := w9.goto 2 (.adding b)
  let w11 := (w10.saw 2 .sum 1).goto 2 (.loaded b (F64.add F64.pzero a))
  let w12 := ({ w11 with sum := w11.sum ++ [F64.add (F64.add F64.pzero a) b] }.saw 2 .sum w11.sum.length).goto 2 (.added b)
  let w13 := { w12 with byReaders := w12.byReaders.join (w12.view 1) }.goto 1 .idle
  let w14 := { w13 with byReaders := w13.byReaders.join (w13.view 2) }.goto 2 .idle
  let w15 := w14.goto 3 .wantWrite
  let w16 := (w15.learn 3 (w15.byWriters.join w15.byReaders)).goto 3 (.sampling [])
  let w17 := (w16.saw 3 (.count 0) 1).goto 3 (.sampling [1])
  let w18 := (w17.saw 3 (.count 1) 1).goto 3 (.sampledInf [1] 1)
  let w19 := (w18.saw 3 .sum 2).goto 3 (.sampled [1] 1 (F64.add (F64.add F64.pzero a) b))
  have hval : F64.ofNat 3 = F64.add (F64.add F64.pzero a) b := by
    set_option exponentiation.threshold 3000 in decide +kernel
  have hpc2 : ∀ u, (w2.pc u).holdsWrite = false := by
    intro u
    by_cases h2 : u = 2
    · subst h2; rfl
    by_cases h1 : u = 1
    · subst h1; rfl
    simp [w2, w1, w0, HWSys.goto, HWSys.new, h1, h2, HistPc.holdsWrite]
  have hpc3 : ∀ u, (w3.pc u).holdsWrite = false := by
    intro u
    by_cases h1 : u = 1
    · subst h1; rfl
    show (Function.update w2.pc 1 _ u).holdsWrite = false
    rw [Function.update_of_ne h1]
    exact hpc2 u
  have hpc : ∀ u, (w15.pc u).holdsWrite = false ∧ (w15.pc u).holdsRead = false := by
    intro u
    by_cases h3 : u = 3
    · subst h3; exact ⟨rfl, rfl⟩
    by_cases h2 : u = 2
    · subst h2; exact ⟨rfl, rfl⟩
    by_cases h1 : u = 1
    · subst h1; exact ⟨rfl, rfl⟩
    simp [w15, w14, w13, w12, w11, w10, w9, w8, w7, w6, w5, w4, w3, w2, w1, w0, HWSys.goto, HWSys.saw, HWSys.learn, HWSys.new,
      h1, h2, h3, HistPc.holdsWrite, HistPc.holdsRead]
  rw [hval]
  refine ⟨{ w19 with byWriters := w19.byWriters.join (w19.view 3) }.goto 3 .idle, ?_⟩
  refine exec_cons (m := w1) (.start w0 1 a 0 rfl (by decide +kernel)) ?_
  refine exec_cons (m := w2) (.start w1 2 b 1 rfl (by decide +kernel)) ?_
  refine exec_cons (m := w3) (.lockRead w2 1 0 a rfl hpc2) ?_
  refine exec_cons (m := w4) (.lockRead w3 2 1 b rfl hpc3) ?_
  refine exec_cons (m := w5) (.bump w4 1 0 a rfl (by decide)) ?_
  refine exec_cons (m := w6) (.bump w5 2 1 b rfl (by decide)) ?_
  refine exec_cons (m := w7) (.load w6 1 a _ 0 rfl (Nat.le_refl _) rfl) ?_
  refine exec_cons (m := w8) (.casOk w7 1 a _ rfl rfl) ?_
  refine exec_cons (m := w9) (.load w8 2 b _ 0 rfl (Nat.le_refl _) rfl) ?_
  refine exec_cons (m := w10) (.casFail w9 2 b F64.pzero rfl) ?_
  refine exec_cons (m := w11) (.load w10 2 b _ 1 rfl (Nat.zero_le _) rfl) ?_
  refine exec_cons (m := w12) (.casOk w11 2 b _ rfl rfl) ?_
  refine exec_cons (m := w13) (.unlockRead w12 1 a rfl) ?_
  refine exec_cons (m := w14) (.unlockRead w13 2 b rfl) ?_
  refine exec_cons (m := w15) (.startSample w14 3 rfl) ?_
  refine exec_cons (m := w16) (.lockWrite w15 3 rfl hpc) ?_
  refine exec_cons (m := w17) (.readBucket w16 3 [] 1 1 rfl (by decide) (by decide) rfl) ?_
  refine exec_cons (m := w18) (.readInf w17 3 [1] 1 1 rfl rfl (by decide) rfl) ?_
  refine exec_cons (m := w19) (.readSum w18 3 [1] 1 _ 2 rfl (by decide) rfl) ?_
  exact Exec.snoc (tr := []) .nil (.unlockWrite w19 3 _ _ _ rfl)

example : [1].sum + 1 = ([F64.one, F64.ofNat 2] : List F64).length := by
  obtain ⟨w, h⟩ := exWeak
  exact (C97_counts (le := [F64.one]) (by
    intro i j x y hij hx hy
    have h1 := (List.getElem?_eq_some_iff.1 hx).1
    have h2 := (List.getElem?_eq_some_iff.1 hy).1
    simp only [List.length_singleton] at h1 h2
    omega) h (by decide)).2.2.1

/-- The lock is needed: a thread that has taken no lock does not know the modifications of others. -/
example : ∃ w tr, Exec (HWStep [F64.one]) HWSys.new tr w ∧ (w.counts 0).length = 2 ∧ w.view 3 (.count 0) = 0 := by
  let w1 := HWSys.new.goto 1 (.wantRead 0 F64.one)
  let w2 := (w1.learn 1 w1.byWriters).goto 1 (.bump 0 F64.one)
  refine ⟨_, [.start 1 F64.one, .silent 1, .bumped 1 F64.one],
    exec_cons (m := w1) (.start _ 1 F64.one 0 rfl (by decide +kernel)) (exec_cons (m := w2)
      (.lockRead w1 1 0 F64.one rfl (fun u => ?_)) (Exec.snoc (tr := []) .nil (.bump w2 1 0 F64.one rfl (by decide)))), rfl, rfl⟩
  by_cases h : u = 1
  · subst h; rfl
  · simp [w1, HWSys.goto, HWSys.new, h, HistPc.holdsWrite]

end Measured.Conc
