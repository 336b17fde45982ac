import Verif.Proof.DenseConc

/-!
# C47: a dense vector used by many threads
-/

namespace Measured
open Conc Spec

variable {U : Type}

/-- Every label gets at most one state in the whole run: an initialised cell is never reset. -/
theorem C47_once {n : Nat} {tr : List (DEvent U)} {s : DSys U} (h : Exec (DStep n) DSys.new tr s) (i : Nat) :
    (denseInits i tr).length ≤ 1 := by
  have hi := d_inv h
  cases hc : s.cells i with
  | done o => rw [(hi.done i o hc).2.1]; exact Nat.le_refl _
  | empty => rw [(hi.notDone i (by rw [hc]; intro o h; cases h)).1]; exact Nat.zero_le _
  | running t => rw [(hi.notDone i (by rw [hc]; intro o h; cases h)).1]; exact Nat.zero_le _

/-- All threads that look up a label get the same state, and those that look up another label get another one. -/
theorem C47_same {n : Nat} {tr : List (DEvent U)} {s : DSys U} (h : Exec (DStep n) DSys.new tr s)
    {t t' : Tid} {i i' o o' : Nat} (h1 : .acquired t i o ∈ tr) (h2 : .acquired t' i' o' ∈ tr) :
    i = i' ↔ o = o' := by
  have hi := d_inv h
  have c1 := hi.acq t i o h1
  have c2 := hi.acq t' i' o' h2
  constructor
  · rintro rfl
    rw [c1] at c2
    cases c2
    rfl
  · rintro rfl
    exact hi.inj _ _ _ c1 c2

/-- No update is lost: the state that the label has contains all updates ever made to the label, in order. A label
without a state has had no update. -/
theorem C47_updates {n : Nat} {tr : List (DEvent U)} {s : DSys U} (h : Exec (DStep n) DSys.new tr s) (i : Nat) :
    (∃ o, s.cells i = .done o ∧ s.objs o = denseUpdates i tr) ∨
      ((∀ o, s.cells i ≠ .done o) ∧ denseUpdates i tr = []) := by
  have hi := d_inv h
  by_cases hc : ∃ o, s.cells i = .done o
  · obtain ⟨o, hc⟩ := hc
    exact .inl ⟨o, hc, (hi.done i o hc).2.2⟩
  · have hc' : ∀ o, s.cells i ≠ .done o := fun o ho => hc ⟨o, ho⟩
    exact .inr ⟨hc', (hi.notDone i hc').2⟩

/-- What a collection pass writes for a label is a prefix of the updates made to it so far; with all updates before
one of which the collecting thread has been informed (its own, or those of threads that it has synchronised with). -/
theorem C47_emit {n : Nat} {tr tr' : List (DEvent U)} {t : Tid} {i : Nat} {us : List U} {s : DSys U}
    (h : Exec (DStep n) DSys.new (tr ++ .emit t i us :: tr') s) :
    us <+: denseUpdates i tr ∧
      ∀ tr₁ tr₂ v o u, tr = tr₁ ++ .update v i o u :: tr₂ → Informed v t tr₂ →
        denseUpdates i tr₁ ++ [u] <+: us := by
  obtain ⟨s₁, h1, h2⟩ := exec_split tr _ h
  obtain ⟨s₂, hs, _⟩ := exec_cons_inv h2
  cases hs with
  | emit _ _ o _ hp hi hc hpre hk =>
    have hpre' : us <+: denseUpdates i tr := by
      rw [← ((d_inv h1).done i o hc).2.2]; exact hpre
    refine ⟨hpre', ?_⟩
    rintro tr₁ tr₂ v o' u rfl hinf
    obtain ⟨s₃, h3, h4⟩ := exec_split tr₁ _ h1
    obtain ⟨s₄, hs, h5⟩ := exec_cons_inv h4
    have hlen : s₄.Knows v i ((denseUpdates i tr₁).length + 1) := by
      cases hs with
      | update _ _ _ _ hr =>
        have := ((d_inv h3).done i o' ((d_inv h3).refs v i o' hr)).2.2
        rw [← this]
        exact learn_knows _ _ _ _
    obtain ⟨k, hk1, hk2⟩ := knows_informed hlen hinf h5
    have hlen := hk k hk1
    have hall : denseUpdates i tr₁ ++ [u] <+: denseUpdates i (tr₁ ++ .update v i o' u :: tr₂) := by
      rw [denseUpdates_append]
      simp only [denseUpdates, if_true]
      exact ⟨denseUpdates i tr₂, by simp⟩
    exact List.prefix_of_prefix_length_le hall hpre' (by simp; omega)

/-- A pass leaves a label out only if nothing told the collecting thread that the label exists. -/
theorem C47_skip {n : Nat} {tr tr' : List (DEvent U)} {t : Tid} {i : Nat} {s : DSys U}
    (h : Exec (DStep n) DSys.new (tr ++ .skip t i :: tr') s) :
    ∀ tr₁ tr₂ v o, tr = tr₁ ++ .acquired v i o :: tr₂ → ¬ Informed v t tr₂ := by
  rintro tr₁ tr₂ v o rfl hinf
  obtain ⟨s₁, h1, h2⟩ := exec_split (tr₁ ++ .acquired v i o :: tr₂) _ h
  obtain ⟨s₂, hs, _⟩ := exec_cons_inv h2
  obtain ⟨s₃, h3, h4⟩ := exec_split tr₁ _ h1
  obtain ⟨s₄, hs', h5⟩ := exec_cons_inv h4
  have hkn : s₄.Knows v i 0 := by
    cases hs' with
    | fast _ _ _ _ _ => exact learn_knows _ _ _ _
    | slowDone _ _ _ _ _ => exact learn_knows _ _ _ _
    | created _ _ _ hg =>
      exact knows_step (n := n) (.created s₃ v i o hg) (got_knows h3 hg)
  obtain ⟨k, hk, _⟩ := knows_informed hkn hinf h5
  cases hs with
  | skip _ _ _ _ hk' => rw [hk] at hk'; cases hk'

/-- First use never gets stuck: a thread in `get_metric` can go on, or waits for one that is running `M::default` for
the same label and can go on. -/
theorem C47_progress {n : Nat} {tr : List (DEvent U)} {s : DSys U} (h : Exec (DStep n) DSys.new tr s) {t : Tid}
    {i : Nat} (hp : s.pc t = .check i ∨ s.pc t = .slow i ∨ s.pc t = .init i ∨ ∃ o, s.pc t = .got i o) :
    (∃ e s', DStep n s e s' ∧ s'.pc t ≠ s.pc t) ∨
      ∃ u e s', u ≠ t ∧ s.cells i = .running u ∧ s.pc u = .init i ∧ DStep n s e s' ∧ s'.pc u ≠ s.pc u := by
  have hi := d_inv h
  have hself : ∀ (s : DSys U) (t : Tid) (p : DPc), (s.goto t p).pc t = p := fun s t p => by rw [goto_pc, if_pos rfl]
  rcases hp with hp | hp | hp | ⟨o, hp⟩
  · left
    cases hk : s.know t i with
    | none => exact ⟨_, _, .fastMiss s t i hp hk, by rw [hself, hp]; simp⟩
    | some k =>
      obtain ⟨o, hc, _⟩ := hi.know t i k hk
      exact ⟨_, _, .fast s t i o hp hc, by
        show (s.goto t .idle).pc t ≠ _
        rw [hself, hp]; simp⟩
  · cases hc : s.cells i with
    | empty => exact .inl ⟨_, _, .slowRun s t i hp hc, by rw [hself, hp]; simp⟩
    | done o =>
      exact .inl ⟨_, _, .slowDone s t i o hp hc, by
        show (s.goto t .idle).pc t ≠ _
        rw [hself, hp]; simp⟩
    | running u =>
      have hu := (hi.running i u).1 hc
      refine .inr ⟨u, _, _, ?_, rfl, hu, .create s u i hu, ?_⟩
      · rintro rfl; rw [hp] at hu; cases hu
      · show (DSys.goto _ u _).pc u ≠ _
        rw [hself, hu]; simp
  · left
    refine ⟨_, _, .create s t i hp, ?_⟩
    show (DSys.goto _ t _).pc t ≠ _
    rw [hself, hp]; simp
  · left
    refine ⟨_, _, .created s t i o hp, ?_⟩
    show (s.goto t .idle).pc t ≠ _
    rw [hself, hp]; simp

/-! ## A run with three threads -/

namespace DenseExample

def tr : List (DEvent Nat) :=
  [.startGet 0 1, .startGet 1 1, .silent 0, .silent 1, .silent 0, .init 0 1 0, .acquired 1 1 0, .acquired 0 1 0,
    .update 1 1 0 7, .update 0 1 0 8, .sync 2 1, .startPass 2, .skip 2 0]

/-- Threads 0 and 1 race to use label 1 of two for the first time; thread 0 wins. Both update it. Thread 2 learns of
what thread 1 has done and collects; it sees at least the update of thread 1. -/
theorem run : ∃ s, Exec (DStep 2) DSys.new (tr ++ .emit 2 1 [7] :: [.endPass 2]) s ∧ s.cells 1 = .done 0 ∧
    s.objs 0 = [7, 8] ∧ s.know 2 0 = none ∧ s.know 2 1 = some 1 ∧ s.pc 3 = .idle ∧ ∀ i, s.know 3 i = none := by
  let s0 : DSys Nat := DSys.new
  let s1 := s0.goto 0 (.check 1)
  let s2 := s1.goto 1 (.check 1)
  let s3 := s2.goto 0 (.slow 1)
  let s4 := s3.goto 1 (.slow 1)
  let s5 := (s4.setCell 1 (.running 0)).goto 0 (.init 1)
  let s6 := (({ s5 with next := 1, objs := Function.update s5.objs 0 [] }.setCell 1 (.done 0)).goto 0
        (.got 1 0)).learn 0 1 0
  let s7 := ((s6.goto 1 .idle).learn 1 1 0).hand 1 1 0
  let s8 := (s7.goto 0 .idle).hand 0 1 0
  let s9 := { s8 with objs := Function.update s8.objs 0 (s8.objs 0 ++ [7]) }.learn 1 1 1
  let s10 := { s9 with objs := Function.update s9.objs 0 (s9.objs 0 ++ [8]) }.learn 0 1 2
  let s11 := { s10 with know := Function.update s10.know 2 fun i => joinKnow (s10.know 2 i) (s10.know 1 i) }
  let s12 := s11.goto 2 (.pass 0)
  let s13 := s12.goto 2 (.pass 1)
  let s14 := (s13.goto 2 (.pass 2)).learn 2 1 1
  let s15 := s14.goto 2 .idle
  refine ⟨s15, ?_, rfl, rfl, rfl, rfl, rfl, fun _ => rfl⟩
  refine exec_cons (m := s1) (.startGet s0 0 1 rfl (by decide)) ?_
  refine exec_cons (m := s2) (.startGet s1 1 1 rfl (by decide)) ?_
  refine exec_cons (m := s3) (.fastMiss s2 0 1 rfl rfl) ?_
  refine exec_cons (m := s4) (.fastMiss s3 1 1 rfl rfl) ?_
  refine exec_cons (m := s5) (.slowRun s4 0 1 rfl rfl) ?_
  refine exec_cons (m := s6) (.create s5 0 1 rfl) ?_
  refine exec_cons (m := s7) (.slowDone s6 1 1 0 rfl rfl) ?_
  refine exec_cons (m := s8) (.created s7 0 1 0 rfl) ?_
  refine exec_cons (m := s9) (.update s8 1 1 0 7 (List.mem_singleton.2 rfl)) ?_
  refine exec_cons (m := s10) (.update s9 0 1 0 8 (List.mem_singleton.2 rfl)) ?_
  refine exec_cons (m := s11) (.sync s10 2 1) ?_
  refine exec_cons (m := s12) (.startPass s11 2 rfl) ?_
  refine exec_cons (m := s13) (.skip s12 2 0 rfl (by decide) rfl) ?_
  refine exec_cons (m := s14) (.emit s13 2 1 0 [7] rfl (by decide) rfl ⟨[8], rfl⟩ ?_) ?_
  · intro k hk
    have : s13.know 2 1 = some 1 := rfl
    rw [this] at hk
    cases hk
    decide
  exact Exec.snoc (tr := []) .nil (.endPass s14 2 2 rfl (by decide))

example : denseUpdates 1 tr = [7, 8] ∧ denseInits 1 tr = [0] ∧
    ∃ tr₁ tr₂, tr = tr₁ ++ .update 1 1 0 7 :: tr₂ ∧ Informed 1 2 tr₂ := by
  refine ⟨by decide, by decide, tr.take 8, tr.drop 9, rfl, ?_⟩
  have h : Informed 1 1 ([] ++ [DEvent.update 0 1 0 8]) := .keep .start
  exact .keep (tr := [.update 0 1 0 8, .sync 2 1, .startPass 2]) (.keep (tr := [.update 0 1 0 8, .sync 2 1])
    (.sync (tr := [.update 0 1 0 8]) h))

end DenseExample

end Measured
