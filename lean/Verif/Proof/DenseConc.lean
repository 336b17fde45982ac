import Verif.Spec.DenseMap
import Verif.Proof.Atomic

/-! # Invariants of concurrent dense vectors -/

namespace Measured.Conc
open Measured.Spec

variable {U : Type}

theorem denseUpdates_append (i : Nat) (a b : List (DEvent U)) :
    denseUpdates i (a ++ b) = denseUpdates i a ++ denseUpdates i b := by
  induction a with
  | nil => rfl
  | cons e a ih =>
    cases e <;> simp only [List.cons_append, denseUpdates, ih]
    split <;> rfl

theorem denseInits_append (i : Nat) (a b : List (DEvent U)) :
    denseInits i (a ++ b) = denseInits i a ++ denseInits i b := by
  induction a with
  | nil => rfl
  | cons e a ih =>
    cases e <;> simp only [List.cons_append, denseInits, ih]
    split <;> rfl

structure DInv (tr : List (DEvent U)) (s : DSys U) : Prop where
  done : ∀ i o, s.cells i = .done o → o < s.next ∧ denseInits i tr = [o] ∧ s.objs o = denseUpdates i tr
  notDone : ∀ i, (∀ o, s.cells i ≠ .done o) → denseInits i tr = [] ∧ denseUpdates i tr = []
  running : ∀ i t, s.cells i = .running t ↔ s.pc t = .init i
  got : ∀ t i o, s.pc t = .got i o → s.cells i = .done o
  refs : ∀ t i o, (i, o) ∈ s.refs t → s.cells i = .done o
  inj : ∀ i j o, s.cells i = .done o → s.cells j = .done o → i = j
  know : ∀ t i k, s.know t i = some k → ∃ o, s.cells i = .done o ∧ k ≤ (s.objs o).length
  acq : ∀ t i o, DEvent.acquired t i o ∈ tr → s.cells i = .done o

/-- An event that neither makes a state nor updates one. -/
def DEvent.quiet : DEvent U → Prop
  | .init _ _ _ | .update _ _ _ _ => False
  | _ => True

theorem quiet_updates {e : DEvent U} (h : e.quiet) (i : Nat) : denseUpdates i [e] = [] ∧ denseInits i [e] = [] := by
  cases e <;> first | exact ⟨rfl, rfl⟩ | exact h.elim

/-- A step that changes no cell and no state. -/
theorem DInv.quiet {tr : List (DEvent U)} {s s' : DSys U} {e : DEvent U} (hi : DInv tr s) (he : e.quiet)
    (hc : s'.cells = s.cells) (ho : s'.objs = s.objs) (hn : s'.next = s.next)
    (hrun : ∀ i t, s'.pc t = .init i ↔ s.pc t = .init i) (hgot : ∀ t i o, s'.pc t = .got i o → s.pc t = .got i o)
    (href : ∀ t i o, (i, o) ∈ s'.refs t → (i, o) ∈ s.refs t ∨ s.cells i = .done o)
    (hk : ∀ t i k, s'.know t i = some k → (∃ u, s.know u i = some k) ∨ ∃ o, s.cells i = .done o ∧ k ≤ (s.objs o).length)
    (hacq : ∀ t i o, e = .acquired t i o → s.cells i = .done o) : DInv (tr ++ [e]) s' := by
  have hu : ∀ i, denseUpdates i (tr ++ [e]) = denseUpdates i tr := fun i => by
    rw [denseUpdates_append, (quiet_updates he i).1, List.append_nil]
  have hin : ∀ i, denseInits i (tr ++ [e]) = denseInits i tr := fun i => by
    rw [denseInits_append, (quiet_updates he i).2, List.append_nil]
  refine ⟨?_, ?_, ?_, ?_, ?_, ?_, ?_, ?_⟩
  · intro i o h
    rw [hu, hin, ho, hn]
    exact hi.done i o (by rw [← hc]; exact h)
  · intro i h
    rw [hu, hin]
    exact hi.notDone i (fun o => by rw [← hc]; exact h o)
  · intro i t
    rw [hc, hrun, hi.running]
  · intro t i o h
    rw [hc]
    exact hi.got t i o (hgot t i o h)
  · intro t i o h
    rw [hc]
    rcases href t i o h with h | h
    · exact hi.refs t i o h
    · exact h
  · intro i j o h1 h2
    rw [hc] at h1 h2
    exact hi.inj i j o h1 h2
  · intro t i k h
    rw [hc, ho]
    rcases hk t i k h with ⟨u, h⟩ | h
    · exact hi.know u i k h
    · exact h
  · intro t i o h
    rw [hc]
    rcases List.mem_append.1 h with h | h
    · exact hi.acq t i o h
    · exact hacq t i o (List.mem_singleton.1 h).symm

theorem joinKnow_eq {a b : Option Nat} {k : Nat} (h : joinKnow a b = some k) : a = some k ∨ b = some k := by
  cases a <;> cases b <;> simp only [joinKnow, Option.some.injEq] at h ⊢
  · cases h
  · exact .inr h
  · exact .inl h
  · rename_i a b
    rcases Nat.le_total a b with hab | hab
    · exact .inr (by omega)
    · exact .inl (by omega)

theorem learn_know {s : DSys U} {t u : Tid} {i j k k' : Nat} (h : (s.learn t i k).know u j = some k') :
    s.know u j = some k' ∨ (j = i ∧ k' = k) := by
  simp only [DSys.learn, Function.update_apply] at h
  split at h
  · rename_i hu
    subst hu
    rw [Function.update_apply] at h
    split at h
    · rename_i hj
      subst hj
      rcases joinKnow_eq h with h | h
      · exact .inl h
      · exact .inr ⟨rfl, by simpa using h.symm⟩
    · exact .inl h
  · exact .inl h

theorem goto_pc {s : DSys U} {t u : Tid} {p : DPc} : (s.goto t p).pc u = if u = t then p else s.pc u := by
  simp [DSys.goto, Function.update_apply]

theorem dstep_inv {n : Nat} {tr : List (DEvent U)} {s s' : DSys U} {e : DEvent U} (hi : DInv tr s)
    (hs : DStep n s e s') : DInv (tr ++ [e]) s' := by
  have hrun : ∀ t p, (∀ i, s.pc t ≠ .init i) → (∀ i, p ≠ .init i) → ∀ i u,
      (s.goto t p).pc u = .init i ↔ s.pc u = .init i := by
    intro t p h1 h2 i u
    rw [goto_pc]
    by_cases hu : u = t
    · subst hu
      rw [if_pos rfl]
      exact ⟨fun h => absurd h (h2 i), fun h => absurd h (h1 i)⟩
    · rw [if_neg hu]
  have hgot : ∀ t p, (∀ i o, p ≠ .got i o) → ∀ u i o, (s.goto t p).pc u = .got i o → s.pc u = .got i o := by
    intro t p h2 u i o h
    rw [goto_pc] at h
    by_cases hu : u = t
    · rw [if_pos hu] at h; exact absurd h (h2 i o)
    · rwa [if_neg hu] at h
  have hhand : ∀ t i o, s.cells i = .done o → ∀ u j o', (j, o') ∈ (s.hand t i o).refs u →
      (j, o') ∈ s.refs u ∨ s.cells j = .done o' := by
    intro t i o hc u j o' h
    simp only [DSys.hand, Function.update_apply] at h
    split at h
    · rename_i hu
      subst hu
      rcases List.mem_cons.1 h with h | h
      · cases h; exact .inr hc
      · exact .inl h
    · exact .inl h
  have hlearn : ∀ t i k o, s.cells i = .done o → k ≤ (s.objs o).length → ∀ u j k',
      (s.learn t i k).know u j = some k' →
      (∃ u, s.know u j = some k') ∨ ∃ o, s.cells j = .done o ∧ k' ≤ (s.objs o).length := by
    intro t i k o hc hk u j k' h
    rcases learn_know h with h | ⟨rfl, rfl⟩
    · exact .inl ⟨u, h⟩
    · exact .inr ⟨o, hc, hk⟩
  have hno : ∀ {p q : DPc}, p = q → (∀ i, q ≠ .init i) → ∀ i, p ≠ .init i := by
    intro p q h h2 i; rw [h]; exact h2 i
  cases hs with
  | startGet t i h _ =>
    exact hi.quiet trivial rfl rfl rfl (hrun t _ (hno h (by simp)) (by simp)) (hgot t _ (by simp))
      (fun _ _ _ h => .inl h) (fun u _ _ h => .inl ⟨u, h⟩) (by simp)
  | fast t i o h hc =>
    exact hi.quiet trivial rfl rfl rfl (hrun t _ (hno h (by simp)) (by simp)) (hgot t _ (by simp))
      (hhand t i o hc) (hlearn t i 0 o hc (Nat.zero_le _)) (by rintro u j o' h; cases h; exact hc)
  | fastMiss t i h _ =>
    exact hi.quiet trivial rfl rfl rfl (hrun t _ (hno h (by simp)) (by simp)) (hgot t _ (by simp))
      (fun _ _ _ h => .inl h) (fun u _ _ h => .inl ⟨u, h⟩) (by simp)
  | slowDone t i o h hc =>
    exact hi.quiet trivial rfl rfl rfl (hrun t _ (hno h (by simp)) (by simp)) (hgot t _ (by simp))
      (hhand t i o hc) (hlearn t i 0 o hc (Nat.zero_le _)) (by rintro u j o' h; cases h; exact hc)
  | created t i o h =>
    have hc := hi.got t i o h
    exact hi.quiet trivial rfl rfl rfl (hrun t _ (hno h (by simp)) (by simp)) (hgot t _ (by simp))
      (hhand t i o hc) (fun u _ _ h => .inl ⟨u, h⟩) (by rintro u j o' h; cases h; exact hc)
  | sync t u =>
    refine hi.quiet trivial rfl rfl rfl (fun _ _ => Iff.rfl) (fun _ _ _ h => h) (fun _ _ _ h => .inl h) ?_ (by simp)
    intro v j k h
    simp only [Function.update_apply] at h
    split at h
    · rcases joinKnow_eq h with h | h
      · exact .inl ⟨_, h⟩
      · exact .inl ⟨_, h⟩
    · exact .inl ⟨_, h⟩
  | startPass t h =>
    exact hi.quiet trivial rfl rfl rfl (hrun t _ (hno h (by simp)) (by simp)) (hgot t _ (by simp))
      (fun _ _ _ h => .inl h) (fun u _ _ h => .inl ⟨u, h⟩) (by simp)
  | skip t i h _ _ =>
    exact hi.quiet trivial rfl rfl rfl (hrun t _ (hno h (by simp)) (by simp)) (hgot t _ (by simp))
      (fun _ _ _ h => .inl h) (fun u _ _ h => .inl ⟨u, h⟩) (by simp)
  | emit t i o us h _ hc hp hk =>
    exact hi.quiet trivial rfl rfl rfl (hrun t _ (hno h (by simp)) (by simp)) (hgot t _ (by simp))
      (fun _ _ _ h => .inl h) (hlearn t i us.length o hc hp.length_le) (by simp)
  | abort t i h =>
    exact hi.quiet trivial rfl rfl rfl (hrun t _ (hno h (by simp)) (by simp)) (hgot t _ (by simp))
      (fun _ _ _ h => .inl h) (fun u _ _ h => .inl ⟨u, h⟩) (by simp)
  | endPass t i h _ =>
    exact hi.quiet trivial rfl rfl rfl (hrun t _ (hno h (by simp)) (by simp)) (hgot t _ (by simp))
      (fun _ _ _ h => .inl h) (fun u _ _ h => .inl ⟨u, h⟩) (by simp)
  | slowRun t i h hc =>
    have hu : ∀ j, denseUpdates j (tr ++ [DEvent.silent t]) = denseUpdates j tr := fun j => by
      rw [denseUpdates_append]; exact List.append_nil _
    have hin : ∀ j, denseInits j (tr ++ [DEvent.silent t]) = denseInits j tr := fun j => by
      rw [denseInits_append]; exact List.append_nil _
    have hcell : ∀ j o, ((s.setCell i (.running t)).goto t (.init i)).cells j = .done o ↔ s.cells j = .done o := by
      intro j o
      show Function.update s.cells i _ j = _ ↔ _
      rw [Function.update_apply]
      split
      · rename_i hj; subst hj; simp [hc]
      · rfl
    refine ⟨?_, ?_, ?_, ?_, ?_, ?_, ?_, ?_⟩
    · intro j o hj; rw [hu, hin]; exact hi.done j o ((hcell j o).1 hj)
    · intro j hj; rw [hu, hin]; exact hi.notDone j (fun o ho => hj o ((hcell j o).2 ho))
    · intro j u
      show Function.update s.cells i _ j = _ ↔ (DSys.goto (s.setCell i (.running t)) t (.init i)).pc u = _
      rw [goto_pc, Function.update_apply]
      by_cases hj : j = i <;> by_cases hut : u = t
      · simp [hj, hut]
      · subst hj
        have : s.pc u ≠ .init j := fun hp => by
          have := (hi.running j u).2 hp; rw [hc] at this; cases this
        simp only [hut, if_true, if_false, DCell.running.injEq, DSys.setCell]
        exact ⟨fun h => absurd h.symm hut, fun h => absurd h this⟩
      · subst hut
        have : s.cells j ≠ .running u := fun hp => by
          have := (hi.running j u).1 hp; rw [h] at this; cases this
        simp only [hj, if_true, if_false, DPc.init.injEq]
        exact ⟨fun h => absurd h this, fun h => absurd h.symm hj⟩
      · simp only [hj, hut, if_false, DSys.setCell]
        exact hi.running j u
    · intro u j o hp
      rw [goto_pc] at hp
      split at hp
      · cases hp
      · exact (hcell j o).2 (hi.got u j o hp)
    · intro u j o hr; exact (hcell j o).2 (hi.refs u j o hr)
    · intro j j' o h1 h2; exact hi.inj j j' o ((hcell j o).1 h1) ((hcell j' o).1 h2)
    · intro u j k hk
      obtain ⟨o, h1, h2⟩ := hi.know u j k hk
      exact ⟨o, (hcell j o).2 h1, h2⟩
    · intro u j o ha
      rcases List.mem_append.1 ha with ha | ha
      · exact (hcell j o).2 (hi.acq u j o ha)
      · cases List.mem_singleton.1 ha
  | initPanic t i h =>
    have hc : s.cells i = .running t := (hi.running i t).2 h
    have hu : ∀ j, denseUpdates j (tr ++ [DEvent.panic t]) = denseUpdates j tr := fun j => by
      rw [denseUpdates_append]; exact List.append_nil _
    have hin : ∀ j, denseInits j (tr ++ [DEvent.panic t]) = denseInits j tr := fun j => by
      rw [denseInits_append]; exact List.append_nil _
    have hcell : ∀ j o, ((s.setCell i .empty).goto t .panicked).cells j = .done o ↔ s.cells j = .done o := by
      intro j o
      show Function.update s.cells i _ j = _ ↔ _
      rw [Function.update_apply]
      split
      · rename_i hj; subst hj; simp [hc]
      · rfl
    refine ⟨?_, ?_, ?_, ?_, ?_, ?_, ?_, ?_⟩
    · intro j o hj; rw [hu, hin]; exact hi.done j o ((hcell j o).1 hj)
    · intro j hj; rw [hu, hin]; exact hi.notDone j (fun o ho => hj o ((hcell j o).2 ho))
    · intro j u
      show Function.update s.cells i _ j = _ ↔ (DSys.goto (s.setCell i .empty) t .panicked).pc u = _
      rw [goto_pc, Function.update_apply]
      by_cases hj : j = i <;> by_cases hut : u = t
      · simp [hj, hut]
      · subst hj
        have : s.pc u ≠ .init j := fun hp => by
          have := (hi.running j u).2 hp; rw [hc] at this; cases this; exact hut rfl
        simpa [hut, DSys.setCell] using this
      · subst hut
        have : s.cells j ≠ .running u := fun hp => by
          have := (hi.running j u).1 hp; rw [h] at this; cases this; exact hj rfl
        simpa [hj] using this
      · simp only [hj, hut, if_false, DSys.setCell]
        exact hi.running j u
    · intro u j o hp
      rw [goto_pc] at hp
      split at hp
      · cases hp
      · exact (hcell j o).2 (hi.got u j o hp)
    · intro u j o hr; exact (hcell j o).2 (hi.refs u j o hr)
    · intro j j' o h1 h2; exact hi.inj j j' o ((hcell j o).1 h1) ((hcell j' o).1 h2)
    · intro u j k hk
      obtain ⟨o, h1, h2⟩ := hi.know u j k hk
      exact ⟨o, (hcell j o).2 h1, h2⟩
    · intro u j o ha
      rcases List.mem_append.1 ha with ha | ha
      · exact (hcell j o).2 (hi.acq u j o ha)
      · cases List.mem_singleton.1 ha
  | create t i h =>
    have hc : s.cells i = .running t := (hi.running i t).2 h
    obtain ⟨hin0, hu0⟩ := hi.notDone i (fun o ho => by rw [hc] at ho; cases ho)
    generalize hs' : ((({ s with next := s.next + 1, objs := Function.update s.objs s.next [] }.setCell i
      (.done s.next)).goto t (.got i s.next)).learn t i 0) = s'
    have hcells : s'.cells = Function.update s.cells i (.done s.next) := by rw [← hs']; rfl
    have hobjs : s'.objs = Function.update s.objs s.next [] := by rw [← hs']; rfl
    have hnext : s'.next = s.next + 1 := by rw [← hs']; rfl
    have hpc : s'.pc = Function.update s.pc t (.got i s.next) := by rw [← hs']; rfl
    have hrefs : s'.refs = s.refs := by rw [← hs']; rfl
    have hu : ∀ j, denseUpdates j (tr ++ [DEvent.init t i s.next]) = denseUpdates j tr := fun j => by
      rw [denseUpdates_append]; exact List.append_nil _
    have hin : ∀ j, denseInits j (tr ++ [DEvent.init t i s.next]) =
        if j = i then [s.next] else denseInits j tr := fun j => by
      rw [denseInits_append]
      by_cases hj : j = i
      · subst hj; simp [denseInits, hin0]
      · simp [denseInits, hj, Ne.symm hj]
    have hold : ∀ j o, s.cells j = .done o → s'.cells j = .done o ∧ s'.objs o = s.objs o := by
      intro j o hj
      have hji : j ≠ i := by rintro rfl; rw [hc] at hj; cases hj
      refine ⟨by rw [hcells, Function.update_of_ne hji]; exact hj, ?_⟩
      rw [hobjs, Function.update_of_ne]
      exact Nat.ne_of_lt (hi.done j o hj).1
    have hnew : s'.cells i = .done s.next := by rw [hcells, Function.update_self]
    have hcase : ∀ j o, s'.cells j = .done o → (j = i ∧ o = s.next) ∨ (j ≠ i ∧ s.cells j = .done o) := by
      intro j o hj
      by_cases hji : j = i
      · subst hji; rw [hnew] at hj; cases hj; exact .inl ⟨rfl, rfl⟩
      · rw [hcells, Function.update_of_ne hji] at hj; exact .inr ⟨hji, hj⟩
    refine ⟨?_, ?_, ?_, ?_, ?_, ?_, ?_, ?_⟩
    · intro j o hj
      rw [hu, hin, hnext]
      rcases hcase j o hj with ⟨rfl, rfl⟩ | ⟨hji, hj'⟩
      · rw [if_pos rfl, hobjs, Function.update_self, hu0]
        exact ⟨Nat.lt_succ_self _, rfl, rfl⟩
      · rw [if_neg hji, (hold j o hj').2]
        obtain ⟨h1, h2, h3⟩ := hi.done j o hj'
        exact ⟨Nat.lt_succ_of_lt h1, h2, h3⟩
    · intro j hj
      have hji : j ≠ i := by rintro rfl; exact hj _ hnew
      rw [hu, hin, if_neg hji]
      exact hi.notDone j (fun o ho => hj o (hold j o ho).1)
    · intro j u
      rw [hpc, hcells, Function.update_apply, Function.update_apply]
      by_cases hj : j = i <;> by_cases hut : u = t
      · simp [hj, hut]
      · subst hj
        have : s.pc u ≠ .init j := fun hp => by
          have := (hi.running j u).2 hp; rw [hc] at this; cases this; exact hut rfl
        simpa [hut] using this
      · subst hut
        have : s.cells j ≠ .running u := fun hp => by
          have := (hi.running j u).1 hp; rw [h] at this; cases this; exact hj rfl
        simpa [hj] using this
      · simp only [hj, hut, if_false]
        exact hi.running j u
    · intro u j o hp
      rw [hpc, Function.update_apply] at hp
      split at hp
      · cases hp; exact hnew
      · exact (hold j o (hi.got u j o hp)).1
    · intro u j o hr
      rw [hrefs] at hr
      exact (hold j o (hi.refs u j o hr)).1
    · intro j j' o h1 h2
      rcases hcase j o h1 with ⟨rfl, rfl⟩ | ⟨_, h1'⟩ <;> rcases hcase j' _ h2 with ⟨rfl, h'⟩ | ⟨_, h2'⟩
      · rfl
      · exact absurd (hi.done _ _ h2').1 (Nat.lt_irrefl _)
      · subst h'; exact absurd (hi.done _ _ h1').1 (Nat.lt_irrefl _)
      · exact hi.inj j j' o h1' h2'
    · intro u j k hk
      rw [← hs'] at hk
      rcases learn_know hk with hk | ⟨rfl, rfl⟩
      · obtain ⟨o, h1, h2⟩ := hi.know u j k hk
        exact ⟨o, (hold j o h1).1, by rw [(hold j o h1).2]; exact h2⟩
      · exact ⟨_, hnew, Nat.zero_le _⟩
    · intro u j o ha
      rcases List.mem_append.1 ha with ha | ha
      · exact (hold j o (hi.acq u j o ha)).1
      · cases List.mem_singleton.1 ha
  | update t i o u hr =>
    have hc := hi.refs t i o hr
    have hu : ∀ j, denseUpdates j (tr ++ [DEvent.update t i o u]) =
        denseUpdates j tr ++ if i = j then [u] else [] := fun j => by
      rw [denseUpdates_append]
      by_cases hj : i = j <;> simp [denseUpdates, hj]
    have hin : ∀ j, denseInits j (tr ++ [DEvent.update t i o u]) = denseInits j tr := fun j => by
      rw [denseInits_append]; exact List.append_nil _
    have hobj : ∀ j o', s.cells j = .done o' → Function.update s.objs o (s.objs o ++ [u]) o' =
        s.objs o' ++ if i = j then [u] else [] := by
      intro j o' hj
      by_cases hij : i = j
      · subst hij
        rw [hc] at hj
        cases hj
        simp
      · have : o' ≠ o := by rintro rfl; exact hij (hi.inj i j o' hc hj)
        simp [hij, this]
    refine ⟨?_, ?_, hi.running, hi.got, hi.refs, hi.inj, ?_, ?_⟩
    · intro j o' hj
      obtain ⟨h1, h2, h3⟩ := hi.done j o' hj
      rw [hu, hin]
      exact ⟨h1, h2, by rw [← h3]; exact hobj j o' hj⟩
    · intro j hj
      rw [hu, hin]
      have hij : i ≠ j := by rintro rfl; exact hj o hc
      rw [if_neg hij, List.append_nil]
      exact hi.notDone j hj
    · intro v j k hk
      show ∃ o', s.cells j = .done o' ∧ k ≤ (Function.update s.objs o (s.objs o ++ [u]) o').length
      rcases learn_know hk with hk | ⟨rfl, rfl⟩
      · obtain ⟨o', h1, h2⟩ := hi.know v j k hk
        refine ⟨o', h1, ?_⟩
        rw [hobj j o' h1, List.length_append]
        omega
      · exact ⟨o, hc, by rw [Function.update_self, List.length_append]; exact Nat.le_refl _⟩
    · intro v j o' ha
      rcases List.mem_append.1 ha with ha | ha
      · exact hi.acq v j o' ha
      · cases List.mem_singleton.1 ha

theorem d_inv {n : Nat} {tr : List (DEvent U)} {s : DSys U} (h : Exec (DStep n) DSys.new tr s) : DInv tr s := by
  induction h with
  | nil =>
    refine ⟨?_, ?_, ?_, ?_, ?_, ?_, ?_, ?_⟩
    · intro i o h; cases h
    · intro i _; exact ⟨rfl, rfl⟩
    · intro i t; exact ⟨(fun h => by cases h), (fun h => by cases h)⟩
    · intro t i o h; cases h
    · intro t i o h; cases h
    · intro i j o h; cases h
    · intro t i k h; cases h
    · intro t i o h; cases h
  | snoc _ hs ih => exact dstep_inv ih hs

/-! ## What threads know -/

def DSys.Knows (s : DSys U) (t : Tid) (i k : Nat) : Prop := ∃ k', s.know t i = some k' ∧ k ≤ k'

theorem knows_join_left {a b : Option Nat} {k : Nat} (h : ∃ k', a = some k' ∧ k ≤ k') :
    ∃ k', joinKnow a b = some k' ∧ k ≤ k' := by
  obtain ⟨k', rfl, hk⟩ := h
  cases b
  · exact ⟨k', rfl, hk⟩
  · exact ⟨_, rfl, Nat.le_trans hk (Nat.le_max_left _ _)⟩

theorem knows_join_right {a b : Option Nat} {k : Nat} (h : ∃ k', b = some k' ∧ k ≤ k') :
    ∃ k', joinKnow a b = some k' ∧ k ≤ k' := by
  obtain ⟨k', rfl, hk⟩ := h
  cases a
  · exact ⟨k', rfl, hk⟩
  · exact ⟨_, rfl, Nat.le_trans hk (Nat.le_max_right _ _)⟩

theorem knows_learn {s : DSys U} {t : Tid} {i k : Nat} (u : Tid) (j k' : Nat) (h : s.Knows t i k) :
    (s.learn u j k').Knows t i k := by
  unfold DSys.Knows DSys.learn
  simp only [Function.update_apply]
  split
  · rename_i hu
    subst hu
    rw [Function.update_apply]
    split
    · rename_i hj
      subst hj
      exact knows_join_left h
    · exact h
  · exact h

theorem learn_knows (s : DSys U) (t : Tid) (i k : Nat) : (s.learn t i k).Knows t i k := by
  unfold DSys.Knows DSys.learn
  simp only [Function.update_self]
  exact knows_join_right ⟨k, rfl, Nat.le_refl _⟩

theorem knows_step {n : Nat} {s s' : DSys U} {e : DEvent U} (hs : DStep n s e s') {t : Tid} {i k : Nat}
    (h : s.Knows t i k) : s'.Knows t i k := by
  cases hs with
  | fast t' j o _ _ => exact knows_learn (s := s.goto t' .idle) _ _ _ h
  | slowDone t' j o _ _ => exact knows_learn (s := s.goto t' .idle) _ _ _ h
  | create t' j _ => exact knows_learn (s := DSys.goto _ t' _) _ _ _ h
  | update t' j o u _ => exact knows_learn (s := { s with objs := _ }) _ _ _ h
  | emit t' j o us _ _ _ _ _ => exact knows_learn (s := s.goto t' _) _ _ _ h
  | sync t' u =>
    unfold DSys.Knows
    simp only [Function.update_apply]
    split
    · rename_i hu
      subst hu
      exact knows_join_left h
    · exact h
  | _ => exact h

theorem knows_informed {n : Nat} {s : DSys U} {u : Tid} {i k : Nat} (hk : s.Knows u i k) {t : Tid}
    {tr : List (DEvent U)} (hinf : Informed u t tr) {s' : DSys U} (h : Exec (DStep n) s tr s') : s'.Knows t i k := by
  induction hinf generalizing s' with
  | start =>
    generalize he : ([] : List (DEvent U)) = l at h
    cases h with
    | nil => exact hk
    | snoc _ _ => simp at he
  | keep _ ih =>
    obtain ⟨m, h1, h2⟩ := exec_snoc_inv h
    exact knows_step h2 (ih h1)
  | @sync t v tr _ ih =>
    obtain ⟨m, h1, h2⟩ := exec_snoc_inv h
    have := ih h1
    cases h2
    unfold DSys.Knows
    simp only [Function.update_self]
    exact knows_join_right this

theorem got_knows {n : Nat} {tr : List (DEvent U)} {s : DSys U} (h : Exec (DStep n) DSys.new tr s) {t : Tid} {i o : Nat}
    (hp : s.pc t = .got i o) : s.Knows t i 0 := by
  induction h with
  | nil => cases hp
  | @snoc tr s e s' _ hs ih =>
    by_cases hp' : s.pc t = .got i o
    · exact knows_step hs (ih hp')
    · cases hs with
      | create t' j _ =>
        change (DSys.goto _ t' _).pc t = _ at hp
        rw [goto_pc] at hp
        split at hp
        · rename_i ht
          subst ht
          cases hp
          exact learn_knows _ _ _ _
        · exact absurd hp hp'
      | sync _ _ => exact absurd hp hp'
      | update _ _ _ _ _ => exact absurd hp hp'
      | _ t' =>
        change (DSys.goto _ t' _).pc t = _ at hp
        rw [goto_pc] at hp
        split at hp
        · cases hp
        · exact absurd hp hp'

end Measured.Conc
