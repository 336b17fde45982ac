import Verif.Proof.HistVecLive
import Verif.Props.HistVec

/-!
# C85: nobody waits for ever on a vector of histograms
-/

namespace Measured
open Conc Spec

variable {K : Type} [DecidableEq K]

/-- C85. Threads that drop their guard before they start another operation on the map are never all stuck: whenever an
operation is in progress (on the map or on a histogram) or a guard is kept, some thread can go on, even if the locks of
the shards and those of the histograms refuse readers while a writer waits. -/
theorem C85_progress {c : ShardConf K} {le : List F64} {tr : List (HVEvent K)} {s : HVSys K}
    (h : Exec (fun s e s' => HVStep c le s e s' ∧ HVDisciplined s e) (HVSys.new le.length) tr s)
    (hact : (∃ t, (s.vec.thr t).pc ≠ .idle ∨ (s.vec.thr t).guards ≠ []) ∨ ∃ k t, (s.hist k).pc t ≠ .idle) :
    ∃ e s', HVStep c le s e s' ∧ HVGoes c s e s' := by
  refine hv_progress h ?_
  rcases hact with hact | ⟨k, t, hb⟩
  · exact hact
  · obtain ⟨parts, a, _, hi⟩ := hv_inv (exec_weaken (fun _ _ _ h => h.1) h)
    refine ⟨t, ?_⟩
    rw [← hi.vec]
    rcases hi.busy k t with hb' | ⟨_, _, hg⟩ | ⟨_, i, j, acc, snap, us, hp, _⟩
    · exact absurd hb' hb
    · exact .inr fun h => by
        have : (a.thr t).guards = [] := h
        rw [this] at hg; cases hg
    · refine .inl fun h => ?_
      have : (a.thr t).pc.erase = .idle := h
      rw [hp] at this; cases this

/-- However the threads go on, after a bounded number of steps all operations on the map and on the histograms are over
and all guards dropped. -/
theorem C85_finish {c : ShardConf K} {le : List F64} {tr : List (HVEvent K)} {s : HVSys K}
    (h : Exec (fun s e s' => HVStep c le s e s' ∧ HVDisciplined s e) (HVSys.new le.length) tr s) :
    ∃ bound, ∀ tr' s', Exec (fun s e s' => HVStep c le s e s' ∧ HVGoes c s e s') s tr' s' →
      tr'.length ≤ bound ∧ ((∀ e s'', ¬ (HVStep c le s' e s'' ∧ HVGoes c s' e s'')) →
        (∀ t, s'.vec.thr t = ⟨.idle, []⟩) ∧ ∀ k t, (s'.hist k).pc t = .idle) := by
  have hex := exec_weaken (fun _ _ _ h => h.1) h
  obtain ⟨vtr, hv⟩ := hv_vec_exec hex
  obtain ⟨T, hn, hT⟩ := finite_support hv
  obtain ⟨Ks, hK⟩ := finite_keys hv
  refine ⟨hvWork c le.length T Ks s, fun tr' s' h' => ⟨?_, fun hstuck => ?_⟩⟩
  · suffices tr'.length + hvWork c le.length T Ks s' ≤ hvWork c le.length T Ks s ∧
        (∀ t, t ∉ T → s'.vec.thr t = ⟨.idle, []⟩) ∧ KeysIn Ks s'.vec by omega
    induction h' with
    | nil => exact ⟨by simp, hT, hK⟩
    | @snoc tr' s1 e s2 hex' hs ih =>
      obtain ⟨h1, h2, h3⟩ := hv_decreases hn (exec_trans hex (exec_weaken (fun _ _ _ h => h.1) hex')) ih.2.1 ih.2.2
        hs.1 hs.2
      refine ⟨?_, h2, h3⟩
      have := ih.1
      simp only [List.length_append, List.length_singleton]
      omega
  · have hdis : Exec (fun s e s' => HVStep c le s e s' ∧ HVDisciplined s e) s tr' s' := by
      refine exec_weaken (fun s e s' h => ⟨h.1, ?_⟩) h'
      cases e with
      | vec e =>
        have hf := h.2.2
        intro t ht
        cases e <;> first | exact hf.elim | cases ht
      | _ => trivial
    have hno := not_or.1 fun hact => hstuck _ _ (C85_progress (exec_trans h hdis) hact).choose_spec.choose_spec
    refine ⟨fun t => ?_, fun k t => ?_⟩
    · by_contra hc
      refine hno.1 ⟨t, ?_⟩
      by_contra hn'
      rw [not_or, not_not, not_not] at hn'
      exact hc (by cases hth : s'.vec.thr t; rw [hth] at hn'; simp_all)
    · by_contra hc
      exact hno.2 ⟨k, t, hc⟩

/-- The collecting thread has the lock of the shard and waits for that of the histogram, which an observer holds; the
observer, which keeps a guard on the shard, can go on. -/
example : ∃ s, Exec (fun s e s' => HVStep SparseExample.conf [F64.one] s e s' ∧ HVDisciplined s e) (HVSys.new 1)
    (HistVecExample.tr₁ ++ .vec (.startPass 1) :: HistVecExample.tr₂.take 4) s ∧ (s.hist 1).pc 1 = .wantWrite ∧
    (s.hist 1).pc 0 = .adding F64.one ∧ ∃ e s', HVStep SparseExample.conf [F64.one] s e s' ∧
      HVGoes SparseExample.conf s e s' := by
  obtain ⟨s, _, h1, h2, h3, _⟩ := HistVecExample.run_disciplined
  exact ⟨s, h1, h2, h3, C85_progress (le := [F64.one]) h1 (.inr ⟨1, 1, by rw [h2]; simp⟩)⟩

end Measured
