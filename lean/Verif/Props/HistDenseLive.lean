import Verif.Proof.HistDenseLive

/-!
# C86: no call on a dense vector of histograms waits for ever
-/

namespace Measured
open Conc Spec

/-- Whatever guards the threads keep, and whatever the collecting threads are at: if some call is not over, some thread
can go on with its call. -/
theorem C86_progress {n : Nat} {le : List F64} {tr : List HDEvent} {s : HDSys}
    (h : Exec (HDStep n le) (HDSys.new le.length) tr s) (hact : ∃ t, ¬ s.Over t) :
    ∃ e s', HDStep n le s e s' ∧ HDGoes s e s' := hd_progress h hact

/-- However the threads go on, after a bounded number of steps all calls are over. -/
theorem C86_finish {n : Nat} {le : List F64} {tr : List HDEvent} {s : HDSys}
    (h : Exec (HDStep n le) (HDSys.new le.length) tr s) :
    ∃ bound, ∀ tr' s', Exec (fun s e s' => HDStep n le s e s' ∧ HDGoes s e s') s tr' s' →
      tr'.length ≤ bound ∧ ((∀ e s'', ¬ (HDStep n le s' e s'' ∧ HDGoes s' e s'')) → ∀ t, s'.Over t) := by
  obtain ⟨T, hn, hT⟩ := d_support (hd_inv h).exec
  refine ⟨hdWork n le.length T s, fun tr' s' h' => ⟨?_, fun hstuck t => ?_⟩⟩
  · suffices tr'.length + hdWork n le.length T s' ≤ hdWork n le.length T s ∧ OnlyIn T s'.vec by omega
    induction h' with
    | nil => exact ⟨by simp, hT⟩
    | @snoc tr' s1 e s2 hex' hs ih =>
      obtain ⟨h1, h2⟩ := hd_decreases hn (exec_trans h (exec_weaken (fun _ _ _ h => h.1) hex')) ih.2 hs.1 hs.2
      refine ⟨?_, h2⟩
      have := ih.1
      simp only [List.length_append, List.length_singleton]
      omega
  · by_contra hc
    obtain ⟨e, s'', he⟩ := C86_progress (exec_trans h (exec_weaken (fun _ _ _ h => h.1) h')) ⟨t, hc⟩
    exact hstuck e s'' he

/-- The collecting thread waits for the lock of the histogram, which an observer holds; the observer can go on. -/
example : ∃ s, Exec (HDStep 2 [F64.one]) (HDSys.new 1)
    (HistDenseExample.tr₁ ++ .vec (.startPass 1) :: HistDenseExample.tr₂.take 2) s ∧ (s.hist 0).pc 1 = .wantWrite ∧
    (s.hist 0).pc 0 = .adding F64.one ∧ ∃ e s', HDStep 2 [F64.one] s e s' ∧ HDGoes s e s' := by
  obtain ⟨s, _, _, h1, h2, h3, _⟩ := HistDenseExample.run'
  exact ⟨s, h1, h2, h3, C86_progress (le := [F64.one]) h1 ⟨1, fun h => by have := h.2 0; rw [h2] at this; cases this⟩⟩

end Measured
