import Verif.Model.HistDense
import Verif.Spec.Live

/-! Runs on a dense vector of histograms in which no new operation starts and operations in progress go on. -/

namespace Measured.Spec
open Measured.Conc

/-- The event starts no operation on the vector, and nobody panics. -/
def DEvent.goesOn {U : Type} : DEvent U → Prop
  | .init .. | .acquired .. | .skip .. | .emit .. | .endPass _ | .silent _ => True
  | .startGet .. | .update .. | .sync .. | .startPass _ | .panic _ => False

/-- A step in which no thread starts an operation (other than sampling the cell at which its collection has arrived); as
for one histogram, locks refuse readers while a writer waits, loads return the current value and compare-exchanges fail
only if the value has changed. -/
def HDGoes (s : HDSys) (e : HDEvent) (s' : HDSys) : Prop :=
  match e with
  | .vec e => DEvent.goesOn e
  | .observe _ i _ => ∀ o, s.vec.cells i = .done o → HistGoes (s.hist o) (s'.hist o)
  | .sampling t i _ => ∀ o, s.vec.cells i = .done o → (s.hist o).pc t = .idle ∨ HistGoes (s.hist o) (s'.hist o)
  | .emit .. => True

/-- The thread is in no call. -/
def _root_.Measured.Conc.HDSys.Over (s : HDSys) (t : Tid) : Prop :=
  (s.vec.pc t = .idle ∨ s.vec.pc t = .panicked) ∧ ∀ o, (s.hist o).pc t = .idle

end Measured.Spec
