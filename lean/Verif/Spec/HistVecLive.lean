import Verif.Model.HistVec
import Verif.Spec.Live

/-! Runs on a vector of histograms in which no new operation starts and operations in progress go on. -/

namespace Measured.Spec
open Measured.Conc

variable {K : Type}

/-- The event starts no operation on the map, and nobody panics. -/
def SEvent.goesOn {U : Type} : SEvent K U → Prop
  | .startGet .. | .startRemove .. | .startPass _ | .update .. | .panic _ => False
  | _ => True

/-- A step in which no thread starts an operation (other than sampling the entry at which its collection has arrived);
on locks that refuse readers while a writer waits, at both levels, with loads that return the current value and
compare-exchanges that fail only if the value has changed. -/
def HVGoes (c : ShardConf K) (s : HVSys K) (e : HVEvent K) (s' : HVSys K) : Prop :=
  match e with
  | .vec e => Strict c s.vec e ∧ SEvent.goesOn e
  | .observe _ k _ => HistGoes (s.hist k) (s'.hist k)
  | .sampling t k _ => (s.hist k).pc t = .idle ∨ HistGoes (s.hist k) (s'.hist k)
  | .emit .. | .removed .. => True

/-- Threads drop their guard before they start another operation on the map. -/
def HVDisciplined (s : HVSys K) : HVEvent K → Prop
  | .vec e => Disciplined s.vec e
  | _ => True

end Measured.Spec
