import Verif.Spec.ExportHist
import Verif.Spec.Live

/-! # Specification: the example server with its histograms goes on by itself -/

namespace Measured.Spec
open Measured.Server Measured.Conc

/-- A step that the environment has no part in. A request may start to observe its duration or to sample a histogram; the lock
of a histogram refuses readers while a writer waits, loads return the current sum, and compare-exchanges fail only if the sum
has changed. -/
def DGoes (s : DSys) (e : DEvent) (s' : DSys) : Prop :=
  match e with
  | .top e => Goes s.top e
  | .hist t k _ => (s.hist k).pc t = .idle ∨ HistGoes (s.hist k) (s'.hist k)

/-- `parking_lot`: a read lock of a shard is not granted while somebody waits for the write lock. -/
def DPolite (c : Vec → ShardConf Key) (s : DSys) : DEvent → Prop
  | .top e => Polite c s.top e
  | .hist .. => True

/-- The request waits for the server's environment. -/
def DRests (s : DSys) (t : Tid) : Prop := Rests s.top t ∧ ∀ k, (s.hist k).pc t = .idle

/-- Nobody has anything to do until the environment does something. -/
def DAtRest (s : DSys) : Prop := ∀ t, DRests s t

/-- How many steps `R` requests can take by themselves, if the histograms have `n` thresholds. -/
def stepBound (c : Vec → ShardConf Key) (n R : Nat) : Nat := (n + 7 + 2 * R) * goBound c R + 2 * ((n + 6 + 2 * R) * R)

end Measured.Spec
