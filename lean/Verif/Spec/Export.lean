import Verif.Model.Export
import Verif.Spec.ServerOrder

/-! # Specification: exports of the example server -/

namespace Measured.Spec
open Measured.Server Measured.Conc

/-- The events of the vectors and the middleware. -/
def baseEvents : List EEvent → List Event
  | [] => []
  | .base e :: tr => e :: baseEvents tr
  | _ :: tr => baseEvents tr

/-- The request waits for the server's environment: it has not begun, the service inside has not answered, or it is over
(`dead`: with a panic in `with_labels`). -/
def Rests (s : ESys) (t : Tid) : Prop :=
  s.base.pc t = .new ∨ (∃ r k, s.base.pc t = .inside r k ∧ s.at' t = .out) ∨ (∃ r st, s.base.pc t = .done r st) ∨
    ∃ p, s.base.pc t = .dead p

/-- A step that the environment has no part in: no request begins, the handler of `/metrics` is not called, no other handler
answers, and nobody gives up. -/
def Goes (s : ESys) : EEvent → Prop
  | .base (.begin _ _) | .base (.abandon _) | .call _ => False
  | .base (.answer t _) => s.at' t ≠ .out
  | _ => True

/-- `parking_lot`: a read lock of a shard is not granted while somebody waits for the write lock. -/
def Polite (c : Vec → ShardConf Key) (s : ESys) : EEvent → Prop
  | .base (.on i (.vec f)) => Strict (c i) (s.base.vecs.own i).vec f
  | _ => True

/-- Nobody has anything to do until the environment does something. -/
def AtRest (s : ESys) : Prop := ∀ t, Rests s t

/-- How many steps `R` requests can take by themselves. -/
def goBound (c : Vec → ShardConf Key) (R : Nat) : Nat :=
  R * (31 * (28 + ((c .requests).n + (c .responses).n + (c .duration).n + 3) * (4 * R + 2)))

end Measured.Spec
