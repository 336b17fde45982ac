import Verif.Model.Atomic

/-!
# Specification: what a run of several threads should amount to

Functions of the list of events of a run only.
-/

namespace Measured.Spec
open Measured.Conc

/-- The updates of a run, in the order they happened. -/
def intUpdates : List IntEvent → List (Tid × IntOp)
  | [] => []
  | .update t op :: tr => (t, op) :: intUpdates tr
  | _ :: tr => intUpdates tr

/-- How much an update adds. -/
def IntOp.delta : IntOp → Int
  | .add x => x
  | .sub x => -x
  | .set _ => 0

/-- All increments minus all decrements. -/
def netChange (us : List (Tid × IntOp)) : Int := (us.map fun u => IntOp.delta u.2).sum

/-- Without `set`. -/
def NoSet (us : List (Tid × IntOp)) : Prop := ∀ u ∈ us, ∀ x, u.2 ≠ .set x

/-- One update on a 64-bit word, as a function on integers. -/
def IntOp.on (v : Int) : IntOp → Int
  | .add x => (v + x) % 2 ^ 64
  | .sub x => (v - x) % 2 ^ 64
  | .set x => (x : Int) % 2 ^ 64

/-- `order` consists of the actions in `acts`, and those of each thread are in the thread's order. -/
structure Linearises {A : Type} (acts order : List (Tid × A)) : Prop where
  perm : order.Perm acts
  threads : ∀ t, order.filter (fun a => a.1 = t) = acts.filter fun a => a.1 = t

/-- The changes to a float gauge in a run. -/
def floatEffects : List FloatEvent → List (Tid × FloatOp)
  | [] => []
  | .effect t op :: tr => (t, op) :: floatEffects tr
  | _ :: tr => floatEffects tr

/-- The calls that have returned. -/
def floatReturns : List FloatEvent → List (Tid × FloatOp)
  | [] => []
  | .ret t op :: tr => (t, op) :: floatReturns tr
  | _ :: tr => floatReturns tr

/-- The effect of a call on a float gauge. -/
def FloatOp.on (v : F64) : FloatOp → F64
  | .incBy x => F64.add v x
  | .set x => x

/-- The starts, effects and returns of thread `t`. -/
def floatThread (t : Tid) : List FloatEvent → List FloatEvent
  | [] => []
  | .start s op :: tr => if s = t then .start s op :: floatThread t tr else floatThread t tr
  | .effect s op :: tr => if s = t then .effect s op :: floatThread t tr else floatThread t tr
  | .ret s op :: tr => if s = t then .ret s op :: floatThread t tr else floatThread t tr
  | _ :: tr => floatThread t tr

/-- A call from start to return, with one effect. -/
def floatCall (t : Tid) (op : FloatOp) : List FloatEvent := [.start t op, .effect t op, .ret t op]

end Measured.Spec
