import Verif.Model.Atomic

/-!
# A dense vector used by several threads

Model of the dense arms of `core/src/metric.rs`: `VecInner::get_metric` (`OnceLock::get_or_init`) and
`collect_family_into` (`OnceLock::get`). `OnceLock` is modelled by the steps of the standard library: a load of its
state; if that does not show a finished initialisation, a read-modify-write by which one thread becomes the one that
initialises, while the others wait. The load may be stale: a thread may overlook a finished initialisation unless it
knows about it through a happens-before edge. Every initialisation makes a new metric state; `objs` are these states,
as the list of the updates made to them.

Simplified: updates to a state are single read-modify-writes (`C21`, `C22` treat those that are not), so that what a
reader sees of a state is a prefix of its updates, with at least those the reader knows of. `get_metric_mut` and
`init_all_dense` take `&mut self`, so they never run together with anything else; they are in `Model.MetricVec`.
-/

namespace Measured.Conc

/-- `OnceLock<M>`; `o` is the index of the metric state. -/
inductive DCell where
  | empty
  | running (t : Tid)
  | done (o : Nat)
  deriving DecidableEq

/-- Where a thread is in `get_or_init`, or in `collect_family_into`. -/
inductive DPc where
  | idle
  /-- before `self.get()` -/
  | check (i : Nat)
  /-- in `initialize` -/
  | slow (i : Nat)
  /-- running `M::default` -/
  | init (i : Nat)
  /-- initialised, before returning -/
  | got (i o : Nat)
  /-- before cell `i` -/
  | pass (i : Nat)
  | panicked
  deriving DecidableEq

structure DSys (U : Type) where
  cells : Nat → DCell
  objs : Nat → List U
  /-- the number of states made so far -/
  next : Nat
  pc : Tid → DPc
  /-- the `MetricLockGuard`s of a thread: cell and state -/
  refs : Tid → List (Nat × Nat)
  /-- what a thread knows of a cell: nothing, or that it is initialised and how many updates it has -/
  know : Tid → Nat → Option Nat

inductive DEvent (U : Type) where
  | startGet (t : Tid) (i : Nat)
  /-- `M::default()` has been stored -/
  | init (t : Tid) (i o : Nat)
  /-- `get_metric` returns -/
  | acquired (t : Tid) (i o : Nat)
  | update (t : Tid) (i o : Nat) (u : U)
  | sync (t s : Tid)
  | startPass (t : Tid)
  /-- `get()` is `None` -/
  | skip (t : Tid) (i : Nat)
  | emit (t : Tid) (i : Nat) (us : List U)
  | endPass (t : Tid)
  | panic (t : Tid)
  | silent (t : Tid)

variable {U : Type}

def DSys.goto (s : DSys U) (t : Tid) (p : DPc) : DSys U := { s with pc := Function.update s.pc t p }

def DSys.setCell (s : DSys U) (i : Nat) (x : DCell) : DSys U := { s with cells := Function.update s.cells i x }

/-- More knowledge. -/
def joinKnow : Option Nat → Option Nat → Option Nat
  | none, k => k
  | some a, none => some a
  | some a, some b => some (max a b)

/-- Thread `t` learns that cell `i` has at least `k` updates. -/
def DSys.learn (s : DSys U) (t : Tid) (i k : Nat) : DSys U :=
  { s with know := Function.update s.know t (Function.update (s.know t) i (joinKnow (s.know t i) (some k))) }

/-- `get_metric` returns a reference to state `o`. -/
def DSys.hand (s : DSys U) (t : Tid) (i o : Nat) : DSys U :=
  { s with refs := Function.update s.refs t ((i, o) :: s.refs t) }

/-- One step of one thread, on a vector with `n` cells. -/
inductive DStep (n : Nat) : DSys U → DEvent U → DSys U → Prop where
  /-- core/src/metric.rs:246; the index is in range (C13) -/
  | startGet (s : DSys U) (t : Tid) (i : Nat) (h : s.pc t = .idle) (hi : i < n) :
    DStep n s (.startGet t i) (s.goto t (.check i))
  /-- the load shows a finished initialisation -/
  | fast (s : DSys U) (t : Tid) (i o : Nat) (h : s.pc t = .check i) (hc : s.cells i = .done o) :
    DStep n s (.acquired t i o) (((s.goto t .idle).learn t i 0).hand t i o)
  /-- the load does not; it may be stale -/
  | fastMiss (s : DSys U) (t : Tid) (i : Nat) (h : s.pc t = .check i) (hk : s.know t i = none) :
    DStep n s (.silent t) (s.goto t (.slow i))
  | slowRun (s : DSys U) (t : Tid) (i : Nat) (h : s.pc t = .slow i) (hc : s.cells i = .empty) :
    DStep n s (.silent t) ((s.setCell i (.running t)).goto t (.init i))
  | slowDone (s : DSys U) (t : Tid) (i o : Nat) (h : s.pc t = .slow i) (hc : s.cells i = .done o) :
    DStep n s (.acquired t i o) (((s.goto t .idle).learn t i 0).hand t i o)
  | create (s : DSys U) (t : Tid) (i : Nat) (h : s.pc t = .init i) :
    DStep n s (.init t i s.next)
      ((({ s with next := s.next + 1, objs := Function.update s.objs s.next [] }.setCell i (.done s.next)).goto t
        (.got i s.next)).learn t i 0)
  | created (s : DSys U) (t : Tid) (i o : Nat) (h : s.pc t = .got i o) :
    DStep n s (.acquired t i o) ((s.goto t .idle).hand t i o)
  /-- `M::default` panics: the cell is empty again -/
  | initPanic (s : DSys U) (t : Tid) (i : Nat) (h : s.pc t = .init i) :
    DStep n s (.panic t) ((s.setCell i .empty).goto t .panicked)
  /-- An update takes effect, in the order that all threads agree on for this state. The thread has a reference, but may
  be doing something else by then. -/
  | update (s : DSys U) (t : Tid) (i o : Nat) (u : U) (hr : (i, o) ∈ s.refs t) :
    DStep n s (.update t i o u)
      ({ s with objs := Function.update s.objs o (s.objs o ++ [u]) }.learn t i ((s.objs o).length + 1))
  /-- a happens-before edge from `u` to `t` -/
  | sync (s : DSys U) (t u : Tid) :
    DStep n s (.sync t u) { s with know := Function.update s.know t fun i => joinKnow (s.know t i) (s.know u i) }
  /-- core/src/metric.rs:449-460 -/
  | startPass (s : DSys U) (t : Tid) (h : s.pc t = .idle) : DStep n s (.startPass t) (s.goto t (.pass 0))
  /-- the load may be stale -/
  | skip (s : DSys U) (t : Tid) (i : Nat) (h : s.pc t = .pass i) (hi : i < n) (hk : s.know t i = none) :
    DStep n s (.skip t i) (s.goto t (.pass (i + 1)))
  | emit (s : DSys U) (t : Tid) (i o : Nat) (us : List U) (h : s.pc t = .pass i) (hi : i < n)
      (hc : s.cells i = .done o) (hp : us <+: s.objs o) (hk : ∀ k, s.know t i = some k → k ≤ us.length) :
    DStep n s (.emit t i us) ((s.goto t (.pass (i + 1))).learn t i us.length)
  /-- the encoder fails: `?` -/
  | abort (s : DSys U) (t : Tid) (i : Nat) (h : s.pc t = .pass i) : DStep n s (.silent t) (s.goto t .idle)
  | endPass (s : DSys U) (t : Tid) (i : Nat) (h : s.pc t = .pass i) (hi : n ≤ i) :
    DStep n s (.endPass t) (s.goto t .idle)

def DSys.new : DSys U := ⟨fun _ => .empty, fun _ => [], 0, fun _ => .idle, fun _ => [], fun _ _ => none⟩

end Measured.Conc
