import Verif.Model.F64
import Verif.Model.Prim
import Mathlib.Logic.Function.Basic

/-!
# Atomics, and the threads that use them

`AtomicU64`, `AtomicI64` and `AtomicF64` with `Relaxed` (and weaker than `SeqCst`) orderings, one location at a time.
The memory is not assumed to be sequentially consistent: the location is its modification order; every thread has
a view, the number of modifications it is aware of; a load may return any value not older than the view; a
modification takes its place after the view, directly before a plain store or at the end (a read-modify-write is never
separated from the write it reads). `sync t s` is any happens-before edge from thread `s` to `t` (join, mutex, channel).
-/

namespace Measured.Conc

abbrev Tid := Nat

/-- Runs of a transition system with the list of their events. -/
inductive Exec {S E : Type} (step : S → E → S → Prop) (s0 : S) : List E → S → Prop where
  | nil : Exec step s0 [] s0
  | snoc {tr : List E} {s : S} {e : E} {s' : S} : Exec step s0 tr s → step s e s' → Exec step s0 (tr ++ [e]) s'

/-! ## A location -/

/-- A modification: atomic read-modify-write, or plain store. -/
inductive Eff (V : Type) where
  | rmw (f : V → V)
  | store (v : V)

def Eff.apply {V : Type} : Eff V → V → V
  | .rmw f, v => f v
  | .store v, _ => v

def Eff.isStore {V : Type} : Eff V → Bool
  | .rmw _ => false
  | .store _ => true

/-- A modification that has taken place: by whom, which operation, and the value written. -/
structure Mod (Op V : Type) where
  tid : Tid
  op : Op
  val : V

/-- The value after the modifications `ms`. -/
def lastVal {Op V : Type} (v0 : V) : List (Mod Op V) → V
  | [] => v0
  | m :: ms => lastVal m.val ms

/-- The location and the threads' views. -/
structure Mem (Op V : Type) where
  init : V
  mods : List (Mod Op V)
  view : Tid → Nat

variable {Op V : Type}

/-- The value after the first `i` modifications. -/
def Mem.valAt (m : Mem Op V) (i : Nat) : V := lastVal m.init (m.mods.take i)

/-- Load: thread `t` reads the value after `i` modifications. -/
def Mem.load (m : Mem Op V) (t : Tid) (i : Nat) : Mem Op V := { m with view := Function.update m.view t i }

def Mem.CanLoad (m : Mem Op V) (t : Tid) (i : Nat) : Prop := m.view t ≤ i ∧ i ≤ m.mods.length

/-- A modification by `t` may become the `i`-th. -/
def Mem.CanModify (eff : Op → Eff V) (m : Mem Op V) (t : Tid) (i : Nat) : Prop :=
  m.view t ≤ i ∧ i ≤ m.mods.length ∧ ∀ x, m.mods[i]? = some x → (eff x.op).isStore = true

/-- The modification, with the value it writes; the views of threads that know later ones move on. -/
def Mem.modify (m : Mem Op V) (t : Tid) (op : Op) (i : Nat) (val : V) : Mem Op V where
  init := m.init
  mods := m.mods.take i ++ ⟨t, op, val⟩ :: m.mods.drop i
  view := Function.update (fun s => if i < m.view s then m.view s + 1 else m.view s) t (i + 1)

def Mem.sync (m : Mem Op V) (t s : Tid) : Mem Op V :=
  { m with view := Function.update m.view t (max (m.view t) (m.view s)) }

def Mem.new (v : V) : Mem Op V := ⟨v, [], fun _ => 0⟩

/-! ## Counters and gauges -/

/-- `fetch_add`, `fetch_sub`, `store` on a 64-bit word (`i64` in two's complement).
core/src/metric/counter.rs:31-40, core/src/metric/gauge.rs:59-88 -/
inductive IntOp where
  | add (x : Nat)
  | sub (x : Nat)
  | set (x : Nat)
  deriving DecidableEq

/-- `fetch_add` and `fetch_sub` wrap around. -/
def IntOp.eff : IntOp → Eff Nat
  | .add x => .rmw fun v => (v + x) % W64
  | .sub x => .rmw fun v => (v + (W64 - x % W64)) % W64
  | .set x => .store (x % W64)

/-- What happens in a run. -/
inductive IntEvent where
  /-- `inc`, `inc_by`, `dec`, `dec_by`, `set` -/
  | update (t : Tid) (op : IntOp)
  /-- `load` when the metric is sampled (core/src/text.rs:288, 310; prometheus-proto/src/lib.rs:255, 310) -/
  | read (t : Tid) (v : Nat)
  | sync (t s : Tid)
  deriving DecidableEq

/-- Every call is a single atomic instruction; any thread may do any call at any time. -/
inductive IntStep : Mem IntOp Nat → IntEvent → Mem IntOp Nat → Prop where
  | update (m : Mem IntOp Nat) (t : Tid) (op : IntOp) (i : Nat) (h : m.CanModify IntOp.eff t i) :
    IntStep m (.update t op) (m.modify t op i ((op.eff).apply (m.valAt i)))
  | read (m : Mem IntOp Nat) (t : Tid) (i : Nat) (h : m.CanLoad t i) :
    IntStep m (.read t (m.valAt i)) (m.load t i)
  | sync (m : Mem IntOp Nat) (t s : Tid) : IntStep m (.sync t s) (m.sync t s)

/-! ## Float gauges -/

/-- `AtomicF64` calls that modify. `dec_by(x)` is `inc_by(-x)`, `inc` is `inc_by(1.0)`.
core/src/metric/gauge.rs:211-236, 319-359 -/
inductive FloatOp where
  | incBy (x : F64)
  | set (x : F64)
  deriving DecidableEq

/-- The bits of `f64::from_bits(v) + delta`. -/
def FloatOp.eff : FloatOp → Eff F64
  | .incBy x => .rmw fun v => F64.add v x
  | .set x => .store x

/-- Where a thread is in `inc_by` or `set`. core/src/metric/gauge.rs:319-354 -/
inductive FloatPc where
  | idle
  /-- before the load -/
  | loop (delta : F64)
  /-- `current` has been loaded -/
  | loaded (delta current : F64)
  /-- `set`, before the store -/
  | storing (x : F64)
  /-- before returning -/
  | ret (op : FloatOp)
  deriving DecidableEq

structure FloatSys where
  mem : Mem FloatOp F64
  pc : Tid → FloatPc

inductive FloatEvent where
  | start (t : Tid) (op : FloatOp)
  /-- The instruction that makes the change. -/
  | effect (t : Tid) (op : FloatOp)
  | ret (t : Tid) (op : FloatOp)
  /-- `AtomicF64::get` -/
  | read (t : Tid) (v : F64)
  /-- Load, or unsuccessful compare-exchange. -/
  | silent (t : Tid)
  | sync (t s : Tid)
  deriving DecidableEq

def FloatSys.goto (s : FloatSys) (t : Tid) (p : FloatPc) (m : Mem FloatOp F64) : FloatSys :=
  ⟨m, Function.update s.pc t p⟩

/-- core/src/metric/gauge.rs:319-354. `compare_exchange_weak` may fail without reason. -/
inductive FloatStep : FloatSys → FloatEvent → FloatSys → Prop where
  | startInc (s : FloatSys) (t : Tid) (x : F64) (h : s.pc t = .idle) :
    FloatStep s (.start t (.incBy x)) (s.goto t (.loop x) s.mem)
  | load (s : FloatSys) (t : Tid) (x : F64) (i : Nat) (h : s.pc t = .loop x) (hl : s.mem.CanLoad t i) :
    FloatStep s (.silent t) (s.goto t (.loaded x (s.mem.valAt i)) (s.mem.load t i))
  | casOk (s : FloatSys) (t : Tid) (x cur : F64) (i : Nat) (h : s.pc t = .loaded x cur)
      (hm : s.mem.CanModify FloatOp.eff t i) (hc : s.mem.valAt i = cur) :
    FloatStep s (.effect t (.incBy x)) (s.goto t (.ret (.incBy x)) (s.mem.modify t (.incBy x) i (F64.add cur x)))
  | casFail (s : FloatSys) (t : Tid) (x cur : F64) (i : Nat) (h : s.pc t = .loaded x cur) (hl : s.mem.CanLoad t i) :
    FloatStep s (.silent t) (s.goto t (.loop x) (s.mem.load t i))
  | startSet (s : FloatSys) (t : Tid) (x : F64) (h : s.pc t = .idle) :
    FloatStep s (.start t (.set x)) (s.goto t (.storing x) s.mem)
  | store (s : FloatSys) (t : Tid) (x : F64) (i : Nat) (h : s.pc t = .storing x)
      (hm : s.mem.CanModify FloatOp.eff t i) :
    FloatStep s (.effect t (.set x)) (s.goto t (.ret (.set x)) (s.mem.modify t (.set x) i x))
  | ret (s : FloatSys) (t : Tid) (op : FloatOp) (h : s.pc t = .ret op) :
    FloatStep s (.ret t op) (s.goto t .idle s.mem)
  | read (s : FloatSys) (t : Tid) (i : Nat) (h : s.pc t = .idle) (hl : s.mem.CanLoad t i) :
    FloatStep s (.read t (s.mem.valAt i)) ⟨s.mem.load t i, s.pc⟩
  | sync (s : FloatSys) (t u : Tid) : FloatStep s (.sync t u) ⟨s.mem.sync t u, s.pc⟩

def FloatSys.new (v : F64) : FloatSys := ⟨Mem.new v, fun _ => .idle⟩

end Measured.Conc
