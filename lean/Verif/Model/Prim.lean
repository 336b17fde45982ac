import Lean.Elab.Command

/-!
# Primitive notions shared by all model files

Rust values that matter here: byte strings, results, panics, build modes, machine words and writers.
-/
namespace Measured

/-- A Rust byte. -/
abbrev Byte := UInt8

/-- A Rust `&[u8]` / `&str` / `String` seen as its bytes. -/
abbrev Bytes := List UInt8

/-- `b!"text"` is the list of UTF-8 bytes of a literal, written out at elaboration time. -/
syntax:max "b!" str : term

open Lean in
macro_rules
  | `(b! $s:str) => do
    let bs := s.getString.toUTF8.toList
    let elems ← bs.mapM fun b => `(($(quote b.toNat) : UInt8))
    let arr := elems.toArray
    `(([$arr,*] : List UInt8))

/-- Result of running Rust code: normal value, `Err(_)` (an I/O error) or a panic. -/
inductive Out (α : Type) where
  | ok (a : α)
  | err
  | panic
  deriving DecidableEq, Repr

namespace Out

/-- Sequencing with `?` (and panic propagation). -/
@[inline] def bind {α β : Type} : Out α → (α → Out β) → Out β
  | ok a, f => f a
  | err, _ => err
  | panic, _ => panic

@[inline] def map {α β : Type} (f : α → β) : Out α → Out β
  | ok a => ok (f a)
  | err => err
  | panic => panic

instance : Monad Out where
  pure := ok
  bind := bind

@[simp] theorem pure_eq {α : Type} (a : α) : (pure a : Out α) = ok a := rfl
@[simp] theorem ok_bind {α β : Type} (a : α) (f : α → Out β) : (ok a >>= f) = f a := rfl
@[simp] theorem err_bind {α β : Type} (f : α → Out β) : (err >>= f) = err := rfl
@[simp] theorem panic_bind {α β : Type} (f : α → Out β) : (panic >>= f) = panic := rfl

theorem bind_eq_ok {α β : Type} {x : Out α} {f : α → Out β} {b : β} :
    (x >>= f) = ok b ↔ ∃ a, x = ok a ∧ f a = ok b := by
  cases x <;> simp

end Out

/-- Build mode: `debug` has overflow checks and `debug_assert!`, `release` wraps silently. -/
inductive Mode where
  | debug
  | release
  deriving DecidableEq, Repr

/-- `2^64`: number of values of `usize`/`u64`. -/
def W64 : Nat := 18446744073709551616

theorem W64_eq : W64 = 2 ^ 64 := by decide

/-- `a + b` on `usize` with the overflow behaviour of the build mode. -/
def addU (m : Mode) (a b : Nat) : Out Nat :=
  if a + b < W64 then .ok (a + b)
  else match m with
    | .debug => .panic
    | .release => .ok ((a + b) % W64)

/-- `a * b` on `usize` with the overflow behaviour of the build mode. -/
def mulU (m : Mode) (a b : Nat) : Out Nat :=
  if a * b < W64 then .ok (a * b)
  else match m with
    | .debug => .panic
    | .release => .ok ((a * b) % W64)

/-- `usize::checked_mul`. -/
def checkedMul (a b : Nat) : Option Nat := if a * b < W64 then some (a * b) else none

/-- `a / b` on `usize`: division by zero panics in every mode. -/
def divU (a b : Nat) : Out Nat := if b = 0 then .panic else .ok (a / b)

/-- `a % b` on `usize`: division by zero panics in every mode. -/
def modU (a b : Nat) : Out Nat := if b = 0 then .panic else .ok (a % b)

/-- `debug_assert!(c)`. -/
def debugAssert (m : Mode) (c : Bool) : Out Unit :=
  match m with
  | .debug => if c then .ok () else .panic
  | .release => .ok ()

/-- `Option::expect` / `unwrap`. -/
def expect {α : Type} : Option α → Out α
  | some a => .ok a
  | none => .panic

end Measured
