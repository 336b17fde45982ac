import Verif.Model.Prim

/-!
# Writers

`RS σ α` is a Rust method with `&mut σ` receiver: it returns a result and leaves a new state, also when
it fails. `Write` models `std::io::Write::write_all`.
-/

namespace Measured

/-- A stateful Rust computation (`&mut self` method). -/
def RS (σ α : Type) : Type := σ → Out α × σ

namespace RS
variable {σ α β : Type}

/-- `?`-sequencing of `&mut self` calls. -/
def bind (x : RS σ α) (f : α → RS σ β) : RS σ β := fun s =>
  match x s with
  | (.ok a, s') => f a s'
  | (.err, s') => (.err, s')
  | (.panic, s') => (.panic, s')

/-- A computation without access to the state. -/
def lift (x : Out α) : RS σ α := fun s => (x, s)

@[simp] theorem lift_run (x : Out α) (s : σ) : (lift x : RS σ α) s = (x, s) := rfl

/-- `panic!()`; the state stays as it is. -/
def panic : RS σ α := fun s => (.panic, s)

instance : Monad (RS σ) where
  pure a := fun s => (.ok a, s)
  bind := bind

@[simp] theorem pure_run (a : α) (s : σ) : (pure a : RS σ α) s = (.ok a, s) := rfl

theorem bind_run (x : RS σ α) (f : α → RS σ β) (s : σ) :
    (x >>= f) s = match x s with
      | (.ok a, s') => f a s'
      | (.err, s') => (.err, s')
      | (.panic, s') => (.panic, s') := rfl

theorem bind_ok {x : RS σ α} {f : α → RS σ β} {s s' : σ} {a : α} (h : x s = (.ok a, s')) :
    (x >>= f) s = f a s' := by
  rw [bind_run, h]

end RS

/-- `std::io::Write`, reduced to `write_all`. -/
class Write (W : Type) where
  writeAll : Bytes → RS W Unit

export Write (writeAll)

/-- Infallible in-memory buffers: `Vec<u8>`, `BytesMut` (via `BytesWriter`, core/src/text.rs:419-440). -/
instance : Write Bytes where
  writeAll b := fun s => (.ok (), s ++ b)

/-- An arbitrary (possibly failing) writer as far as its user can observe it: `fail i = some k` means that
the `i`-th call of `write_all` accepts only (up to) `k` bytes and then reports an error. -/
structure Sink where
  out : Bytes
  calls : Nat
  fail : Nat → Option Nat

instance : Write Sink where
  writeAll b := fun s =>
    match s.fail s.calls with
    | none => (.ok (), { s with out := s.out ++ b, calls := s.calls + 1 })
    | some k => (.err, { s with out := s.out ++ b.take k, calls := s.calls + 1 })

@[simp] theorem writeAll_bytes (b s : Bytes) : (writeAll b : RS Bytes Unit) s = (.ok (), s ++ b) := rfl

end Measured
