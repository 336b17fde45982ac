import Verif.Model.Proto

/-!
# `flush` of the writers

`Write` is reduced to `write_all`; here `std::io::Write::flush` is added. A writer may keep what it accepted to itself until it
is flushed, like `std::io::BufWriter`.
-/

namespace Measured

/-- `std::io::Write`: `write_all` and `flush`. -/
class FlushWrite (W : Type) extends Write W where
  flushW : RS W Unit

export FlushWrite (flushW)

/-- `Vec<u8>`, and `BytesWriter`. core/src/text.rs:419-440 -/
instance : FlushWrite Bytes where
  flushW := fun s => (.ok (), s)

/-- A writer with a buffer of its own, as far as can be observed. Of what it accepted, `sent` was passed on and `held` was not
yet. The `i`-th call passes on the first `pass i` bytes of those at hand. `fail i = some k`: it accepts up to `k` bytes and
reports an error. A `flush` without an error passes on all. -/
structure Buffering where
  sent : Bytes
  held : Bytes
  calls : Nat
  fail : Nat → Option Nat
  pass : Nat → Bytes → Nat

/-- The bytes `h` are at hand, of which some are passed on. -/
def Buffering.after (s : Buffering) (h : Bytes) : Buffering :=
  { s with sent := s.sent ++ h.take (s.pass s.calls h), held := h.drop (s.pass s.calls h), calls := s.calls + 1 }

instance : FlushWrite Buffering where
  writeAll b := fun s =>
    match s.fail s.calls with
    | none => (.ok (), s.after (s.held ++ b))
    | some k => (.err, s.after (s.held ++ b.take k))
  flushW := fun s =>
    match s.fail s.calls with
    | none => (.ok (), { s with sent := s.sent ++ s.held, held := [], calls := s.calls + 1 })
    | some _ => (.err, s.after s.held)

variable {W : Type} [FlushWrite W]

/-- `TextEncoder::flush`. core/src/text.rs:86-89 -/
def textFlushAll : RS (TextEnc W) Unit := do
  textFlush
  onWriter flushW

/-- `ProtoEncoder::flush`. prometheus-proto/src/lib.rs:38-41 -/
def Proto.flushAll (m : Mode) : RS (Proto.ProtoEnc W) Unit := do
  Proto.flush m
  Proto.onProtoWriter flushW

end Measured
