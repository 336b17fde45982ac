import Verif.Model.Flush

/-!
# `BufferedTextEncoder`

The text encoder over a buffer in memory, whose error type is `Infallible`.
-/

namespace Measured

/-- `Unreachable::unreachable`: an error becomes a panic. core/src/text.rs:344-355 -/
def unreachableErr {σ α : Type} (x : RS σ α) : RS σ α := fun s =>
  match x s with
  | (.ok a, s) => (.ok a, s)
  | (.err, s) => (.panic, s)
  | (.panic, s) => (.panic, s)

/-- `BufferedTextEncoder`. `W` is `BytesWriter` in the code. core/src/text.rs:333-336 -/
structure BufText (W : Type) where
  inner : TextEnc W

/-- A call on the field `inner`. -/
def BufText.on {W α : Type} (x : RS (TextEnc W) α) : RS (BufText W) α := fun b =>
  ((x b.inner).1, ⟨(x b.inner).2⟩)

/-- `BufferedTextEncoder::new`. core/src/text.rs:370-376 -/
def BufText.new : BufText Bytes := ⟨TextEnc.new []⟩

/-- `write_help`, `write_type` and `collect_into` of `BufferedTextEncoder`. core/src/text.rs:357-364, 385-402 -/
def bufferedEncoder {W : Type} [Write W] (m : Mode) (ryu : F64 → Bytes) : Encoder (BufText W) where
  help n t := BufText.on (unreachableErr (textHelp n t))
  type k n := BufText.on (unreachableErr (textType n (textKind k)))
  sample x ls n := BufText.on (unreachableErr (textSample m ryu x ls n))

/-- `BytesMut::split`: takes all bytes and leaves the buffer empty. -/
def splitBuf : RS Bytes Bytes := fun b => (.ok b, [])

/-- `BufferedTextEncoder::finish`. The `unwrap` of a `Result<(), Infallible>` does nothing. core/src/text.rs:379-382 -/
def BufText.finish : RS (BufText Bytes) Bytes := do
  BufText.on (unreachableErr textFlushAll)
  BufText.on (onWriter splitBuf)

end Measured
