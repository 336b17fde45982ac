import Verif.Model.Prim

/-!
# Model of `prometheus-proto/src/encoding.rs`

`u64` values are `Nat` (callers guarantee `< 2^64`), a `BufMut` is the list of bytes appended to it.
-/

namespace Measured.Proto

/-- Body of the loop `for _ in 0..10` of `encode_varint`, `n` = remaining iterations.
prometheus-proto/src/encoding.rs:9-23 -/
def encodeVarintLoop : Nat → Nat → Bytes
  | 0, _ => []
  | n + 1, value =>
    if value < 0x80 then
      [UInt8.ofNat value]
    else
      UInt8.ofNat ((value &&& 0x7F) ||| 0x80) :: encodeVarintLoop n (value >>> 7)

/-- `encode_varint`. prometheus-proto/src/encoding.rs:9-23 -/
def encodeVarint (value : Nat) : Bytes := encodeVarintLoop 10 value

/-- `u64::leading_zeros`. -/
def leadingZeros64 (v : Nat) : Nat := if v = 0 then 64 else 63 - Nat.log2 v

/-- `encoded_len_varint`. prometheus-proto/src/encoding.rs:28-32 -/
def encodedLenVarint (value : Nat) : Nat :=
  (((leadingZeros64 (value ||| 1)) ^^^ 63) * 9 + 73) / 64

/-- `WireType`. prometheus-proto/src/encoding.rs:36-43 -/
inductive WireType where
  | varint
  | sixtyFourBit
  | lengthDelimited
  deriving DecidableEq, Repr

/-- `wire_type as u32`. prometheus-proto/src/encoding.rs:36-43 -/
def WireType.code : WireType → Nat
  | .varint => 0
  | .sixtyFourBit => 1
  | .lengthDelimited => 2

/-- `encode_key` (`tag << 3` on `u32`; the `debug_assert!` on the tag range is a hypothesis of the
theorems, all callers pass the constants 1..4). prometheus-proto/src/encoding.rs:51-58 -/
def encodeKey (tag : Nat) (w : WireType) : Bytes :=
  encodeVarint (((tag <<< 3) % 2 ^ 32) ||| w.code)

/-- `key_len`. prometheus-proto/src/encoding.rs:63-65 -/
def keyLen (tag : Nat) : Nat := encodedLenVarint ((tag <<< 3) % 2 ^ 32)

/-- `int32::encode` (`*value as u64` sign-extends). prometheus-proto/src/encoding.rs:67-76 -/
def encodeInt32 (tag : Nat) (value : Int) : Bytes :=
  encodeKey tag .varint ++ encodeVarint (value % (W64 : Int)).toNat

/-- Little endian bytes of an `n`-byte word. -/
def leBytes : Nat → Nat → Bytes
  | 0, _ => []
  | n + 1, v => UInt8.ofNat (v % 256) :: leBytes n (v / 256)

/-- `double::encode` of the float with the given bit pattern (`put_f64_le`).
prometheus-proto/src/encoding.rs:80-86 -/
def encodeDouble (tag : Nat) (bits : Nat) : Bytes :=
  encodeKey tag .sixtyFourBit ++ leBytes 8 bits

/-- `double::encoded_len`. prometheus-proto/src/encoding.rs:89-91 -/
def doubleLen (tag : Nat) : Nat := keyLen tag + 8

/-- `string::encode`. prometheus-proto/src/encoding.rs:97-104 -/
def encodeString (tag : Nat) (value : Bytes) : Bytes :=
  encodeKey tag .lengthDelimited ++ encodeVarint value.length ++ value

/-- `string::encoded_len`. prometheus-proto/src/encoding.rs:107-109 -/
def stringLen (tag : Nat) (value : Bytes) : Nat :=
  keyLen tag + encodedLenVarint value.length + value.length

end Measured.Proto
