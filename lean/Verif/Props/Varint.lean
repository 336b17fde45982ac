import Verif.Proof.Varint

/-! # C42: varint encoding round-trips with the computed length -/

namespace Measured.Proto
open Measured.Spec

/-- C42. A LEB128 reader reads back every 64-bit value and stops exactly at its end. -/
theorem C42_varint_round_trip (v : Nat) (h : v < 2 ^ 64) (rest : Bytes) :
    readVarint (encodeVarint v ++ rest) = some (v, rest) :=
  readVarint_encode v h rest

/-- C42. The precomputed length is the number of bytes written, and it is between 1 and 10. -/
theorem C42_varint_length (v : Nat) (h : v < 2 ^ 64) :
    (encodeVarint v).length = encodedLenVarint v ∧
      1 ≤ encodedLenVarint v ∧ encodedLenVarint v ≤ 10 :=
  ⟨encodeVarint_length v h, encodedLenVarint_bounds v h⟩

/-- C42. No varint is a prefix of another one followed by anything: the code is prefix free and
injective. -/
theorem C42_varint_prefix_free (v w : Nat) (hv : v < 2 ^ 64) (hw : w < 2 ^ 64) (r s : Bytes)
    (h : encodeVarint v ++ r = encodeVarint w ++ s) : v = w ∧ r = s := by
  have h1 := readVarint_encode v hv r
  rw [h, readVarint_encode w hw s] at h1
  simp only [Option.some.injEq, Prod.mk.injEq] at h1
  exact ⟨h1.1.symm, h1.2.symm⟩

/-- C42. Field keys: for every admissible field number the precomputed key width is the number of
bytes written (1 to 5), and the key decodes to field number and wire type. -/
theorem C42_key (tag : Nat) (w : WireType) (h : tag < 2 ^ 29) (rest : Bytes) :
    (encodeKey tag w).length = keyLen tag ∧ 1 ≤ keyLen tag ∧ keyLen tag ≤ 5 ∧
      readVarint (encodeKey tag w ++ rest) = some (8 * tag + w.code, rest) := by
  refine ⟨encodeKey_length tag w h, (keyLen_bounds tag h).1, (keyLen_bounds tag h).2, ?_⟩
  unfold encodeKey
  rw [key_value tag w h]
  exact readVarint_encode _ (by cases w <;> simp [WireType.code] <;> omega) rest

example : encodeVarint 300 = [0xAC, 0x02] ∧ encodedLenVarint 300 = 2 := by decide
example : (encodeVarint (2 ^ 64 - 1)).length = 10 := by decide
example : readVarint (encodeVarint (2 ^ 64 - 1) ++ [7]) = some (2 ^ 64 - 1, [7]) := by decide

end Measured.Proto
