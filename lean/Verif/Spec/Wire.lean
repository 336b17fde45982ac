import Verif.Model.Prim

/-!
# Specification: the protobuf wire format, from the protobuf documentation

A LEB128 reader and a reader of the field list of a message. Written without reference to the encoder.
-/

namespace Measured.Spec

/-- Read a base-128 varint of at most `n` bytes: low 7 bits of each byte, least significant group
first, high bit means "more bytes follow". Returns the number and the unread input. -/
def readVarintN : Nat → Bytes → Option (Nat × Bytes)
  | 0, _ => none
  | _ + 1, [] => none
  | n + 1, b :: rest =>
    if b.toNat < 128 then some (b.toNat, rest)
    else match readVarintN n rest with
      | none => none
      | some (v, rest') => some ((b.toNat - 128) + 128 * v, rest')

/-- Read a varint: at most ten bytes, must fit 64 bits. -/
def readVarint (bs : Bytes) : Option (Nat × Bytes) :=
  match readVarintN 10 bs with
  | none => none
  | some (v, rest) => if v < 2 ^ 64 then some (v, rest) else none

/-- Split off `n` bytes, failing when the input is too short. -/
def takeExact (n : Nat) (bs : Bytes) : Option (Bytes × Bytes) :=
  if n ≤ bs.length then some (bs.take n, bs.drop n) else none

/-- A field value on the wire. -/
inductive WireVal where
  | varint (v : Nat)
  | fixed64 (b : Bytes)
  | bytes (b : Bytes)
  deriving DecidableEq, Repr

/-- Read one field: key = (field number, wire type), then the payload. Field number 0 is illegal. -/
def readField (bs : Bytes) : Option ((Nat × WireVal) × Bytes) :=
  match readVarint bs with
  | none => none
  | some (key, rest) =>
    if key / 8 = 0 then none
    else match key % 8 with
    | 0 => match readVarint rest with
      | none => none
      | some (v, rest') => some ((key / 8, .varint v), rest')
    | 1 => match takeExact 8 rest with
      | none => none
      | some (b, rest') => some ((key / 8, .fixed64 b), rest')
    | 2 => match readVarint rest with
      | none => none
      | some (n, rest') => match takeExact n rest' with
        | none => none
        | some (b, rest'') => some ((key / 8, .bytes b), rest'')
    | _ => none

/-- Read all fields of a message body (`n` bounds the number of fields). -/
def readFieldsN : Nat → Bytes → Option (List (Nat × WireVal))
  | _, [] => some []
  | 0, _ :: _ => none
  | n + 1, bs => match readField bs with
    | none => none
    | some (f, rest) => match readFieldsN n rest with
      | none => none
      | some fs => some (f :: fs)

/-- Read all fields of a message body; every field takes at least one byte. -/
def readFields (bs : Bytes) : Option (List (Nat × WireVal)) := readFieldsN bs.length bs

/-- Read a stream of length-delimited messages (`n` bounds the number of messages). -/
def readDelimitedN : Nat → Bytes → Option (List Bytes)
  | _, [] => some []
  | 0, _ :: _ => none
  | n + 1, bs => match readVarint bs with
    | none => none
    | some (len, rest) => match takeExact len rest with
      | none => none
      | some (msg, rest') => match readDelimitedN n rest' with
        | none => none
        | some ms => some (msg :: ms)

/-- Read a stream of length-delimited messages. -/
def readDelimited (bs : Bytes) : Option (List Bytes) := readDelimitedN bs.length bs

end Measured.Spec
