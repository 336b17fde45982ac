import Verif.Model.Varint
import Verif.Model.Text

/-!
# Model of `prometheus-proto/src/lib.rs`

The writer `W` is arbitrary; `ryu` stands for `ryu::Buffer::format`. Lengths are natural numbers: a `Vec` has
fewer than 2^63 bytes, so that their sums do not overflow `usize`. Functions that append to the buffer give the
appended bytes.
-/

namespace Measured.Proto

/-! ## Label pairs -/

/-- `LenVisitor`. prometheus-proto/src/lib.rs:109-133 -/
def lenVisit (ryu : F64 → Bytes) : LVal → Nat
  | .int x => stringLen 2 (itoa x)
  | .float x =>
    if x.isInf then (if !x.sign then stringLen 2 b!"+Inf" else stringLen 2 b!"-Inf")
    else if x.isNaN then stringLen 2 b!"NaN"
    else stringLen 2 (ryu x)
  | .str s => stringLen 2 s

/-- `Visitor`. prometheus-proto/src/lib.rs:150-177 -/
def visit (ryu : F64 → Bytes) : LVal → Bytes
  | .int x => encodeString 2 (itoa x)
  | .float x =>
    if x.isInf then (if !x.sign then encodeString 2 b!"+Inf" else encodeString 2 b!"-Inf")
    else if x.isNaN then encodeString 2 b!"NaN"
    else encodeString 2 (ryu x)
  | .str s => encodeString 2 s

/-- `message_len`. prometheus-proto/src/lib.rs:195-197 -/
def messageLen (tag len : Nat) : Nat := keyLen tag + encodedLenVarint len + len

/-- `encode_message`; `message` is what the closure appends. prometheus-proto/src/lib.rs:179-193 -/
def encodeMessage (m : Mode) (tag len : Nat) (message : Out Bytes) : Out Bytes := do
  let b ← message
  debugAssert m (b.length = len)
  .ok (encodeKey tag .lengthDelimited ++ encodeVarint len ++ b)

/-- `label_pair_len`. prometheus-proto/src/lib.rs:141-144, 205-207 -/
def labelPairLen (ryu : F64 → Bytes) (name : Bytes) (x : LVal) : Nat := stringLen 1 name + lenVisit ryu x

/-- `labels.visit_values(&mut GroupLenVisitor { len })`. prometheus-proto/src/lib.rs:135-148 -/
def groupLen (ryu : F64 → Bytes) : Nat → Labels → Nat
  | len, [] => len
  | len, (n, x) :: ls => groupLen ryu (len + messageLen 1 (labelPairLen ryu n x)) ls

/-- `GroupVisitor::write_value`. prometheus-proto/src/lib.rs:204-216 -/
def labelPair (m : Mode) (ryu : F64 → Bytes) (name : Bytes) (x : LVal) : Out Bytes :=
  encodeMessage m 1 (labelPairLen ryu name x) (.ok (encodeString 1 name ++ visit ryu x))

/-- `labels.visit_values(&mut GroupVisitor { buf })`. prometheus-proto/src/lib.rs:199-217 -/
def groupBytes (m : Mode) (ryu : F64 → Bytes) : Labels → Out Bytes
  | [] => .ok []
  | (n, x) :: ls => do
    let a ← labelPair m ryu n x
    let b ← groupBytes m ryu ls
    .ok (a ++ b)

/-- `a ++ b` of two results. -/
def appendOut (a b : Out Bytes) : Out Bytes := do
  let a ← a
  let b ← b
  .ok (a ++ b)

/-- The `Metric` message: labels and a nested message in field `tag` with the double `x`; its length is computed
with `message_len(3, …)` for gauges too. prometheus-proto/src/lib.rs:249-268, 304-323, 359-378 -/
def metricBytes (m : Mode) (ryu : F64 → Bytes) (tag : Nat) (x : F64) (ls : Labels) : Out Bytes :=
  let metricLen := groupLen ryu 0 ls + messageLen 3 (doubleLen 1)
  encodeMessage m 4 metricLen
    (appendOut (groupBytes m ryu ls) (encodeMessage m tag (doubleLen 1) (.ok (encodeDouble 1 x.bits))))

/-! ## The encoder -/

/-- `State`. prometheus-proto/src/lib.rs:62-67 -/
inductive PState where
  | init
  | help
  | metrics
  deriving DecidableEq

/-- `ProtoEncoder`. prometheus-proto/src/lib.rs:19-23 -/
structure ProtoEnc (W : Type) where
  state : PState
  writer : W
  buf : Bytes

/-- `ProtoEncoder::new`. prometheus-proto/src/lib.rs:29-35 -/
def ProtoEnc.new {W : Type} (w : W) : ProtoEnc W := ⟨.init, w, []⟩

/-- `a - b` on `usize`. -/
def subU (m : Mode) (a b : Nat) : Out Nat :=
  if b ≤ a then .ok (a - b)
  else match m with
    | .debug => .panic
    | .release => .ok (a + W64 - b)

/-- `buf.resize(n, 0)`. -/
def resize (buf : Bytes) (n : Nat) : Bytes := buf.take n ++ List.replicate (n - buf.length) 0

/-- `put_slice(bytes, &mut &mut buf[offset..])`: panics if the range is out of bounds or too short. -/
def putAt (buf : Bytes) (offset : Nat) (bytes : Bytes) : Out Bytes :=
  if offset + bytes.length ≤ buf.length then
    .ok (buf.take offset ++ bytes ++ buf.drop (offset + bytes.length))
  else .panic

/-- The bytes to be written and the offset. prometheus-proto/src/lib.rs:47-50 -/
def framedBuf (m : Mode) (buf : Bytes) : Out (Bytes × Nat) := do
  let len ← subU m buf.length 10
  let offset ← subU m 10 (encodedLenVarint len)
  let buf ← putAt buf offset (encodeVarint len)
  .ok (buf, offset)

variable {W : Type} [Write W]

def setPState (s : PState) : RS (ProtoEnc W) Unit := fun e => (.ok (), { e with state := s })
def setBuf (b : Bytes) : RS (ProtoEnc W) Unit := fun e => (.ok (), { e with buf := b })
def getBuf : RS (ProtoEnc W) Bytes := fun e => (.ok e.buf, e)
def getPState : RS (ProtoEnc W) PState := fun e => (.ok e.state, e)
def append (b : Bytes) : RS (ProtoEnc W) Unit := fun e => (.ok (), { e with buf := e.buf ++ b })

/-- A call on `self.writer`. -/
def onProtoWriter {α : Type} (x : RS W α) : RS (ProtoEnc W) α := fun e =>
  match x e.writer with
  | (o, w) => (o, { e with writer := w })

/-- The first branch of `flush_buf`. prometheus-proto/src/lib.rs:45-53 -/
def flushMetrics (m : Mode) : RS (ProtoEnc W) Unit := do
  setPState .init
  let b ← getBuf
  let r ← RS.lift (framedBuf m b)
  setBuf r.1
  onProtoWriter (writeAll (r.1.drop r.2))
  setBuf (resize r.1 10)

/-- The second branch. prometheus-proto/src/lib.rs:54-56 -/
def reserve : RS (ProtoEnc W) Unit := do
  let b ← getBuf
  if b.isEmpty then setBuf (resize b 10) else pure ()

def flushBranch (m : Mode) (s : PState) : RS (ProtoEnc W) Unit :=
  if s = .metrics then flushMetrics m else reserve

/-- `flush_buf`. prometheus-proto/src/lib.rs:43-59 -/
def flushBuf (m : Mode) : RS (ProtoEnc W) Unit := do
  let s ← getPState
  flushBranch m s
  let b ← getBuf
  RS.lift (debugAssert m (10 ≤ b.length))

/-- `flush` (`Write::flush` of the writer is not modelled). prometheus-proto/src/lib.rs:38-41 -/
def flush (m : Mode) : RS (ProtoEnc W) Unit := flushBuf m

/-- The name field: key, `encode_len`, `encode_utf8` (into a `Vec`). prometheus-proto/src/lib.rs:96-98, 228-230 -/
def nameField (name : Name) : Out Bytes := do
  let (n, b) := (name.encodeUtf8 : RS Bytes Unit) []
  n
  .ok (encodeKey 1 .lengthDelimited ++ encodeVarint name.encodeLen ++ b)

/-- `write_help`. prometheus-proto/src/lib.rs:88-106 -/
def protoHelp (m : Mode) (name : Name) (help : Bytes) : RS (ProtoEnc W) Unit := do
  flushBuf m
  let n ← RS.lift (nameField name)
  append n
  append (encodeString 2 help)
  setPState .help

/-- The name, unless `write_help` has written it. prometheus-proto/src/lib.rs:226-231, 281-286, 336-341 -/
def nameIfInit (name : Name) (s : PState) : RS (ProtoEnc W) Unit :=
  if s = .init then do
    let n ← RS.lift (nameField name)
    append n
  else pure ()

/-- `write_type` with the number of the type. prometheus-proto/src/lib.rs:220-238, 275-293, 330-348 -/
def protoTypeCode (m : Mode) (code : Int) (name : Name) : RS (ProtoEnc W) Unit := do
  flushBuf m
  let s ← getPState
  nameIfInit name s
  append (encodeInt32 3 code)

/-- `MetricEncoding::write_type`; there is no impl for histograms, the model panics. -/
def protoType (m : Mode) : Kind → Name → RS (ProtoEnc W) Unit
  | .counter, n => protoTypeCode m 0 n
  | .gauge, n => protoTypeCode m 1 n
  | .floatGauge, n => protoTypeCode m 1 n
  | .histogram, _ => RS.panic

/-- The body of `collect_into`. prometheus-proto/src/lib.rs:247-270, 302-325, 357-380 -/
def protoValue (m : Mode) (ryu : F64 → Bytes) (tag : Nat) (x : F64) (ls : Labels) : RS (ProtoEnc W) Unit := do
  setPState .metrics
  let b ← RS.lift (metricBytes m ryu tag x ls)
  append b

/-- `MetricEncoding::collect_into`; no impl for histograms. prometheus-proto/src/lib.rs:240-271, 295-326, 350-381 -/
def protoSample (m : Mode) (ryu : F64 → Bytes) : Metric → Labels → Name → RS (ProtoEnc W) Unit
  | .counter c, ls, _ => protoValue m ryu 3 (F64.ofNat c) ls
  | .gauge c, ls, _ => protoValue m ryu 2 (F64.ofInt c) ls
  | .floatGauge x, ls, _ => protoValue m ryu 2 x ls
  | .histogram _ _, _, _ => RS.panic

/-- `ProtoEncoder<W>` as an encoder. -/
def protoEncoder (m : Mode) (ryu : F64 → Bytes) : Encoder (ProtoEnc W) where
  help := protoHelp m
  type := protoType m
  sample := protoSample m ryu

end Measured.Proto
