import Verif.Model.Encoder

/-!
# Model of `core/src/text.rs`

The writer `W` is arbitrary. `ryu : F64 → Bytes` stands for `ryu::Buffer::format`, an external crate.
-/

namespace Measured

/-! ## Numbers (`itoa`, `ryu`) -/

/-- `itoa::Buffer::format` of a natural number: decimal digits without leading zeros. -/
def decDigits (n : Nat) : Bytes :=
  if n < 10 then [UInt8.ofNat (48 + n)] else decDigits (n / 10) ++ [UInt8.ofNat (48 + n % 10)]
termination_by n
decreasing_by omega

/-- `itoa::Buffer::format(x)` for an `i64`. -/
def itoa (x : Int) : Bytes := if x < 0 then 0x2d :: decDigits x.natAbs else decDigits x.natAbs

/-- `x as i64` for a `u64`. -/
def asI64 (n : Nat) : Int := if n < 2 ^ 63 then n else (n : Int) - 2 ^ 64

/-! ## Label values -/

/-- Positions found by `memchr3_iter(b'\\', b'"', b'\n', s)`. -/
def specialPositions (s : Bytes) : List Nat :=
  (List.range s.length).filter fun j => s[j]? == some 0x5c || s[j]? == some 0x22 || s[j]? == some 0x0a

/-- The `match` in the loop of `write_label_str_value`. core/src/text.rs:408-413 -/
def writeEscape {W : Type} [Write W] (b : Option Byte) : RS W Unit :=
  if b = some 0x5c then writeAll b!"\\\\"
  else if b = some 0x22 then writeAll b!"\\\""
  else if b = some 0x0a then writeAll b!"\\n"
  else RS.panic

/-- The loop of `write_label_str_value`; `s[i..j]` is `(s.take j).drop i`. core/src/text.rs:406-416 -/
def labelStrLoop {W : Type} [Write W] (s : Bytes) : Nat → List Nat → RS W Unit
  | i, [] => writeAll (s.drop i)
  | i, j :: js => do
    writeAll ((s.take j).drop i)
    writeEscape s[j]?
    labelStrLoop s (j + 1) js

/-- `write_label_str_value`. core/src/text.rs:404-417 -/
def writeLabelStrValue {W : Type} [Write W] (s : Bytes) : RS W Unit := labelStrLoop s 0 (specialPositions s)

/-- `Visitor::write_str`. core/src/text.rs:147-152 -/
def visitorStr {W : Type} [Write W] (s : Bytes) : RS W Unit := do
  writeAll b!"=\""
  writeLabelStrValue s
  writeAll b!"\""

/-- The text `Visitor::write_float` passes on. core/src/text.rs:133-145 -/
def labelFloat (ryu : F64 → Bytes) (x : F64) : Bytes :=
  if x.isInf then (if x.sign then b!"-Inf" else b!"+Inf")
  else if x.isNaN then b!"NaN"
  else ryu x

/-- `LabelValue::visit(Visitor)`. core/src/text.rs:127-152 -/
def visitLabel {W : Type} [Write W] (ryu : F64 → Bytes) : LVal → RS W Unit
  | .int x => visitorStr (itoa x)
  | .float x => visitorStr (labelFloat ryu x)
  | .str s => visitorStr s

/-- `{` before the first label, `,` before the others. core/src/text.rs:166-171 -/
def openOrComma {W : Type} [Write W] (first : Bool) : RS W Unit :=
  if first then writeAll b!"{" else writeAll b!","

/-- `GroupVisitor::write_value`. core/src/text.rs:161-176 -/
def groupValue {W : Type} [Write W] (ryu : F64 → Bytes) (first : Bool) (name : Bytes) (x : LVal) : RS W Unit := do
  openOrComma first
  writeAll name
  visitLabel ryu x

/-- `labels.visit_values(&mut visitor)`: the `Result` of every `write_value` is dropped, a panic is not.
Returns `visitor.first`, which `write_value` clears before it writes. core/src/text.rs:163-165, 186 -/
def visitLabels {W : Type} [Write W] (ryu : F64 → Bytes) : Bool → Labels → RS W Bool
  | first, [] => pure first
  | first, (n, x) :: ls => fun w =>
    match groupValue ryu first n x w with
    | (.panic, w) => (.panic, w)
    | (_, w) => visitLabels ryu false ls w

/-! ## The encoder -/

/-- `State`. core/src/text.rs:31-34 -/
inductive TState where
  | info
  | metrics
  deriving DecidableEq

/-- `TextEncoder`. core/src/text.rs:24-28 -/
structure TextEnc (W : Type) where
  state : TState
  writer : W

/-- `TextEncoder::new`. core/src/text.rs:78-83 -/
def TextEnc.new {W : Type} (w : W) : TextEnc W := ⟨.info, w⟩

/-- A call on `self.writer`. -/
def onWriter {W α : Type} (x : RS W α) : RS (TextEnc W) α := fun e =>
  match x e.writer with
  | (o, w) => (o, { e with writer := w })

def setState {W : Type} (s : TState) : RS (TextEnc W) Unit := fun e => (.ok (), { e with state := s })

variable {W : Type} [Write W]

/-- `write_line`. core/src/text.rs:91-93 -/
def textLine : RS (TextEnc W) Unit := onWriter (writeAll b!"\n")

/-- `if self.state == State::Metrics { self.write_line()?; }`. core/src/text.rs:60-62, 101-103 -/
def textSep : RS (TextEnc W) Unit := fun e =>
  if e.state = .metrics then textLine e else (.ok (), e)

/-- `write_help`. core/src/text.rs:55-71 -/
def textHelp (name : Name) (help : Bytes) : RS (TextEnc W) Unit := do
  textSep
  setState .info
  onWriter (writeAll b!"# HELP ")
  onWriter name.encodeUtf8
  onWriter (writeAll b!" ")
  onWriter (writeAll help)
  onWriter (writeAll b!"\n")

/-- `MetricType` and the words written for it. core/src/text.rs:38-49, 108-114 -/
inductive MetricType where
  | counter
  | histogram
  | gauge
  | summary
  | untyped
  deriving DecidableEq

def MetricType.text : MetricType → Bytes
  | .counter => b!" counter\n"
  | .histogram => b!" histogram\n"
  | .gauge => b!" gauge\n"
  | .summary => b!" summary\n"
  | .untyped => b!" untyped\n"

/-- `TextEncoder::write_type`. core/src/text.rs:96-115 -/
def textType (name : Name) (typ : MetricType) : RS (TextEnc W) Unit := do
  textSep
  setState .info
  onWriter (writeAll b!"# TYPE ")
  onWriter name.encodeUtf8
  onWriter (writeAll typ.text)

/-- `MetricValue`. core/src/metric/group.rs:16-22 -/
inductive MValue where
  | int (x : Int)
  | float (x : F64)
  deriving DecidableEq

/-- `if !visitor.first { … "}" }`. core/src/text.rs:187-189 -/
def textClose (first : Bool) : RS (TextEnc W) Unit :=
  if first then pure () else onWriter (writeAll b!"}")

/-- The number. core/src/text.rs:191-198 -/
def textNumber (ryu : F64 → Bytes) : MValue → RS (TextEnc W) Unit
  | .int x => onWriter (writeAll (itoa x))
  | .float x => onWriter (writeAll (ryu x))

/-- `write_metric_value`. core/src/text.rs:118-201 -/
def textValue (ryu : F64 → Bytes) (name : Name) (labels : Labels) (value : MValue) : RS (TextEnc W) Unit := do
  setState .metrics
  onWriter name.encodeUtf8
  let first ← onWriter (visitLabels ryu true labels)
  textClose first
  onWriter (writeAll b!" ")
  textNumber ryu value
  onWriter (writeAll b!"\n")

/-- `f64::INFINITY` -/
def F64.infinity : F64 := F64.inf false

/-- The bucket loop of the histogram's `collect_into`; returns `val`. `metadata.get()[i]` and `buckets[i]` are
arrays of the same length `N`. core/src/text.rs:236-247 -/
def textBuckets (m : Mode) (ryu : F64 → Bytes) (name : Name) (labels : Labels) :
    List F64 → List Nat → Nat → RS (TextEnc W) Nat
  | le :: les, b :: bs, val => do
    let val ← RS.lift (addU m val b)
    textValue ryu (.suffix name .bucket) (labels ++ [(b!"le", .float le)]) (.int (asI64 val))
    textBuckets m ryu name labels les bs val
  | _, _, val => pure val

/-- `collect_into` of a histogram. core/src/text.rs:211-268 -/
def textHistogram (m : Mode) (ryu : F64 → Bytes) (le : List F64) (h : HistInner) (labels : Labels) (name : Name) :
    RS (TextEnc W) Unit := do
  let (buckets, inf, sum) := h.sample
  let val ← textBuckets m ryu name labels le buckets 0
  let count ← RS.lift (addU m val inf)
  textValue ryu (.suffix name .bucket) (labels ++ [(b!"le", .float F64.infinity)]) (.int (asI64 count))
  textValue ryu (.suffix name .sum) labels (.float sum)
  textValue ryu (.suffix name .count) labels (.int (asI64 count))

/-- `MetricEncoding::collect_into` for all metric types. core/src/text.rs:211-331 -/
def textSample (m : Mode) (ryu : F64 → Bytes) (x : Metric) (labels : Labels) (name : Name) : RS (TextEnc W) Unit :=
  match x with
  | .counter c => textValue ryu name labels (.int (asI64 c))
  | .gauge c => textValue ryu name labels (.int c)
  | .floatGauge c => textValue ryu name labels (.float c)
  | .histogram le h => textHistogram m ryu le h labels name

/-- `MetricEncoding::write_type`. core/src/text.rs:205-210, 272-277, 294-299, 316-321 -/
def textKind : Kind → MetricType
  | .counter => .counter
  | .gauge => .gauge
  | .floatGauge => .gauge
  | .histogram => .histogram

/-- The text encoder over any writer. -/
def textEncoder (m : Mode) (ryu : F64 → Bytes) : Encoder (TextEnc W) where
  help := textHelp
  type k n := textType n (textKind k)
  sample x ls n := textSample m ryu x ls n

/-- `TextEncoder::flush` as far as the encoder is concerned (the writer's own `flush` is not modelled).
core/src/text.rs:86-89 -/
def textFlush : RS (TextEnc W) Unit := setState .info

/-- `BufferedTextEncoder::finish`: `flush`, then `buf.split()`, which takes all bytes and leaves the buffer
empty. core/src/text.rs:379-382 -/
def textFinish : RS (TextEnc Bytes) Bytes := fun e => (.ok e.writer, ⟨.info, []⟩)

end Measured
