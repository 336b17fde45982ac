import Verif.Model.Writer

/-!
# Model of `core/src/metric/name.rs` and `core/src/label/name.rs`
-/

namespace Measured

/-- `b'0'..=b'9'` -/
def isDigit (b : Byte) : Bool := 48 ≤ b.toNat && b.toNat ≤ 57
/-- `b'A'..=b'Z'` -/
def isUpper (b : Byte) : Bool := 65 ≤ b.toNat && b.toNat ≤ 90
/-- `b'a'..=b'z'` -/
def isLower (b : Byte) : Bool := 97 ≤ b.toNat && b.toNat ≤ 122

/-- One iteration of the `while` loop of `const_assert_metric_name`. core/src/metric/name.rs:67-70 -/
def constMetricByte (b : Byte) : Out Unit :=
  if isDigit b || isUpper b || isLower b || b == 0x5f || b == 0x3a then .ok () else .panic

/-- The `while` loop of `const_assert_metric_name`. core/src/metric/name.rs:65-72 -/
def constMetricLoop : Bytes → Out Unit
  | [] => .ok ()
  | b :: bs => do constMetricByte b; constMetricLoop bs

/-- `const_assert_metric_name`. core/src/metric/name.rs:62-78 -/
def constAssertMetricName (name : Bytes) : Out Unit :=
  match name with
  | [] => .panic
  | b :: _ => do
    constMetricLoop name
    if isDigit b then .panic else .ok ()

/-- `InvalidMetricName`. core/src/metric/name.rs:34-41 -/
inductive InvalidMetricName where
  | invalidChars
  | empty
  | startsWithNumber
  deriving DecidableEq, Repr

/-- The `try_fold` of `try_assert_metric_name`. core/src/metric/name.rs:85-88 -/
def tryMetricLoop : Bytes → Except InvalidMetricName Unit
  | [] => .ok ()
  | b :: bs =>
    if isDigit b || isUpper b || isLower b || b == 0x2d || b == 0x5f || b == 0x3a then
      tryMetricLoop bs
    else .error .invalidChars

/-- `try_assert_metric_name`. core/src/metric/name.rs:80-95 -/
def tryAssertMetricName (value : Bytes) : Except InvalidMetricName Unit :=
  match value with
  | [] => .error .empty
  | b :: _ =>
    match tryMetricLoop value with
    | .error e => .error e
    | .ok () => if isDigit b then .error .startsWithNumber else .ok ()

/-- The `while` loop of `assert_label_name`. core/src/label/name.rs:29-36 -/
def labelNameLoop : Bytes → Out Unit
  | [] => .ok ()
  | b :: bs =>
    if isDigit b || isUpper b || isLower b || b == 0x5f then labelNameLoop bs else .panic

/-- `assert_label_name`. core/src/label/name.rs:26-42 -/
def assertLabelName (name : Bytes) : Out Unit :=
  match name with
  | [] => .panic
  | b :: _ => do
    labelNameLoop name
    if isDigit b then .panic else .ok ()

/-- The four suffixes. core/src/metric/name.rs:229-236 -/
inductive Suffix where
  | total
  | count
  | sum
  | bucket
  deriving DecidableEq, Repr

/-- `Suffix::encode_text`. core/src/metric/name.rs:238-272 -/
def Suffix.text : Suffix → Bytes
  | .total => b!"_total"
  | .count => b!"_count"
  | .sum => b!"_sum"
  | .bucket => b!"_bucket"

/-- `Suffix::encode_len`. core/src/metric/name.rs:238-272 -/
def Suffix.len : Suffix → Nat
  | .total => 6
  | .count => 6
  | .sum => 4
  | .bucket => 7

/-- Metric name encoders: `MetricName`, `WithNamespace<_>`, `WithSuffix<_, _>` (references are
transparent). core/src/metric/name.rs:60, 166-179, 214-217 -/
inductive Name where
  | str (s : Bytes)
  | ns (ns : Bytes) (inner : Name)
  | suffix (inner : Name) (s : Suffix)
  deriving DecidableEq, Repr

/-- `MetricNameEncoder::encode_utf8`. core/src/metric/name.rs:142-145, 166-169, 202-207, 219-223 -/
def Name.encodeUtf8 {W : Type} [Write W] : Name → RS W Unit
  | .str s => writeAll s
  | .ns p inner => do
    writeAll p
    writeAll b!"_"
    inner.encodeUtf8
  | .suffix inner s => do
    inner.encodeUtf8
    writeAll s.text

/-- `MetricNameEncoder::encode_len`. core/src/metric/name.rs:146-148, 170-172, 208-210, 224-226 -/
def Name.encodeLen : Name → Nat
  | .str s => s.length
  | .ns p inner => p.length + 1 + inner.encodeLen
  | .suffix inner s => inner.encodeLen + s.len

end Measured
