import Verif.Props.Series
import Verif.Proof.RyuFormat
import Verif.Props.Proto

/-!
# The tests of the repository, run on the model

These are tests of the model, not proofs: each replays a test or doc test of `/repo` with the result that is expected
there. `dec` is `f64` literals by their bits; `shown` is what `ryu` prints for the numbers that occur.
-/

namespace Measured.Conform
open Measured.Spec

/-- A double by its bits. -/
def dec (n : Nat) : F64 := ⟨n % 18446744073709551616, Nat.mod_lt _ (by decide)⟩

/-- The numbers that are printed here, their texts, digits and exponents. -/
def texts : List (Nat × Bytes × Nat × Int) := [
  (0x3fb999999999999a, b!"0.1", 1, -1),
  (0x3fc999999999999a, b!"0.2", 2, -1),
  (0x3fd999999999999a, b!"0.4", 4, -1),
  (0x3fe999999999999a, b!"0.8", 8, -1),
  (0x3ff999999999999a, b!"1.6", 16, -1),
  (0x400999999999999a, b!"3.2", 32, -1),
  (0x401999999999999a, b!"6.4", 64, -1),
  (0x402999999999999a, b!"12.8", 128, -1),
  (0x3ff0000000000000, b!"1.0", 1, 0),
  (0x4000000000000000, b!"2.0", 2, 0),
  (0x4010000000000000, b!"4.0", 4, 0),
  (0x4020000000000000, b!"8.0", 8, 0),
  (0x4030000000000000, b!"16.0", 16, 0),
  (0x4040000000000000, b!"32.0", 32, 0),
  (0x4050000000000000, b!"64.0", 64, 0),
  (0x4060000000000000, b!"128.0", 128, 0),
  (0x4028cccccccccccd, b!"12.4", 124, -1),
  (0x4061cc28f5c28f5c, b!"142.38", 14238, -2)]

set_option exponentiation.threshold 3000 in
/-- They are what `ryu` prints. -/
example : ∀ p ∈ texts, Ryu.format (dec p.1) = p.2.1 := by
  have h : ∀ p ∈ texts, (0 < (dec p.1).mag ∧ (dec p.1).mag < F64.INF ∧ Ryu.candidate (dec p.1).mag p.2.2.2 = some p.2.2.1 ∧
      Ryu.candidate (dec p.1).mag (p.2.2.2 + 1) = none) ∧
      (if (dec p.1).sign then b!"-" else []) ++ Ryu.layout p.2.2.1 p.2.2.2 = p.2.1 := by decide +kernel
  exact fun p hp => (Ryu.format_eq _ _ (h p hp).1).trans (h p hp).2

/-- `ryu` on these numbers. -/
def shown (x : F64) : Bytes :=
  match texts.find? fun p => p.1 = x.bits with
  | some p => p.2.1
  | none => b!"?"

/-- The variants of `Method` and `StatusCode` with the labels they visit. core/src/text.rs:476-492 -/
def method : FixedSet LVal := staticLabelSet [.str b!"post", .str b!"get"]
def statusCode : FixedSet LVal := staticLabelSet [.int 200, .int 400]

/-- `RequestLabels`. core/src/text.rs:476-481 -/
def requestLabels : GroupDef LVal := ⟨2, fun i => if i = 0 then ⟨b!"method", .fixed method⟩ else ⟨b!"code", .fixed statusCode⟩⟩

def requestSet : GroupSet (Heap (Rodeo LVal)) requestLabels.Group (Nat × List Nat) := derived .debug threadedRodeo requestLabels

def noInterners : Heap (Rodeo LVal) := fun _ => ⟨[], 0⟩

def requestCalls : List (VecCall requestLabels.Group CounterCall) :=
  [.shared ![.str b!"post", .int 200] (.incBy 1027), .shared ![.str b!"get", .int 400] (.incBy 3)]

/-- A vector made by `new`, after calls. -/
def after {S G U C M : Type} [DecidableEq U] (o : MetricOps C M) (t : GroupSet S G U) (s : S) (hasher : U → Nat)
    (cs : List (VecCall G C)) : MetricVec S U M :=
  match MetricVec.new .debug 4 t s with
  | .ok v => (vecCalls o .debug hasher t v cs).2
  | _ => ⟨.dense [], s⟩

def requests : MetricVec (Heap (Rodeo LVal)) (Nat × List Nat) Nat :=
  after (counterOps .debug) requestSet noInterners (fun _ => 0) requestCalls

/-- The text after some calls of the text encoder. -/
def textOf (f : Encoder (TextEnc Bytes) → RS (TextEnc Bytes) Unit) : Out Bytes :=
  match f (textEncoder .debug shown) (TextEnc.new []) with
  | (.ok (), e) => (textFinish e).1
  | _ => .panic

/-! ## core/src/text.rs -/

/-- `write_encoded_str`. core/src/text.rs:459-474 -/
example : (writeLabelStrValue (W := Bytes) b!"Hello \\ \"World\"\nThis is on a new line" []) =
    (.ok (), b!"Hello \\\\ \\\"World\\\"\\nThis is on a new line") := by decide +kernel

/-- `text_encoding`. core/src/text.rs:496-532 -/
example : (textOf fun enc => do
      enc.help (.suffix (.str b!"http_request") .total) b!"The total number of HTTP requests."
      (Fam.vec requestSet (derivedVisit requestLabels) .counter .counter requests).collect enc
        (.suffix (.str b!"http_request") .total)) = .ok
    b!"# HELP http_request_total The total number of HTTP requests.\n# TYPE http_request_total counter\nhttp_request_total{method=\"post\",code=\"200\"} 1027\nhttp_request_total{method=\"get\",code=\"400\"} 3\n" := by
  decide +kernel

/-- A histogram after observations. -/
def histogramOf (le : Out (List F64)) (xs : List F64) : Metric :=
  match le with
  | .ok le => match histObserveAll le (HistInner.default le.length) xs with
    | .ok h => .histogram le h
    | _ => .counter 0
  | _ => .counter 0

set_option exponentiation.threshold 3000 in
/-- `text_histogram`. core/src/text.rs:534-570 -/
example : (textOf fun enc => do
      enc.help (.str b!"http_request_duration_seconds") b!"A histogram of the request duration."
      (Fam.metric (histogramOf (exponentialBuckets 8 (dec 0x3fb999999999999a) (dec 0x4000000000000000)) [dec 0x3fe6666666666666, dec 0x4004000000000000, dec 0x3ff3333333333333, dec 0x4020000000000000])).collect enc
        (.str b!"http_request_duration_seconds")) = .ok
    b!"# HELP http_request_duration_seconds A histogram of the request duration.\n# TYPE http_request_duration_seconds histogram\nhttp_request_duration_seconds_bucket{le=\"0.1\"} 0\nhttp_request_duration_seconds_bucket{le=\"0.2\"} 0\nhttp_request_duration_seconds_bucket{le=\"0.4\"} 0\nhttp_request_duration_seconds_bucket{le=\"0.8\"} 1\nhttp_request_duration_seconds_bucket{le=\"1.6\"} 2\nhttp_request_duration_seconds_bucket{le=\"3.2\"} 3\nhttp_request_duration_seconds_bucket{le=\"6.4\"} 3\nhttp_request_duration_seconds_bucket{le=\"12.8\"} 4\nhttp_request_duration_seconds_bucket{le=\"+Inf\"} 4\nhttp_request_duration_seconds_sum 12.4\nhttp_request_duration_seconds_count 4\n" := by
  decide +kernel

set_option exponentiation.threshold 3000 in
/-- `measured`. core/tests/histograms.rs:4-36, 163-168 -/
example : (textOf fun enc => do
      enc.help (.str b!"http_request_errors") b!"help text"
      (Fam.metric (histogramOf (exponentialBuckets 8 (dec 0x3fb999999999999a) (dec 0x4000000000000000))
        [dec 0x3f947ae147ae147b, dec 0x3fbeb851eb851eb8, dec 0x3fa999999999999a, dec 0x3fd0a3d70a3d70a4, dec 0x3fe6666666666666, dec 0x4014000000000000, dec 0x3fd999999999999a, dec 0x4024000000000000, dec 0x3fe0000000000000, dec 0x401999999999999a, dec 0x4015c28f5c28f5c3, dec 0x4003333333333333, dec 0x3ffab851eb851eb8, dec 0x3ff8cccccccccccd, dec 0x4059000000000000, dec 0x401f147ae147ae14, dec 0x3fb999999999999a])).collect enc
        (.str b!"http_request_errors")) = .ok
    b!"# HELP http_request_errors help text\n# TYPE http_request_errors histogram\nhttp_request_errors_bucket{le=\"0.1\"} 3\nhttp_request_errors_bucket{le=\"0.2\"} 4\nhttp_request_errors_bucket{le=\"0.4\"} 6\nhttp_request_errors_bucket{le=\"0.8\"} 8\nhttp_request_errors_bucket{le=\"1.6\"} 9\nhttp_request_errors_bucket{le=\"3.2\"} 11\nhttp_request_errors_bucket{le=\"6.4\"} 14\nhttp_request_errors_bucket{le=\"12.8\"} 16\nhttp_request_errors_bucket{le=\"+Inf\"} 17\nhttp_request_errors_sum 142.38\nhttp_request_errors_count 17\n" := by
  decide +kernel

/-! ## core/src/metric/group.rs -/

def errorKind : FixedSet LVal := staticLabelSet [.str b!"user", .str b!"internal", .str b!"network"]

def routes : List LVal := [.str b!"/api/v1/users",
  .str b!"/api/v1/users/:id",
  .str b!"/api/v1/products",
  .str b!"/api/v1/products/:id",
  .str b!"/api/v1/products/:id/owner",
  .str b!"/api/v1/products/:id/purchase"]

/-- `Error`. core/src/metric/group.rs:163-168 -/
def errorLabels : GroupDef LVal := ⟨2, fun i => if i = 0 then ⟨b!"kind", .fixed errorKind⟩ else ⟨b!"route", .fixed (rodeoReader routes)⟩⟩

def errorSet : GroupSet (Heap (Rodeo LVal)) errorLabels.Group (Nat × List Nat) := derived .debug threadedRodeo errorLabels

def httpErrors : MetricVec (Heap (Rodeo LVal)) (Nat × List Nat) Nat :=
  after (counterOps .debug) errorSet noInterners (fun _ => 0)
    ([b!"internal", b!"network", b!"user"].flatMap fun k => routes.map fun r => .shared ![.str k, r] (.incBy 0))

/-- `MyMetrics`. core/src/metric/group.rs:178-204 -/
def myMetrics (events : Nat) (cool : Int) (latency : Metric) : Group :=
  .derived (.metric b!"events_total" [" help text".toList] (.metric (.counter events))
    (.metric b!"cool_factor" [" help text".toList] (.metric (.gauge cool))
    (.metric b!"latency" [" help text".toList] (.metric latency)
    (.namespaced b!"http_request" (.derived
      (.metric b!"errors" [" more help wow".toList] (.vec errorSet (derivedVisit errorLabels) .counter .counter httpErrors) .nil)) .nil))))

set_option exponentiation.threshold 3000 in
set_option maxRecDepth 20000 in
/-- `http_errors`. core/src/metric/group.rs:206-281 -/
example : (textOf fun enc => (myMetrics 1 42 (histogramOf (exponentialBuckets 8 F64.one (dec 0x4000000000000000)) [dec 0x4010000000000000])).collect enc) = .ok
   (b!"# HELP events_total help text\n" ++
    b!"# TYPE events_total counter\n" ++
    b!"events_total 1\n" ++
    b!"\n" ++
    b!"# HELP cool_factor help text\n" ++
    b!"# TYPE cool_factor gauge\n" ++
    b!"cool_factor 42\n" ++
    b!"\n" ++
    b!"# HELP latency help text\n" ++
    b!"# TYPE latency histogram\n" ++
    b!"latency_bucket{le=\"1.0\"} 0\n" ++
    b!"latency_bucket{le=\"2.0\"} 0\n" ++
    b!"latency_bucket{le=\"4.0\"} 1\n" ++
    b!"latency_bucket{le=\"8.0\"} 1\n" ++
    b!"latency_bucket{le=\"16.0\"} 1\n" ++
    b!"latency_bucket{le=\"32.0\"} 1\n" ++
    b!"latency_bucket{le=\"64.0\"} 1\n" ++
    b!"latency_bucket{le=\"128.0\"} 1\n" ++
    b!"latency_bucket{le=\"+Inf\"} 1\n" ++
    b!"latency_sum 4.0\n" ++
    b!"latency_count 1\n" ++
    b!"\n" ++
    b!"# HELP http_request_errors more help wow\n" ++
    b!"# TYPE http_request_errors counter\n" ++
    b!"http_request_errors{kind=\"user\",route=\"/api/v1/users\"} 0\n" ++
    b!"http_request_errors{kind=\"user\",route=\"/api/v1/users/:id\"} 0\n" ++
    b!"http_request_errors{kind=\"user\",route=\"/api/v1/products\"} 0\n" ++
    b!"http_request_errors{kind=\"user\",route=\"/api/v1/products/:id\"} 0\n" ++
    b!"http_request_errors{kind=\"user\",route=\"/api/v1/products/:id/owner\"} 0\n" ++
    b!"http_request_errors{kind=\"user\",route=\"/api/v1/products/:id/purchase\"} 0\n" ++
    b!"http_request_errors{kind=\"internal\",route=\"/api/v1/users\"} 0\n" ++
    b!"http_request_errors{kind=\"internal\",route=\"/api/v1/users/:id\"} 0\n" ++
    b!"http_request_errors{kind=\"internal\",route=\"/api/v1/products\"} 0\n" ++
    b!"http_request_errors{kind=\"internal\",route=\"/api/v1/products/:id\"} 0\n" ++
    b!"http_request_errors{kind=\"internal\",route=\"/api/v1/products/:id/owner\"} 0\n" ++
    b!"http_request_errors{kind=\"internal\",route=\"/api/v1/products/:id/purchase\"} 0\n" ++
    b!"http_request_errors{kind=\"network\",route=\"/api/v1/users\"} 0\n" ++
    b!"http_request_errors{kind=\"network\",route=\"/api/v1/users/:id\"} 0\n" ++
    b!"http_request_errors{kind=\"network\",route=\"/api/v1/products\"} 0\n" ++
    b!"http_request_errors{kind=\"network\",route=\"/api/v1/products/:id\"} 0\n" ++
    b!"http_request_errors{kind=\"network\",route=\"/api/v1/products/:id/owner\"} 0\n" ++
    b!"http_request_errors{kind=\"network\",route=\"/api/v1/products/:id/purchase\"} 0\n") := by
  decide +kernel

/-! ## core/src/metric.rs -/

/-- `Error` with one label. core/src/metric.rs:503-509 -/
def kindOnly : GroupDef LVal := ⟨1, fun _ => ⟨b!"kind", .fixed errorKind⟩⟩
def kindSet : GroupSet (Heap (Rodeo LVal)) kindOnly.Group (Nat × List Nat) := derived .debug threadedRodeo kindOnly
def kind (s : Bytes) : kindOnly.Group := ![.str s]

def twoErrors : List (VecCall kindOnly.Group CounterCall) :=
  [.shared (kind b!"internal") .inc, .shared (kind b!"user") .inc]

/-- `dense_cardinality`. core/src/metric.rs:518-530 -/
example : ∃ v : MetricVec (Heap (Rodeo LVal)) (Nat × List Nat) Nat, MetricVec.newDense kindSet noInterners = .ok v ∧
    v.getCardinality kindSet = (0, some 3) ∧
    (vecCalls (counterOps .debug) .debug (fun _ => 0) kindSet v twoErrors).2.getCardinality kindSet = (2, some 3) :=
  ⟨_, rfl, by decide +kernel, by decide +kernel⟩

/-- `sparse_cardinality` and `remove`. core/src/metric.rs:532-566 -/
example : ∃ v : MetricVec (Heap (Rodeo LVal)) (Nat × List Nat) Nat, MetricVec.newSparse .debug 4 noInterners = .ok v ∧
    v.getCardinality kindSet = (0, some 3) ∧
    (let w := (vecCalls (counterOps .debug) .debug (fun u => u.1) kindSet v twoErrors).2
     w.getCardinality kindSet = (2, some 3) ∧
     (let r := vecRun .debug (fun u : Nat × List Nat => u.1) 0 kindSet ⟨w, []⟩ [.lookup (kind b!"user"), .remove 0]
      r.1 = [.found true, .removed (some 1)] ∧ r.2.vec.getCardinality kindSet = (1, some 3))) :=
  ⟨_, rfl, by decide +kernel, by decide +kernel, by decide +kernel, by decide +kernel⟩

/-! ## core/src/label/group.rs -/

/-- `composed_label_set`. core/src/label/group.rs:218-251 -/
def operationSet : GroupSet (Heap (Rodeo LVal)) kindOnly.Group (Nat × List Nat) :=
  derived .debug threadedRodeo ⟨1, fun _ => ⟨b!"kind", .fixed (staticLabelSet [.str b!"get", .str b!"post"])⟩⟩

def both (r : Out (kindOnly.Group × kindOnly.Group)) : Out (LVal × LVal) := r >>= fun g => .ok (g.1 ⟨0, by decide⟩, g.2 ⟨0, by decide⟩)

example :
    let c := composed .debug operationSet kindSet
    c.cardinality = some 6 ∧
    (c.encode (kind b!"get", kind b!"user") noInterners).1 = .ok (some ((0, []), (0, []))) ∧
    c.encodeDense ((0, []), (0, [])) = .ok (some 0) ∧
    both (c.decodeDense noInterners 0) = .ok (.str b!"get", .str b!"user") ∧
    both (c.decode noInterners ((0, []), (0, []))) = .ok (.str b!"get", .str b!"user") ∧
    (c.encode (kind b!"post", kind b!"internal") noInterners).1 = .ok (some ((1, []), (1, []))) ∧
    c.encodeDense ((1, []), (1, [])) = .ok (some 4) ∧
    both (c.decodeDense noInterners 4) = .ok (.str b!"post", .str b!"internal") ∧
    both (c.decode noInterners ((1, []), (1, []))) = .ok (.str b!"post", .str b!"internal") := by
  decide +kernel

/-! ## core/src/label/impls.rs -/

def keywords : List String := ["loop", "continue", "break", "fn", "extern"]

/-- `phf_ordered_set`, `indexset`, `lasso_reader`. core/src/label/impls.rs:150-237 -/
example : ∀ s ∈ [phfOrderedSet keywords, indexSet keywords, rodeoReader keywords],
    s.card = 5 ∧ keywords.map s.encode = [some 0, some 1, some 2, some 3, some 4] ∧
      (List.range 5).map s.decode = keywords.map .ok := by
  decide +kernel

/-- `lasso_dynamic`. core/src/label/impls.rs:239-263 -/
example :
    let r := keywords.foldl (fun (r : List (Option Nat) × Rodeo String) k =>
      let (i, s) := threadedRodeo.encode r.2 k; (r.1 ++ [i], s)) ([], ⟨[], 1000⟩)
    let r' := keywords.foldl (fun (r : List (Option Nat) × Rodeo String) k =>
      let (i, s) := threadedRodeo.encode r.2 k; (r.1 ++ [i], s)) ([], r.2)
    r.1 = [some 0, some 1, some 2, some 3, some 4] ∧ r'.1 = r.1 ∧
      (List.range 5).map (threadedRodeo.decode r'.2) = keywords.map .ok := by
  decide +kernel

/-! ## core/src/lib.rs -/

/-- `Response`. core/src/lib.rs:170-214 -/
def response : GroupDef LVal := ⟨3, fun i =>
  if i = 0 then ⟨b!"kind", .fixed (staticLabelSet [.int 200, .int 400, .int 500])⟩
  else if i = 1 then ⟨b!"route", .fixed (rodeoReader [.str b!"/foo/bar", .str b!"/home"])⟩
  else ⟨b!"user_name", .dynamic 0⟩⟩

def users : Heap (Rodeo LVal) := fun _ => ⟨[], 1000⟩

example :
    let set := derived .debug threadedRodeo response
    let r := set.encode ![.int 500, .str b!"/home", .str b!"conradludgate"] users
    let r' := set.encode ![.int 200, .str b!"/foo/bar", .str b!"conradludgate"] r.2
    r.1 = .ok (some (5, [0])) ∧ r'.1 = .ok (some (0, [0])) ∧ (r'.2 0).items.length = 1 := by
  decide +kernel

/-- `derive(FixedCardinalityLabel)`. core/src/lib.rs:47-105 -/
example : enumCardinality ["Create", "Update", "Delete", "DeleteAll"] = 4 ∧
    ["Create", "Update", "Delete", "DeleteAll"].map (enumEncode ["Create", "Update", "Delete", "DeleteAll"]) =
      [some 0, some 1, some 2, some 3] ∧
    (List.range 4).map (enumDecode ["Create", "Update", "Delete", "DeleteAll"]) =
      [.ok "Create", .ok "Update", .ok "Delete", .ok "DeleteAll"] := by
  decide +kernel

/-! ## prometheus-proto/src/lib.rs -/

/-- The bytes after some calls of the protobuf encoder and `flush`. -/
def protoOf (f : Encoder (Proto.ProtoEnc Bytes) → RS (Proto.ProtoEnc Bytes) Unit) : Out Bytes :=
  match f (Proto.protoEncoder .debug shown) (Proto.ProtoEnc.new []) with
  | (.ok (), e) => match Proto.flush .debug e with
    | (.ok (), e) => .ok e.writer
    | _ => .panic
  | _ => .panic

set_option exponentiation.threshold 3000 in
set_option maxRecDepth 20000 in
/-- `counters`; the bytes are those of `expected.encode_length_delimited`, written out by hand.
prometheus-proto/src/lib.rs:427-511 -/
example : (protoOf fun enc => do
      enc.help (.suffix (.str b!"http_request") .total) b!"The total number of HTTP requests."
      (Fam.vec requestSet (derivedVisit requestLabels) .counter .counter requests).collect enc
        (.suffix (.str b!"http_request") .total)) = .ok
    [141, 1, 10, 18, 104, 116, 116, 112, 95, 114, 101, 113, 117, 101, 115, 116, 95, 116, 111, 116, 97, 108, 18, 34, 84, 104, 101, 32, 116, 111, 116, 97, 108, 32, 110, 117, 109, 98, 101, 114, 32, 111, 102, 32, 72, 84, 84, 80, 32, 114, 101, 113, 117, 101, 115, 116, 115, 46, 24, 0, 34, 40, 10, 14, 10, 6, 109, 101, 116, 104, 111, 100, 18, 4, 112, 111, 115, 116, 10, 11, 10, 4, 99, 111, 100, 101, 18, 3, 50, 48, 48, 26, 9, 9, 0, 0, 0, 0, 0, 12, 144, 64, 34, 39, 10, 13, 10, 6, 109, 101, 116, 104, 111, 100, 18, 3, 103, 101, 116, 10, 11, 10, 4, 99, 111, 100, 101, 18, 3, 52, 48, 48, 26, 9, 9, 0, 0, 0, 0, 0, 0, 8, 64] := by
  decide +kernel

def gaugeRequests : MetricVec (Heap (Rodeo LVal)) (Nat × List Nat) Int :=
  after (gaugeOps .debug) requestSet noInterners (fun _ => 0)
    [.shared ![.str b!"post", .int 200] (.incBy 1027), .shared ![.str b!"get", .int 400] (.incBy 3)]

set_option exponentiation.threshold 3000 in
set_option maxRecDepth 20000 in
/-- `gauge`. prometheus-proto/src/lib.rs:513-591 -/
example : (protoOf fun enc => do
      enc.help (.suffix (.str b!"http_request") .total) b!"The total number of HTTP requests."
      (Fam.vec requestSet (derivedVisit requestLabels) .gauge .gauge gaugeRequests).collect enc
        (.suffix (.str b!"http_request") .total)) = .ok
    [141, 1, 10, 18, 104, 116, 116, 112, 95, 114, 101, 113, 117, 101, 115, 116, 95, 116, 111, 116, 97, 108, 18, 34, 84, 104, 101, 32, 116, 111, 116, 97, 108, 32, 110, 117, 109, 98, 101, 114, 32, 111, 102, 32, 72, 84, 84, 80, 32, 114, 101, 113, 117, 101, 115, 116, 115, 46, 24, 1, 34, 40, 10, 14, 10, 6, 109, 101, 116, 104, 111, 100, 18, 4, 112, 111, 115, 116, 10, 11, 10, 4, 99, 111, 100, 101, 18, 3, 50, 48, 48, 18, 9, 9, 0, 0, 0, 0, 0, 12, 144, 64, 34, 39, 10, 13, 10, 6, 109, 101, 116, 104, 111, 100, 18, 3, 103, 101, 116, 10, 11, 10, 4, 99, 111, 100, 101, 18, 3, 52, 48, 48, 18, 9, 9, 0, 0, 0, 0, 0, 0, 8, 64] := by
  decide +kernel

end Measured.Conform
