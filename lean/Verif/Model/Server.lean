import Mathlib.Data.Fin.VecNotation
import Verif.Model.SharedInterners
import Verif.Model.Api
import Verif.Model.Visit
import Verif.Model.Registry
import Verif.Model.Text

/-!
# The example server

examples/axum-server/src/metrics.rs: three vectors that share one interner, a middleware that is run by every request, and
the handler that exports the metrics (itself a request). Every request is a thread of its own here. On a vector it does
what `Model/LabelledVec.lean` allows; the middleware says when.

Simplifications: the transport is not modelled; the routes and the other handlers are in `Model/Routes.lean`. Here a
request starts with its path and method and is answered with any status, at any time or never. The elapsed time of a timer
is any duration (C30 is about timers). The future of a request may be dropped, and the service inside may panic, at the only place where the
middleware waits; `enter` to `answer` is that place. While a request waits there it may collect the vectors, any of them
at any time; in the code only the handler for `/metrics` does so, in the order of the fields. Inside of `encode` and
`get_metric` more runs are allowed than the code has, but nothing is interned except paths of requests.
-/

namespace Measured.Server
open Measured.Conc

/-! ## Labels -/

/-- `Method`. examples/axum-server/src/metrics.rs:124-129 -/
inductive Method where
  | get | post | other
  deriving DecidableEq

/-- `From<&axum::http::Method>`; an HTTP method is its name. examples/axum-server/src/metrics.rs:131-141 -/
def Method.ofHttp (name : Bytes) : Method :=
  if name = b!"GET" then .get else if name = b!"POST" then .post else .other

/-- The label values. -/
inductive Lab where
  | path (s : Bytes)
  | method (m : Method)
  /-- `StatusCode`. examples/axum-server/src/metrics.rs:143-144 -/
  | status (code : Nat)
  deriving DecidableEq

/-- `derive(FixedCardinalityLabel)` of `Method`. examples/axum-server/src/metrics.rs:124-129 -/
def methods : FixedSet Lab := staticLabelSet [.method .get, .method .post, .method .other]

/-- `axum::http::StatusCode::from_u16` (external crate): the codes are those from 100 to 999. -/
def fromU16 (c : Nat) : Option Lab := if 100 ≤ c ∧ c < 1000 then some (.status c) else none

/-- `FixedCardinalityLabel for StatusCode`. In `decode` the addition of 100 overflows for the last hundred `u16`: that
panics with overflow checks, and without them gives a number below 100, for which `unwrap` panics.
examples/axum-server/src/metrics.rs:152-165 -/
def statuses : FixedSet Lab where
  card := 1000 - 100
  encode
    | .status c => if 100 ≤ c ∧ c < 1000 then some (c - 100) else none
    | _ => none
  decode n := if n < 2 ^ 16 then expect (fromU16 ((n + 100) % 2 ^ 16)) else .panic

/-- `LabelValue::visit`: the path itself, the method in snake case, the code as an integer.
derive/src/value/to_tokens.rs:30-47, examples/axum-server/src/metrics.rs:146-150 -/
def Lab.shown : Lab → LVal
  | .path s => .str s
  | .method .get => .str b!"get"
  | .method .post => .str b!"post"
  | .method .other => .str b!"other"
  | .status c => .int c

/-- `HttpRequests`. examples/axum-server/src/metrics.rs:105-111 -/
def requestsDef : GroupDef Lab := ⟨2, ![⟨b!"path", .dynamic 0⟩, ⟨b!"method", .fixed methods⟩]⟩

/-- `HttpResponses`. examples/axum-server/src/metrics.rs:113-120 -/
def responsesDef : GroupDef Lab :=
  ⟨3, ![⟨b!"path", .dynamic 0⟩, ⟨b!"method", .fixed methods⟩, ⟨b!"status", .fixed statuses⟩]⟩

/-! ## Metrics -/

/-- The fields of `AppMetrics`. examples/axum-server/src/metrics.rs:25-43 -/
inductive Vec where
  | requests | responses | duration
  deriving DecidableEq

/-- The calls on the metrics of a vector. examples/axum-server/src/metrics.rs:30, 34, 42 -/
@[reducible] def Vec.Call : Vec → Type
  | .requests => CounterCall
  | .responses => CounterCall
  | .duration => HistCall

/-- The label groups of a vector. examples/axum-server/src/metrics.rs:29-42 -/
@[reducible] def Vec.groups : Vec → GroupDef Lab
  | .requests => requestsDef
  | .responses => responsesDef
  | .duration => requestsDef

/-- `0.0001` -/
def start : F64 := ⟨0x3f1a36e2eb1c432d, by decide⟩
/-- `2.0` -/
def factor : F64 := ⟨0x4000000000000000, by decide⟩

/-- `Thresholds::exponential_buckets(0.0001, 2.0)` with `N = 16`. examples/axum-server/src/metrics.rs:40, 42 -/
def thresholds : Out (List F64) := exponentialBuckets 16 start factor

/-- The names of the fields. examples/axum-server/src/metrics.rs:30, 34, 42 -/
def Vec.name : Vec → Name
  | .requests => .str b!"http_requests"
  | .responses => .str b!"http_responses"
  | .duration => .str b!"http_request_duration"

/-- The documentation of the fields. examples/axum-server/src/metrics.rs:28, 32, 36 -/
def Vec.docs : Vec → List (List Char)
  | .requests => [" total number of HTTP requests by path and method".toList]
  | .responses => [" total number of HTTP responses by path, method, and status".toList]
  | .duration => [" duration of HTTP handlers by path and method".toList]

/-- What the middleware knows of a request. examples/axum-server/src/metrics.rs:66-74 -/
structure Req where
  path : Bytes
  method : Method

/-- `HttpRequests { path, method }`. examples/axum-server/src/metrics.rs:77, 79 -/
def Req.group (r : Req) : requestsDef.Group := ![.path r.path, .method r.method]

/-- `HttpResponses { path, method, status }`. examples/axum-server/src/metrics.rs:87-91 -/
def Req.response (r : Req) (st : Nat) : responsesDef.Group := ![.path r.path, .method r.method, .status st]

/-! ## The middleware -/

/-- A key of a vector. -/
abbrev Key := Nat × List Nat

/-- Where a request is in `middleware`. `st` is the status of the response, if there is one. -/
inductive Pc where
  /-- not yet in the middleware -/
  | new
  /-- in `http_requests.inc`: `with_labels`; `get_metric`; `inc` of the metric; the guard is dropped.
  examples/axum-server/src/metrics.rs:77, core/src/metric/counter.rs:57-59 -/
  | reqLabel (r : Req)
  | reqGet (r : Req) (k : Key)
  | reqInc (r : Req) (k : Key)
  | reqDrop (r : Req) (k : Key)
  /-- in `start_timer`. examples/axum-server/src/metrics.rs:79, core/src/metric/histogram.rs:220-226 -/
  | timerLabel (r : Req)
  /-- the timer runs, before `next.run(request)` -/
  | timed (r : Req) (k : Key)
  /-- in `next.run(request).await`. examples/axum-server/src/metrics.rs:81 -/
  | inside (r : Req) (k : Key)
  /-- in `timer.observe()`, or in its `drop` if there is no response. examples/axum-server/src/metrics.rs:84,
  core/src/metric/histogram.rs:259-271 -/
  | durGet (r : Req) (k : Key) (st : Option Nat)
  | durObserve (r : Req) (k : Key) (st : Option Nat)
  | durDrop (r : Req) (k : Key) (st : Option Nat)
  /-- in `http_responses.inc`. examples/axum-server/src/metrics.rs:87-91 -/
  | resLabel (r : Req) (st : Nat)
  | resGet (r : Req) (st : Nat) (k : Key)
  | resInc (r : Req) (st : Nat) (k : Key)
  | resDrop (r : Req) (st : Nat) (k : Key)
  /-- before the end of the middleware, or of the drop of its future. examples/axum-server/src/metrics.rs:93-94 -/
  | last (r : Req) (st : Option Nat)
  | done (r : Req) (st : Option Nat)
  /-- `with_labels` panicked at `p` -/
  | dead (p : Pc)

/-- The request. -/
def Pc.req : Pc → Option Req
  | .new => none
  | .reqLabel r | .reqGet r _ | .reqInc r _ | .reqDrop r _ | .timerLabel r | .timed r _ | .inside r _ | .durGet r _ _
  | .durObserve r _ _ | .durDrop r _ _ | .resLabel r _ | .resGet r _ _ | .resInc r _ _ | .resDrop r _ _ | .last r _
  | .done r _ => some r
  | .dead p => p.req

/-- What can be seen of a run. -/
inductive Event where
  /-- something on a vector -/
  | on (i : Vec) (e : LVEvent Lab i.Call i.groups.n)
  /-- the middleware is called -/
  | begin (t : Tid) (r : Req)
  /-- the middleware calls the service inside -/
  | enter (t : Tid)
  /-- the service inside answers -/
  | answer (t : Tid) (st : Nat)
  /-- the future is dropped, or the service inside panics -/
  | abandon (t : Tid)
  /-- the middleware is over -/
  | finish (t : Tid)

/-- Whose step it is. -/
def Event.Of (t : Tid) : Event → Prop
  | .on _ (.lab (.tau u)) | .on _ (.lab (.encoded u _ _)) | .on _ (.lab (.decoded u _ _)) | .on _ (.lab (.panic u)) => u = t
  | .on _ (.vec e) => e.tid = t
  | .on _ (.shown u _ _ _) => u = t
  | .begin u _ | .enter u | .answer u _ | .abandon u | .finish u => u = t

/-- Inside of `encode`. -/
inductive InEncode {V U : Type} {n : Nat} (t : Tid) : LVEvent V U n → Prop where
  | tau : InEncode t (.lab (.tau t))
  | panic : InEncode t (.lab (.panic t))

/-- Inside of `get_metric(k)`, before it returns. core/src/metric/sparse.rs:52-81 -/
inductive InGet {V U : Type} {n : Nat} (t : Tid) (k : Key) : LVEvent V U n → Prop where
  | start : InGet t k (.vec (.startGet t k))
  | lockR (i : Nat) : InGet t k (.vec (.lockR t i))
  | lockW (i : Nat) : InGet t k (.vec (.lockW t i))
  | insert : InGet t k (.vec (.insert t k))
  | silent : InGet t k (.vec (.silent t))
  | panic : InGet t k (.vec (.panic t))

/-- Inside of `collect_family_into`. core/src/metric.rs:455-470 -/
inductive InCollect {V U : Type} {n : Nat} (t : Tid) : LVEvent V U n → Prop where
  | start : InCollect t (.vec (.startPass t))
  | lockR (i : Nat) : InCollect t (.vec (.lockR t i))
  | tau : InCollect t (.lab (.tau t))
  | decoded (k : Key) (g : Fin n → V) : InCollect t (.lab (.decoded t k g))
  | shown (k : Key) (g : Fin n → V) (us : List U) : InCollect t (.shown t k g us)
  | silent : InCollect t (.vec (.silent t))
  | finish (acc : List (Key × List U)) : InCollect t (.vec (.endPass t acc))
  | decodePanic : InCollect t (.lab (.panic t))
  | panic : InCollect t (.vec (.panic t))

/-- What a request does next. -/
inductive Moves (t : Tid) : Pc → Event → Pc → Prop where
  /-- examples/axum-server/src/metrics.rs:55-74 -/
  | begin (r : Req) : Moves t .new (.begin t r) (.reqLabel r)
  /-- `http_requests.inc(HttpRequests { path, method })`. examples/axum-server/src/metrics.rs:77 -/
  | reqEncode (r : Req) {e} (h : InEncode t e) : Moves t (.reqLabel r) (.on .requests e) (.reqLabel r)
  | reqLabelled (r : Req) (k : Key) : Moves t (.reqLabel r) (.on .requests (.lab (.encoded t r.group (some k)))) (.reqGet r k)
  | reqRefused (r : Req) : Moves t (.reqLabel r) (.on .requests (.lab (.encoded t r.group none))) (.dead (.reqLabel r))
  | reqGet (r : Req) (k : Key) {e} (h : InGet t k e) : Moves t (.reqGet r k) (.on .requests e) (.reqGet r k)
  | reqGot (r : Req) (k : Key) : Moves t (.reqGet r k) (.on .requests (.vec (.acquired t k))) (.reqInc r k)
  | reqInc (r : Req) (k : Key) : Moves t (.reqInc r k) (.on .requests (.vec (.update t k .inc))) (.reqDrop r k)
  | reqDrop (r : Req) (k : Key) : Moves t (.reqDrop r k) (.on .requests (.vec (.release t k))) (.timerLabel r)
  /-- `http_request_duration.start_timer(HttpRequests { path, method })`. examples/axum-server/src/metrics.rs:79 -/
  | timerEncode (r : Req) {e} (h : InEncode t e) : Moves t (.timerLabel r) (.on .duration e) (.timerLabel r)
  | timerLabelled (r : Req) (k : Key) : Moves t (.timerLabel r) (.on .duration (.lab (.encoded t r.group (some k)))) (.timed r k)
  | timerRefused (r : Req) : Moves t (.timerLabel r) (.on .duration (.lab (.encoded t r.group none))) (.dead (.timerLabel r))
  /-- `next.run(request).await`. examples/axum-server/src/metrics.rs:81 -/
  | enter (r : Req) (k : Key) : Moves t (.timed r k) (.enter t) (.inside r k)
  /-- the handler of `/metrics`. examples/axum-server/src/metrics.rs:97-103 -/
  | collect (r : Req) (k : Key) (i : Vec) {e} (h : InCollect t e) : Moves t (.inside r k) (.on i e) (.inside r k)
  | answer (r : Req) (k : Key) (st : Nat) (h : 100 ≤ st ∧ st < 1000) : Moves t (.inside r k) (.answer t st) (.durGet r k (some st))
  | abandon (r : Req) (k : Key) : Moves t (.inside r k) (.abandon t) (.durGet r k none)
  /-- `timer.observe()` or `drop(timer)`. examples/axum-server/src/metrics.rs:84, core/src/metric/histogram.rs:259-271 -/
  | durGet (r : Req) (k : Key) (st : Option Nat) {e} (h : InGet t k e) : Moves t (.durGet r k st) (.on .duration e) (.durGet r k st)
  | durGot (r : Req) (k : Key) (st : Option Nat) : Moves t (.durGet r k st) (.on .duration (.vec (.acquired t k))) (.durObserve r k st)
  | durObserve (r : Req) (k : Key) (st : Option Nat) (d : Nat) (h : d / 10 ^ 9 < 2 ^ 64) :
    Moves t (.durObserve r k st) (.on .duration (.vec (.update t k (.observeDuration d)))) (.durDrop r k st)
  | durDrop (r : Req) (k : Key) (st : Nat) :
    Moves t (.durDrop r k (some st)) (.on .duration (.vec (.release t k))) (.resLabel r st)
  | durDropped (r : Req) (k : Key) : Moves t (.durDrop r k none) (.on .duration (.vec (.release t k))) (.last r none)
  /-- `http_responses.inc(HttpResponses { path, method, status })`. examples/axum-server/src/metrics.rs:87-91 -/
  | resEncode (r : Req) (st : Nat) {e} (h : InEncode t e) : Moves t (.resLabel r st) (.on .responses e) (.resLabel r st)
  | resLabelled (r : Req) (st : Nat) (k : Key) :
    Moves t (.resLabel r st) (.on .responses (.lab (.encoded t (r.response st) (some k)))) (.resGet r st k)
  | resRefused (r : Req) (st : Nat) :
    Moves t (.resLabel r st) (.on .responses (.lab (.encoded t (r.response st) none))) (.dead (.resLabel r st))
  | resGet (r : Req) (st : Nat) (k : Key) {e} (h : InGet t k e) : Moves t (.resGet r st k) (.on .responses e) (.resGet r st k)
  | resGot (r : Req) (st : Nat) (k : Key) : Moves t (.resGet r st k) (.on .responses (.vec (.acquired t k))) (.resInc r st k)
  | resInc (r : Req) (st : Nat) (k : Key) : Moves t (.resInc r st k) (.on .responses (.vec (.update t k .inc))) (.resDrop r st k)
  | resDrop (r : Req) (st : Nat) (k : Key) :
    Moves t (.resDrop r st k) (.on .responses (.vec (.release t k))) (.last r (some st))
  /-- examples/axum-server/src/metrics.rs:93-94 -/
  | finish (r : Req) (st : Option Nat) : Moves t (.last r st) (.finish t) (.done r st)

/-- The vectors with their interner, and the requests. -/
structure Sys where
  vecs : SharedSys (Rodeo Lab) Lab Vec.Call Vec.groups
  pc : Tid → Pc

/-- A request interns its own path and nothing else: the labels that it encodes are `group` and `response`.
examples/axum-server/src/metrics.rs:77-91, 107-108, 115-116 -/
def InternsOwn (p : Pc) (old new : Rodeo Lab) : Prop :=
  ∀ v ∈ new.items, v ∈ old.items ∨ ∃ r, p.req = some r ∧ v = .path r.path

/-- One step of one request. -/
inductive Step (m : Mode) (c : Vec → ShardConf Key) : Sys → Event → Sys → Prop where
  | on {s t i e x p} : LVStep m threadedRodeo (Vec.groups i) (c i) (s.vecs.at i) e x → Moves t (s.pc t) (.on i e) p →
      InternsOwn (s.pc t) (s.vecs.heap 0) (x.lab.heap 0) → Step m c s (.on i e) ⟨s.vecs.put i x, Function.update s.pc t p⟩
  | own {s t e p} : (∀ i f, e ≠ .on i f) → Moves t (s.pc t) e p → Step m c s e ⟨s.vecs, Function.update s.pc t p⟩

/-- `AppMetrics::new(Arc::new(ThreadedRodeo::new()))`; `cap` is the number of strings that the interner takes.
examples/axum-server/src/main.rs:31-34 -/
def Sys.new (cap : Nat) : Sys := ⟨SharedSys.new fun _ => ⟨[], cap⟩, fun _ => .new⟩

/-! ## The text -/

/-- What a request writes for a vector, if it has read `es` of it; `le` are the thresholds.
examples/axum-server/src/metrics.rs:28-42, 101 -/
def Vec.field (m : Mode) (le : List F64) : (i : Vec) → List (i.groups.Group × List i.Call) → ScrapeField
  | .requests, es => ⟨Vec.requests.name, Vec.requests.docs, fun enc n =>
      passEncode enc n .counter (derivedLabels requestsDef Lab.shown) .counter (counterOps m) es⟩
  | .responses, es => ⟨Vec.responses.name, Vec.responses.docs, fun enc n =>
      passEncode enc n .counter (derivedLabels responsesDef Lab.shown) .counter (counterOps m) es⟩
  | .duration, es => ⟨Vec.duration.name, Vec.duration.docs, fun enc n =>
      passEncode enc n .histogram (derivedLabels requestsDef Lab.shown) (.histogram le) (histOps le) es⟩

/-- `handler`, with the encoder that all requests share and that one request has at a time.
examples/axum-server/src/metrics.rs:97-103 -/
def handler (m : Mode) (ryu : F64 → Bytes) (le : List F64) (es : (i : Vec) → List (i.groups.Group × List i.Call)) :
    RS (TextEnc Bytes) Bytes := do
  regCollect (textEncoder m ryu) [Vec.requests.field m le (es .requests), Vec.responses.field m le (es .responses),
    Vec.duration.field m le (es .duration)]
  textFinish

end Measured.Server
