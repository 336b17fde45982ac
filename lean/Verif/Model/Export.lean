import Verif.Model.Server

/-!
# The example server: the encoder that all exports share

`AppMetricsEncoder` has one encoder for all requests, behind a `tokio::sync::Mutex` (examples/axum-server/src/metrics.rs:17-22,
97-103). Here the handler for `/metrics` runs step by step on the vectors of `Model/Server.lean`: it waits for the mutex, writes
the three families into the encoder while it goes through the shards, takes the text out of the encoder and releases the
mutex. `Model/Server.lean` lets requests do more than the code does; here they do what the code does (`Follows`, `Collects`).

The mutex is granted to any request that waits for it when it is free. (`tokio` grants it in the order of the waiting.) A
future may be dropped only where it waits: at the mutex or in another handler. What a panic in the handler would leave
behind is not modelled; it is proved that there is none.
-/

namespace Measured.Server
open Measured.Conc

/-! ## The text, piece by piece -/

/-- `MetricEncoding` of a vector. examples/axum-server/src/metrics.rs:30, 34, 42 -/
def Vec.kind : Vec → Kind
  | .requests | .responses => .counter
  | .duration => .histogram

/-- The beginning of a family: the documentation and `M::write_type(&name, enc)?`.
derive/src/metric_group/to_tokens.rs:51-95, core/src/metric.rs:446-455 -/
def Vec.head (m : Mode) (ryu : F64 → Bytes) (i : Vec) : RS (TextEnc Bytes) Unit := do
  writeDocHelp (textEncoder m ryu) i.name i.docs
  (textEncoder m ryu).type i.kind i.name

/-- `v.collect_into(&self.metadata, self.label_set.decode(k), &name, enc)?`. core/src/metric.rs:463-464 -/
def Vec.entry (m : Mode) (ryu : F64 → Bytes) (le : List F64) :
    (i : Vec) → i.groups.Group × List i.Call → RS (TextEnc Bytes) Unit
  | .requests, q => do
    let x ← RS.lift (stateAfter (counterOps m) q.2)
    (textEncoder m ryu).sample (.counter x) (derivedLabels requestsDef Lab.shown q.1) Vec.requests.name
  | .responses, q => do
    let x ← RS.lift (stateAfter (counterOps m) q.2)
    (textEncoder m ryu).sample (.counter x) (derivedLabels responsesDef Lab.shown q.1) Vec.responses.name
  | .duration, q => do
    let x ← RS.lift (stateAfter (histOps le) q.2)
    (textEncoder m ryu).sample (.histogram le x) (derivedLabels requestsDef Lab.shown q.1) Vec.duration.name

/-! ## The handler -/

/-- Where a request is in `handler`. examples/axum-server/src/metrics.rs:97-103 -/
inductive Hpc where
  /-- not in the handler -/
  | out
  /-- in `encoder.lock().await` -/
  | wait
  /-- in `collect_group_into`, before the family of the vector -/
  | head (i : Vec)
  /-- in the loop over the entries of the vector -/
  | pass (i : Vec)
  /-- before `encoder.finish()` -/
  | fin
  /-- the response is made, the mutex released -/
  | made (text : Bytes)
  /-- the handler panicked -/
  | crashed

/-- The fields in their order. derive/src/metric_group/to_tokens.rs:51-95 -/
def Vec.next : Vec → Hpc
  | .requests => .head .responses
  | .responses => .head .duration
  | .duration => .fin

/-- `AppMetricsEncoder` and the requests. `lock` is who has the mutex, `enc` what is behind it.
examples/axum-server/src/metrics.rs:17-22 -/
structure ESys where
  base : Sys
  at' : Tid → Hpc
  lock : Option Tid
  enc : TextEnc Bytes

/-- What can be seen of a run. -/
inductive EEvent where
  /-- what can be seen of the vectors and the middleware -/
  | base (e : Event)
  /-- the handler is called -/
  | call (t : Tid)
  /-- the request gets the mutex -/
  | locked (t : Tid)
  /-- the handler returns the text, the mutex is released -/
  | text (t : Tid) (out : Bytes)
  | crash (t : Tid)

/-- The label group that the request is about to turn into an id. examples/axum-server/src/metrics.rs:77-91 -/
def Pc.labels : (i : Vec) → Pc → Option i.groups.Group
  | .requests, .reqLabel r => some r.group
  | .duration, .timerLabel r => some r.group
  | .responses, .resLabel r st => some (r.response st)
  | _, _ => none

/-- Outside of the handler of `/metrics`: a request encodes its own label group, and nobody collects.
examples/axum-server/src/metrics.rs:55-95 -/
def Follows (t : Tid) (s : Sys) (e : Event) (s' : Sys) : Prop :=
  match e with
  | .on i (.lab (.tau _)) => ∃ g index ks rest, (s.pc t).labels i = some g ∧
      (s'.vecs.own i).pc t = .encoding g index ks rest ∧ (s'.vecs.own i).pc t ≠ (s.vecs.own i).pc t
  | .on _ _ => ∀ r k, s.pc t ≠ .inside r k
  | _ => True

/-- In the loop of `collect_family_into`: for each entry in turn the key is decoded, and the loop is left at its end only.
core/src/metric.rs:455-470 -/
def Collects (t : Tid) (i : Vec) (s : Sys) (e : LVEvent Lab i.Call i.groups.n) (s' : Sys) : Prop :=
  match e with
  | .lab (.tau _) => ∃ sh j acc snap k us env rest ks, ((s.vecs.own i).vec.thr t).pc = .scan sh j acc snap ∧
      ((s.vecs.own i).vec.shards sh)[j]? = some (k, us) ∧ (s.vecs.own i).seen t = none ∧
      (s'.vecs.own i).pc t = .decoding k env rest ks ∧ (s'.vecs.own i).pc t ≠ (s.vecs.own i).pc t
  | .lab (.decoded ..) | .lab (.panic _) | .vec (.lockR ..) | .vec (.panic _) => True
  | .vec (.silent _) => ((s'.vecs.own i).vec.thr t).pc ≠ .idle
  | _ => False

/-- One step of one request. -/
inductive EStep (m : Mode) (c : Vec → ShardConf Key) (ryu : F64 → Bytes) (le : List F64) : ESys → EEvent → ESys → Prop where
  /-- in the middleware, or in another handler -/
  | run {s t e x} (h : s.at' t = .out) (hs : Step m c s.base e x) (ht : e.Of t) (he : Follows t s.base e x) :
    EStep m c ryu le s (.base e) { s with base := x }
  /-- examples/axum-server/src/metrics.rs:97-98 -/
  | call {s t r k} (h : s.at' t = .out) (hp : s.base.pc t = .inside r k) :
    EStep m c ryu le s (.call t) { s with at' := Function.update s.at' t .wait }
  /-- `encoder.lock().await`. examples/axum-server/src/metrics.rs:100 -/
  | lock {s t} (h : s.at' t = .wait) (hl : s.lock = none) :
    EStep m c ryu le s (.locked t) { s with at' := Function.update s.at' t (.head .requests), lock := some t }
  /-- the future is dropped while it waits -/
  | giveUp {s t x} (h : s.at' t = .wait) (hs : Step m c s.base (.abandon t) x) :
    EStep m c ryu le s (.base (.abandon t)) { s with base := x, at' := Function.update s.at' t .out }
  /-- the next family begins. core/src/metric.rs:446-460 -/
  | head {s t i x enc} (h : s.at' t = .head i) (hs : Step m c s.base (.on i (.vec (.startPass t))) x)
      (he : i.head m ryu s.enc = (.ok (), enc)) :
    EStep m c ryu le s (.base (.on i (.vec (.startPass t)))) ⟨x, Function.update s.at' t (.pass i), s.lock, enc⟩
  /-- `?` and `unwrap`, or a panic. examples/axum-server/src/metrics.rs:101 -/
  | headCrash {s t i o enc} (h : s.at' t = .head i) (he : i.head m ryu s.enc = (o, enc)) (ho : o ≠ .ok ()) :
    EStep m c ryu le s (.crash t) ⟨s.base, Function.update s.at' t .crashed, s.lock, enc⟩
  /-- core/src/metric.rs:461-463 -/
  | pass {s t i e x} (h : s.at' t = .pass i) (hs : Step m c s.base (.on i e) x) (ht : (Event.on i e).Of t)
      (he : Collects t i s.base e x) : EStep m c ryu le s (.base (.on i e)) { s with base := x }
  /-- the sample of an entry. core/src/metric.rs:463-464 -/
  | entry {s t i k g us x enc} (h : s.at' t = .pass i) (hs : Step m c s.base (.on i (.shown t k g us)) x)
      (he : i.entry m ryu le (g, us) s.enc = (.ok (), enc)) :
    EStep m c ryu le s (.base (.on i (.shown t k g us))) ⟨x, s.at', s.lock, enc⟩
  /-- `?` and `unwrap`, or a panic. examples/axum-server/src/metrics.rs:101 -/
  | entryCrash {s t i k g us x o enc} (h : s.at' t = .pass i) (hs : Step m c s.base (.on i (.shown t k g us)) x)
      (he : i.entry m ryu le (g, us) s.enc = (o, enc)) (ho : o ≠ .ok ()) :
    EStep m c ryu le s (.crash t) ⟨s.base, Function.update s.at' t .crashed, s.lock, enc⟩
  /-- the end of the family. core/src/metric.rs:467-470 -/
  | next {s t i acc x} (h : s.at' t = .pass i) (hs : Step m c s.base (.on i (.vec (.endPass t acc))) x) :
    EStep m c ryu le s (.base (.on i (.vec (.endPass t acc)))) { s with base := x, at' := Function.update s.at' t i.next }
  /-- `Response::new(encoder.finish().into())`, and the guard of the mutex is dropped.
  examples/axum-server/src/metrics.rs:102-103 -/
  | finish {s t out enc} (h : s.at' t = .fin) (he : textFinish s.enc = (.ok out, enc)) :
    EStep m c ryu le s (.text t out) ⟨s.base, Function.update s.at' t (.made out), none, enc⟩
  /-- the status of `Response::new` is 200 -/
  | answer {s t out x} (h : s.at' t = .made out) (hs : Step m c s.base (.answer t 200) x) :
    EStep m c ryu le s (.base (.answer t 200)) { s with base := x, at' := Function.update s.at' t .out }

/-- `AppMetricsEncoder::new(…)`. examples/axum-server/src/metrics.rs:45-52 -/
def ESys.new (cap : Nat) : ESys := ⟨.new cap, fun _ => .out, none, .new []⟩

end Measured.Server
