import Verif.Model.Export
import Verif.Model.HistVec

/-!
# The example server, with its duration histograms step by step

In `Model/Export.lean` an observation of a duration is one step, and so is the sample of a histogram. Here they are not:
`timer.observe()` waits for the lock of the histogram, adds to a bucket and then to the sum, while the guard keeps the shard
locked (core/src/metric/histogram.rs:29-37, 155-160, 259-271), and the handler of `/metrics` waits for the same lock and reads
the histogram piece by piece (core/src/metric.rs:461-464, core/src/text.rs:236). The entries of the duration vector record
nothing here; each key has a histogram whose steps are those of `Model/HistConc.lean`. The other two vectors hold counters,
for which a call is one atomic instruction (core/src/metric/counter.rs:78-98).
-/

namespace Measured.Server
open Measured.Conc

/-- The server, and the histogram of each key of `http_request_duration`. The histogram of a key that is not in the map is
whatever its memory was left with. -/
structure DSys where
  top : ESys
  hist : Key → HistSys

/-- What can be seen of a run. -/
inductive DEvent where
  /-- something outside of the histograms -/
  | top (e : EEvent)
  /-- a step of `observe` or `sample` on the histogram of a key -/
  | hist (t : Tid) (k : Key) (e : HistEvent)

/-- Whose step it is. -/
def EEvent.Of (t : Tid) : EEvent → Prop
  | .base e => e.Of t
  | .call u | .locked u | .text u _ | .crash u => u = t

/-- The steps that leave the histograms alone. -/
def Coarse (s : ESys) : EEvent → Prop
  | .base (.on .duration (.vec (.insert ..))) | .base (.on .duration (.vec (.update ..))) | .base (.on .duration (.shown ..)) => False
  | .crash t => s.at' t ≠ .pass .duration
  | _ => True

/-- One step of one request. A request does one thing at a time. -/
inductive DStep (m : Mode) (c : Vec → ShardConf Key) (ryu : F64 → Bytes) (le : List F64) : DSys → DEvent → DSys → Prop where
  /-- outside of `observe` and `sample` -/
  | top {s e x} (hs : EStep m c ryu le s.top e x) (he : Coarse s.top e) (hq : ∀ t, e.Of t → ∀ k, (s.hist k).pc t = .idle) :
    DStep m c ryu le s (.top e) ⟨x, s.hist⟩
  /-- `Default::default()` in `get_metric`. core/src/metric/sparse.rs:62-71 -/
  | insert {s t k x} (hs : EStep m c ryu le s.top (.base (.on .duration (.vec (.insert t k)))) x)
      (hq : ∀ k, (s.hist k).pc t = .idle) :
    DStep m c ryu le s (.top (.base (.on .duration (.vec (.insert t k)))))
      ⟨x, Function.update s.hist k ⟨HistInner.default le.length, (s.hist k).pc⟩⟩
  /-- inside of `observe(duration.as_secs_f64())`, through the guard. core/src/metric/histogram.rs:155-163, 259-271 -/
  | observe {s t r k st e h} (hp : s.top.base.pc t = .durObserve r k st) (ho : s.top.at' t = .out)
      (hi : ((s.top.base.vecs.own .duration).vec.thr t).pc = .idle) (hg : k ∈ ((s.top.base.vecs.own .duration).vec.thr t).guards)
      (hq : ∀ k', k' ≠ k → (s.hist k').pc t = .idle) (hs : HistStep le (s.hist k) e h) (ht : e.tid = t)
      (h0 : ((s.hist k).pc t).ofSampler = false) (h1 : (h.pc t).ofSampler = false)
      (hd : ∀ x, e = .start t x → ∃ d, d / 10 ^ 9 < 2 ^ 64 ∧ x = asSecsF64 d) (hn : ∀ x, e ≠ .done t x) :
    DStep m c ryu le s (.hist t k e) ⟨s.top, Function.update s.hist k h⟩
  /-- `observe` returns. core/src/metric/histogram.rs:160 -/
  | observed {s t r k st x h} (hp : s.top.base.pc t = .durObserve r k st) (ho : s.top.at' t = .out)
      (hi : ((s.top.base.vecs.own .duration).vec.thr t).pc = .idle) (hg : k ∈ ((s.top.base.vecs.own .duration).vec.thr t).guards)
      (hq : ∀ k', k' ≠ k → (s.hist k').pc t = .idle) (hs : HistStep le (s.hist k) (.done t x) h) :
    DStep m c ryu le s (.hist t k (.done t x))
      ⟨{ s.top with base := ⟨s.top.base.vecs, Function.update s.top.base.pc t (.durDrop r k st)⟩ }, Function.update s.hist k h⟩
  /-- the collecting request on its way to the sample of an entry. core/src/metric.rs:461-464, core/src/text.rs:236,
  core/src/metric/histogram.rs:51-58 -/
  | sampling {s t k e h i j acc snap us g} (hp : s.top.at' t = .pass .duration)
      (hc : ((s.top.base.vecs.own .duration).vec.thr t).pc = .scan i j acc snap)
      (hk : ((s.top.base.vecs.own .duration).vec.shards i)[j]? = some (k, us))
      (hg : (s.top.base.vecs.own .duration).seen t = some (k, g)) (hs : HistStep le (s.hist k) e h) (ht : e.tid = t)
      (h1 : (h.pc t).ofSampler = true) : DStep m c ryu le s (.hist t k e) ⟨s.top, Function.update s.hist k h⟩
  /-- it has the sample and writes it. core/src/text.rs:236-269 -/
  | entry {s t k g r h x enc} (hp : s.top.at' t = .pass .duration) (hs : HistStep le (s.hist k) (.sample t r) h)
      (hx : Step m c s.top.base (.on .duration (.shown t k g [])) x)
      (he : (textEncoder m ryu).sample (.histogram le ⟨r.1, r.2.1, r.2.2⟩) (derivedLabels requestsDef Lab.shown g)
        Vec.duration.name s.top.enc = (.ok (), enc)) :
    DStep m c ryu le s (.top (.base (.on .duration (.shown t k g []))))
      ⟨⟨x, s.top.at', s.top.lock, enc⟩, Function.update s.hist k h⟩
  /-- `?` and `unwrap`, or a panic. examples/axum-server/src/metrics.rs:101 -/
  | entryCrash {s t k g r h x o enc} (hp : s.top.at' t = .pass .duration) (hs : HistStep le (s.hist k) (.sample t r) h)
      (hx : Step m c s.top.base (.on .duration (.shown t k g [])) x)
      (he : (textEncoder m ryu).sample (.histogram le ⟨r.1, r.2.1, r.2.2⟩) (derivedLabels requestsDef Lab.shown g)
        Vec.duration.name s.top.enc = (o, enc)) (ho : o ≠ .ok ()) :
    DStep m c ryu le s (.top (.crash t))
      ⟨⟨s.top.base, Function.update s.top.at' t .crashed, s.top.lock, enc⟩, Function.update s.hist k h⟩

/-- `AppMetricsEncoder::new(…)`; `n` is the number of thresholds. examples/axum-server/src/metrics.rs:45-52 -/
def DSys.new (cap n : Nat) : DSys := ⟨.new cap, fun _ => HistSys.new n⟩

end Measured.Server
