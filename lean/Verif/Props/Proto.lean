import Verif.Proof.ProtoStream
import Verif.Props.Text

/-! # Properties of the protobuf encoder (C43–C45) -/

set_option exponentiation.threshold 3000

namespace Measured
open Measured.Spec Measured.Proto F64

/-! ## C43 -/

/-- C43. The length announced for a label pair is that of its message, which reads back; it is never cut or padded. -/
theorem C43_label_pair {ryu : F64 → Bytes} {rf : Bytes → Option F64} (F : FloatText ryu rf) (m : Mode)
    (l : Bytes × LVal) (h : labelSize (labelText ryu) l < 2 ^ 64) :
    ∃ body, labelPairLen ryu l.1 l.2 = body.length ∧
      labelPair m ryu l.1 l.2 = .ok (encodeKey 1 .lengthDelimited ++ encodeVarint body.length ++ body) ∧
      ∃ text, LabelReads rf l.2 text ∧ asMessage decodeLabel (.bytes body) = some ⟨some l.1, some text⟩ := by
  have h1 := labelField_le ryu l
  have h2 := payload_le 1 (encFields (pairFields ryu l))
  have h3 : (encField (labelField ryu l)).length = (encField (1, .bytes (encFields (pairFields ryu l)))).length := rfl
  have hs : (encFields (pairFields ryu l)).length < 2 ^ 64 := by omega
  exact ⟨_, labelPairLen_eq hs, labelPair_eq m hs, labelText ryu l.2, labelReads_text F l.2, decode_label hs⟩

/-- C43. `collect_into` of a counter or gauge, in both builds: it appends one `metric` field whose announced length
is the number of bytes that follow; the message and its nested messages read back as the labels and the value. -/
theorem C43_sample {ryu : F64 → Bytes} {rf : Bytes → Option F64} (F : FloatText ryu rf) {W : Type} [Write W]
    (m : Mode) (x : Metric) (ls : Labels) (n : Name) (hx : x.kind ≠ .histogram)
    (h : sampleSize (labelText ryu) (ls, x) < 2 ^ 64) (e : ProtoEnc W) :
    ∃ body, protoSample m ryu x ls n e =
        (.ok (), ⟨.metrics, e.writer, e.buf ++ (encodeKey 4 .lengthDelimited ++ encodeVarint body.length ++ body)⟩) ∧
      ∃ p, asMessage decodeMetric (.bytes body) = some p ∧ ProtoSampleReads rf (ls, x) p := by
  have hfit := sample_fits (s := (ls, x)) hx h
  refine ⟨encFields (metricFields ryu (sampleTag x) (sampleDouble x) ls), ?_, _, decode_sample hfit, sample_reads F hx⟩
  have ht : sampleTag x = 2 ∨ sampleTag x = 3 := by cases x <;> simp [sampleTag]
  have hv : (protoSample m ryu x ls n : RS (ProtoEnc W) Unit) = protoValue m ryu (sampleTag x) (sampleDouble x) ls := by
    cases x with
    | histogram _ _ => exact absurd rfl hx
    | _ => rfl
  rw [hv]
  simp only [protoValue, RS.bind_run, setPState, RS.lift_run, metricBytes_eq m ryu _ ht _ _ hfit.1, Proto.append]
  rfl

/-- C43. The family: if ten bytes are reserved in front of the message, a flush hands the writer the exact length
followed by all message bytes, in one call, for every message size and every writer; afterwards ten bytes are
reserved again. (A full proof is not possible, see `C43_unreserved_refuted`.) -/
theorem C43_family_partial {W : Type} [Write W] (m : Mode) (w : W) (pre body : Bytes) (hp : pre.length = 10)
    (hb : body.length < 2 ^ 64) :
    ∃ r : Bytes, r.length = 10 ∧ ∃ r' : Bytes,
      flush m (⟨.metrics, w, pre ++ body⟩ : ProtoEnc W) =
        match writeAll (encodeVarint body.length ++ body) w with
        | (.ok (), w') => (.ok (), ⟨.init, w', r⟩)
        | (.err, w') => (.err, ⟨.init, w', r'⟩)
        | (.panic, w') => (.panic, ⟨.init, w', r'⟩) :=
  flushBuf_writer m w pre body hp hb

/-- C43. Any sequence of calls, not only those of whole families: starting from a new encoder with a call of
`write_help` or `write_type`, the output after a flush is a sequence of messages with exact lengths, each of which
is a sequence of complete fields. Missing: sequences that start with a sample. -/
theorem C43_stream_partial (m : Mode) (ryu : F64 → Bytes) (cs : List EncCall) (w : Bytes)
    (hc : ∀ c ∈ cs, NoHistCall c) (hfirst : ∀ c ∈ cs.head?, ∀ x ls n, c ≠ .sample x ls n)
    (hs : (cs.map (callSize (labelText ryu))).sum < 2 ^ 64) :
    ∃ e e' out msgs, (protoEncoder m ryu).runAll cs (ProtoEnc.new w) = (.ok (), e) ∧ flush m e = (.ok (), e') ∧
      e'.writer = w ++ out ∧ readDelimited out = some msgs ∧ ∀ b ∈ msgs, ∃ fs, readFields b = some fs := by
  have h0 : Holds (ProtoEnc.new w) ⟨.init, [], w⟩ := ⟨rfl, rfl, .inl ⟨rfl, rfl, rfl⟩⟩
  have s0 : Stream w ⟨.init, [], w⟩ [] := ⟨by simp, by simp, by simp⟩
  obtain ⟨e, a, ms, h1, r1, s1, l1⟩ := calls_ok m ryu w cs h0 (.inr hfirst) s0 hc (by simpa [encFields_nil] using hs)
  obtain ⟨e', h2, r2⟩ := r1.flush m l1
  obtain ⟨ms', s2⟩ := s1.flush l1
  obtain ⟨out, ho, hd, hf⟩ := s2.messages
  exact ⟨e, e', out, _, h1, h2, by rw [r2.2.1, ho], hd, hf⟩

/-- C43 fails for a sample on a new encoder: no bytes are reserved, the length overwrites message bytes and most of
the message is lost. (Here: a counter with value 1.) -/
theorem C43_unreserved_refuted (m : Mode) : ∃ e e',
    (protoEncoder m exRyu).runAll [.sample (.counter 1) [] (.str b!"c")] (ProtoEnc.new ([] : Bytes)) = (.ok (), e) ∧
      e.buf.length = 13 ∧ flush m e = (.ok (), e') ∧ e'.writer = [3, 0, 0xf0, 0x3f] ∧ decodeScrape e'.writer = none :=
  ⟨((protoEncoder m exRyu).runAll [.sample (.counter 1) [] (.str b!"c")] (ProtoEnc.new ([] : Bytes))).2,
    (flush m ((protoEncoder m exRyu).runAll [.sample (.counter 1) [] (.str b!"c")] (ProtoEnc.new ([] : Bytes))).2).2,
    Prod.ext (by cases m <;> decide +kernel) rfl, by cases m <;> decide +kernel,
    Prod.ext (by cases m <;> decide +kernel) rfl, by cases m <;> decide +kernel, by cases m <;> decide +kernel⟩

example : labelPairLen exRyu b!"path" (.str b!"/x") = 10 := by decide +kernel
example : (protoSample .debug exRyu (.gauge (-1)) [(b!"path", .str b!"/x")] (.str b!"g")
    (⟨.init, [], []⟩ : ProtoEnc Bytes)).2.buf =
      [0x22, 23, 0x0a, 10, 0x0a, 4] ++ b!"path" ++ [0x12, 2] ++ b!"/x" ++ [0x12, 9, 9, 0, 0, 0, 0, 0, 0, 0xf0, 0xbf] := by
  decide +kernel

/-! ## C44 -/

/-- An encoder with nothing pending: a new one, or one after a flush that wrote a family. -/
def Spec.Clean {W : Type} (e : ProtoEnc W) : Prop := e.state = .init ∧ (e.buf = [] ∨ e.buf.length = 10)

/-- C44, for lists of families without histograms (which do not compile with this encoder) in which no family with
help but without samples comes before a family without help: after a flush the output decodes to exactly the
families that have samples, in order, each with its own name, help, type, labels and values. If the last family had
samples the encoder can be used for the next scrape. Missing: the other lists, for which the claim is false
(`C44_leak_refuted`, `C44_reuse_refuted`). -/
theorem C44_partial {ryu : F64 → Bytes} {rf : Bytes → Option F64} (F : FloatText ryu rf) (m : Mode)
    (fs : List FamilyIn) (e : ProtoEnc Bytes) (he : Spec.Clean e)
    (hk : ∀ f ∈ fs, f.kind ≠ .histogram ∧ ∀ s ∈ f.samples, s.2.kind ≠ .histogram)
    (hs : (fs.map fun f => familySize (labelText ryu) f.name.text f).sum < 2 ^ 64) (hn : NoPendingHelp False fs) :
    ∃ e' e'' out gs, (protoEncoder m ryu).runAll (fs.flatMap FamilyIn.calls) e = (.ok (), e') ∧
      flush m e' = (.ok (), e'') ∧ e''.writer = e.writer ++ out ∧ decodeScrape out = some gs ∧
      List.Forall₂ (fun f g => ProtoReads rf f.name.text f g) (fs.filter fun f => f.samples ≠ []) gs ∧
      ((∀ f ∈ fs.getLast?, f.samples ≠ []) → Spec.Clean e'') := by
  have h0 : Holds e ⟨.init, [], e.writer⟩ := by
    obtain ⟨h1, h2⟩ := he
    refine ⟨h1, rfl, ?_⟩
    rcases h2 with h2 | h2
    · exact .inl ⟨h2, rfl, rfl⟩
    · exact .inr ⟨e.buf, h2, by simp [encFields_nil]⟩
  have hs' : (encFields (⟨.init, [], e.writer⟩ : Abs).fs).length + (fs.map (fsize ryu)).sum < 2 ^ 64 := by
    have : (fs.map (fsize ryu)) = fs.map fun f => familySize (labelText ryu) f.name.text f := by
      apply List.map_congr_left
      intro f _
      rw [fsize, f.name.text_eq]
    rw [this]
    simpa [encFields_nil] using hs
  obtain ⟨e1, h1, r1, l1, _⟩ := families_ok m ryu fs h0 hk hs'
  obtain ⟨e2, h2, r2⟩ := r1.flush m l1
  have hp : Pend ⟨.init, [], e.writer⟩ := ⟨by simp, by simp, by simp⟩
  obtain ⟨ms, hm, hw⟩ := scrape_messages ryu fs hp hk hs' (by simpa using hn)
  refine ⟨e1, e2, _, _, h1, h2, by rw [r2.2.1, hw], hm.decode, ?_, ?_⟩
  · have : ∀ l : List FamilyIn, (∀ f ∈ l, NoHist f) →
        List.Forall₂ (fun f g => ProtoReads rf f.name.text f g) l (l.map (pfamily ryu)) := by
      intro l hl
      induction l with
      | nil => exact .nil
      | cons f l ih =>
        refine .cons ?_ (ih fun f hf => hl f (by simp [hf]))
        rw [f.name.text_eq]
        exact family_reads F (hl f (by simp))
    exact this _ fun f hf => hk f (List.mem_of_mem_filter hf)
  · intro hlast
    have key : (fs.foldl (Abs.family ryu) ⟨.init, [], e.writer⟩).flush.st = .init ∧
        (fs.foldl (Abs.family ryu) ⟨.init, [], e.writer⟩).flush.fs = [] := by
      rcases List.eq_nil_or_concat fs with rfl | ⟨l, f, rfl⟩
      · exact ⟨rfl, rfl⟩
      · have hne : f.samples ≠ [] := hlast f (by simp)
        rw [List.concat_eq_append, List.foldl_append, List.foldl_cons, List.foldl_nil]
        simp only [Abs.family, if_neg hne, Abs.flush, if_true]
        exact ⟨trivial, trivial⟩
    obtain ⟨k1, k2, pre, hp, k3⟩ := r2
    rw [key.1] at k1
    rw [key.2] at k3
    exact ⟨k1, .inr (by rw [k3]; simp [encFields_nil, hp])⟩

def exLeak1 : FamilyIn := ⟨.str b!"a", some b!"first", .counter, []⟩
def exLeak2 : FamilyIn := ⟨.str b!"b", none, .gauge, [([], .gauge 0)]⟩

/-- C44 is false in general. A family with help and without samples, followed by a family without help: the name of
the second one is not written, its samples appear under the name and help of the first one. -/
theorem C44_leak_refuted (m : Mode) : ∃ e' e'',
    (protoEncoder m exRyu).runAll (exLeak1.calls ++ exLeak2.calls) (ProtoEnc.new ([] : Bytes)) = (.ok (), e') ∧
      flush m e' = (.ok (), e'') ∧
      decodeScrape e''.writer = some [⟨some b!"a", some b!"first", some 1, [⟨[], some (some (F64.zero false)), none⟩]⟩] :=
  ⟨((protoEncoder m exRyu).runAll (exLeak1.calls ++ exLeak2.calls) (ProtoEnc.new ([] : Bytes))).2,
    (flush m ((protoEncoder m exRyu).runAll (exLeak1.calls ++ exLeak2.calls) (ProtoEnc.new ([] : Bytes))).2).2,
    Prod.ext (by cases m <;> decide +kernel) rfl, Prod.ext (by cases m <;> decide +kernel) rfl,
    by cases m <;> decide +kernel⟩

/-- The encoder after the first scrape. -/
def exLeftover (m : Mode) : ProtoEnc Bytes :=
  (flush m ((protoEncoder m exRyu).runAll exLeak1.calls (ProtoEnc.new ([] : Bytes))).2).2

/-- C44 is false for a reused encoder: what a scrape leaves pending (its last family had no samples) becomes part of
the next scrape. -/
theorem C44_reuse_refuted (m : Mode) : (exLeftover m).writer = [] ∧
    ∃ e3 e4, (protoEncoder m exRyu).runAll exLeak2.calls (exLeftover m) = (.ok (), e3) ∧ flush m e3 = (.ok (), e4) ∧
      decodeScrape e4.writer = some [⟨some b!"a", some b!"first", some 1, [⟨[], some (some (F64.zero false)), none⟩]⟩] :=
  ⟨by cases m <;> decide +kernel, ((protoEncoder m exRyu).runAll exLeak2.calls (exLeftover m)).2,
    (flush m ((protoEncoder m exRyu).runAll exLeak2.calls (exLeftover m)).2).2,
    Prod.ext (by cases m <;> decide +kernel) rfl, Prod.ext (by cases m <;> decide +kernel) rfl,
    by cases m <;> decide +kernel⟩

/-- Two families with samples, one without. -/
def exScrape : List FamilyIn :=
  [⟨.ns b!"app" (.str b!"hits"), some b!"Requests.", .counter,
      [([(b!"path", .str b!"/a"), (b!"code", .int 200)], .counter 3), ([(b!"path", .str b!"/b")], .counter 4)]⟩,
   ⟨.str b!"none", none, .gauge, []⟩,
   ⟨.str b!"temp", none, .floatGauge, [([], .floatGauge F64.one)]⟩]

example : NoPendingHelp False exScrape := by simp [NoPendingHelp, exScrape]

example : decodeScrape (flush .debug ((protoEncoder .debug exRyu).runAll (exScrape.flatMap FamilyIn.calls)
    (ProtoEnc.new ([] : Bytes))).2).2.writer =
    some [⟨some b!"app_hits", some b!"Requests.", some 0,
        [⟨[⟨some b!"path", some b!"/a"⟩, ⟨some b!"code", some b!"200"⟩], none, some (some ⟨0x4008000000000000, by decide⟩)⟩,
         ⟨[⟨some b!"path", some b!"/b"⟩], none, some (some ⟨0x4010000000000000, by decide⟩)⟩]⟩,
      ⟨some b!"temp", none, some 1, [⟨[], some (some F64.one), none⟩]⟩] := by
  decide +kernel

/-! ## C45 -/

theorem ofNat_exact_iff (c : Nat) (h : c < 2 ^ 64) :
    (F64.ofNat c).val = (c : Int) * 2 ^ 1074 ↔ 2 ^ (Nat.log2 c - 52) ∣ c := by
  rw [← round_exact_iff h]
  unfold F64.ofNat
  rw [round_val]
  simp only [Bool.false_eq_true, if_false]
  constructor
  · intro h'; exact_mod_cast h'
  · intro h'; rw [h']; push_cast; rfl

theorem ofInt_exact (x : Int) (h : x.natAbs ≤ 2 ^ 53) : (F64.ofInt x).val = x * 2 ^ 1074 := by
  have hr := (round_exact_iff (n := x.natAbs) (by omega)).2 (small_exact h)
  unfold F64.ofInt
  rw [round_val, hr]
  push_cast
  split
  · rename_i hs
    have : x < 0 := by simpa using hs
    rw [← Int.neg_mul, show -(|x|) = x by rw [abs_of_neg this]; omega]
  · rename_i hs
    have : 0 ≤ x := by simpa using hs
    rw [abs_of_nonneg this]

/-- The `Metric` message that `collect_into` of the sample appends, as a protobuf reader understands it. -/
def Spec.WritesMetric {W : Type} [Write W] (m : Mode) (ryu : F64 → Bytes) (x : Metric) (ls : Labels) (n : Name)
    (e : ProtoEnc W) (p : PMetric) : Prop :=
  ∃ body, protoSample m ryu x ls n e =
      (.ok (), ⟨.metrics, e.writer, e.buf ++ (encodeKey 4 .lengthDelimited ++ encodeVarint body.length ++ body)⟩) ∧
    asMessage decodeMetric (.bytes body) = some p

section
variable {ryu : F64 → Bytes} {rf : Bytes → Option F64} (F : FloatText ryu rf) {W : Type} [Write W] (m : Mode)
  (ls : Labels) (n : Name) (e : ProtoEnc W)
include F

/-- C45, exactly: the double that a reader finds in the message of a counter equals its count if and only if the count
is a multiple of the spacing of doubles at that size. (`val` counts units of `2^-1074`.) -/
theorem C45_exact_iff (c : Nat) (h : c < 2 ^ 64) (hs : sampleSize (labelText ryu) (ls, .counter c) < 2 ^ 64) :
    ∃ p d, WritesMetric m ryu (.counter c) ls n e p ∧ p.counter = some (some d) ∧ p.gauge = none ∧
      (d.val = (c : Int) * 2 ^ 1074 ↔ 2 ^ (Nat.log2 c - 52) ∣ c) := by
  obtain ⟨body, h1, p, h2, h3⟩ := C43_sample F m (.counter c) ls n (by simp [Metric.kind]) hs e
  exact ⟨p, _, ⟨body, h1, h2⟩, h3.2.1, h3.2.2, ofNat_exact_iff c h⟩

/-- C45 holds up to 2^53. Missing: larger counts that are not multiples of the spacing (`C45_exact_iff`), for which it
is false. -/
theorem C45_partial (c : Nat) (h : c ≤ 2 ^ 53) (hs : sampleSize (labelText ryu) (ls, .counter c) < 2 ^ 64) :
    ∃ p d, WritesMetric m ryu (.counter c) ls n e p ∧ p.counter = some (some d) ∧ p.gauge = none ∧
      d.val = (c : Int) * 2 ^ 1074 := by
  obtain ⟨p, d, h1, h2, h3, h4⟩ := C45_exact_iff F m ls n e c (by omega) hs
  exact ⟨p, d, h1, h2, h3, h4.2 (small_exact h)⟩

/-- C45 for integer gauges up to 2^53 in magnitude. -/
theorem C45_gauge_partial (x : Int) (h : x.natAbs ≤ 2 ^ 53) (hs : sampleSize (labelText ryu) (ls, .gauge x) < 2 ^ 64) :
    ∃ p d, WritesMetric m ryu (.gauge x) ls n e p ∧ p.gauge = some (some d) ∧ p.counter = none ∧
      d.val = x * 2 ^ 1074 := by
  obtain ⟨body, h1, p, h2, h3⟩ := C43_sample F m (.gauge x) ls n (by simp [Metric.kind]) hs e
  exact ⟨p, _, ⟨body, h1, h2⟩, h3.2.1, h3.2.2, ofInt_exact x h⟩

/-- C45 is false for 2^53 + 1: the message is the same as that of 2^53. -/
theorem C45_refuted (hs : sampleSize (labelText ryu) (ls, .counter (2 ^ 53 + 1)) < 2 ^ 64) :
    ∃ p d, WritesMetric m ryu (.counter (2 ^ 53 + 1)) ls n e p ∧ WritesMetric m ryu (.counter (2 ^ 53)) ls n e p ∧
      p.counter = some (some d) ∧ d.val ≠ ((2 ^ 53 + 1 : Nat) : Int) * 2 ^ 1074 := by
  obtain ⟨p, d, ⟨b, h1, h1'⟩, h2, _, h4⟩ := C45_exact_iff F m ls n e (2 ^ 53 + 1) (by decide) hs
  refine ⟨p, d, ⟨b, h1, h1'⟩, ⟨b, ?_, h1'⟩, h2, ?_⟩
  · rw [← h1]
    have : F64.ofNat (2 ^ 53 + 1) = F64.ofNat (2 ^ 53) := by decide +kernel
    simp only [protoSample, this]
  · rw [Ne, h4]; decide +kernel

end

example : sampleSize (labelText exRyu) ([(b!"path", .str b!"/a")], .counter (2 ^ 53 + 1)) < 2 ^ 64 := by decide +kernel

example : F64.ofNat 3 = ⟨0x4008000000000000, by decide⟩ := by decide +kernel

end Measured
