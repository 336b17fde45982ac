import Verif.Proof.Flush
import Verif.Props.TextLoss
import Verif.Props.TextFail
import Verif.Props.ProtoWriter

/-! # Writers with a buffer of their own (C95) -/

namespace Measured
open Measured.Spec Measured.Proto

/-- C95, text, Ok. Nothing is held back: everything that the writer accepted was passed on, and that is the text that a buffer
gets, but for bytes of labels if a call of the writer failed (C37). -/
theorem C95_text_ok (m : Mode) (ryu : F64 → Bytes) (cs : List EncCall) (st : TState) (s : Buffering)
    (hl : ∀ c ∈ cs, ∀ x ls n, c = .sample x ls n → ∀ l ∈ ls, LabelNameRe l.1) (e : TextEnc Buffering)
    (h : textScrape m ryu cs ⟨st, s⟩ = (.ok (), e)) :
    e.writer.held = [] ∧ e.state = .info ∧
      ∃ st' out out', (textEncoder m ryu).runAll cs ⟨st, ([] : Bytes)⟩ = (.ok (), ⟨st', out⟩) ∧
        e.writer.sent = s.sent ++ s.held ++ out' ∧ LabelBytesLost out out' ∧
        ((∀ i, s.calls ≤ i → i < e.writer.calls → s.fail i = none) → out' = out) := by
  have hh := hom_runAll m ryu cs ⟨st, s⟩
  rcases hr : (textEncoder m ryu).runAll cs (⟨st, s⟩ : TextEnc Buffering) with ⟨o, e1⟩
  rw [hr] at hh
  simp only [textScrape, RS.bind_run, hr] at h
  cases o with
  | err => simp at h
  | panic => simp at h
  | ok u =>
    simp only [textFlushAll, RS.bind_run, textFlush, setState, onWriter] at h
    rcases hf : flushW e1.writer with ⟨o, w⟩
    rw [hf] at h
    simp only [Prod.mk.injEq] at h
    obtain ⟨rfl, rfl⟩ := h
    obtain ⟨f1, f2, f3, f4⟩ := flushW_ok hf
    obtain ⟨out, out', g1, g2, g3, g4⟩ := C37_only_labels m ryu cs st s.sink hl (unT e1) hh
    refine ⟨f1, rfl, e1.state, out, out', g1, ?_, g3, fun hn => g4 fun i h1 h2 => hn i h1 ?_⟩
    · rw [f2]; exact g2
    · show i < w.calls
      rw [f3]
      exact Nat.lt_succ_of_lt h2

/-- C95, text, errors. Some call of the writer failed, and what it passed on is an initial part of the text of the buffer, but
for bytes of labels. -/
theorem C95_text_error (m : Mode) (ryu : F64 → Bytes) (cs : List EncCall) (st : TState) (s : Buffering)
    (hl : ∀ c ∈ cs, ∀ x ls n, c = .sample x ls n → ∀ l ∈ ls, LabelNameRe l.1) (e : TextEnc Buffering)
    (h : textScrape m ryu cs ⟨st, s⟩ = (.err, e)) :
    (∃ i, s.calls ≤ i ∧ i < e.writer.calls ∧ s.fail i ≠ none) ∧
      ∃ o st' out t, (textEncoder m ryu).runAll cs ⟨st, ([] : Bytes)⟩ = (o, ⟨st', out⟩) ∧ LabelBytesLost out t ∧
        e.writer.sent <+: s.sent ++ s.held ++ t := by
  have hh := hom_runAll m ryu cs ⟨st, s⟩
  rcases hr : (textEncoder m ryu).runAll cs (⟨st, s⟩ : TextEnc Buffering) with ⟨o, e1⟩
  rw [hr] at hh
  simp only [textScrape, RS.bind_run, hr] at h
  cases o with
  | panic => simp at h
  | err =>
    simp only [Prod.mk.injEq, true_and] at h
    subst h
    obtain ⟨o, st', out, t, p, g1, g2, g3, g4, g5, _⟩ := C94_error m ryu cs st s.sink hl (unT e1) hh
    refine ⟨g5, o, st', out, t, by simpa using g1 [], g3, ?_⟩
    have g2' : e1.writer.sent ++ e1.writer.held = s.sent ++ s.held ++ p := g2
    have : e1.writer.sent <+: s.sent ++ s.held ++ p := g2' ▸ List.prefix_append _ _
    exact this.trans ((List.prefix_append_right_inj _).2 g4)
  | ok u =>
    simp only [textFlushAll, RS.bind_run, textFlush, setState, onWriter] at h
    rcases hf : flushW e1.writer with ⟨o, w⟩
    rw [hf] at h
    simp only [Prod.mk.injEq] at h
    obtain ⟨rfl, rfl⟩ := h
    obtain ⟨f1, f2, f3⟩ := flushW_err hf
    obtain ⟨out, out', g1, g2, ⟨g3, g4⟩, g5, _⟩ := lossT_runAll m ryu cs hl st s.sink () (unT e1) hh
    have g3' : e1.writer.fail = s.fail := g3
    refine ⟨⟨e1.writer.calls, g4, by show _ < w.calls; omega, by rw [← g3']; exact f2⟩, .ok (), e1.state, out, out', by simpa [unT] using g1 [], g5, ?_⟩
    have g2' : e1.writer.sink.out = s.sent ++ s.held ++ out' := g2
    have : w.sent <+: w.sink.out := List.prefix_append _ _
    rw [f1, g2'] at this
    exact this

/-- C95, text, without failures. -/
theorem C95_text_working (m : Mode) (ryu : F64 → Bytes) (cs : List EncCall) (st : TState) (s : Buffering)
    (hl : ∀ c ∈ cs, ∀ x ls n, c = .sample x ls n → ∀ l ∈ ls, LabelNameRe l.1) (hf : ∀ i, s.fail i = none)
    (ho : ¬ (m = .debug ∧ ∃ c ∈ cs, Overflows c)) : ∃ e, textScrape m ryu cs ⟨st, s⟩ = (.ok (), e) := by
  have hh := hom_runAll m ryu cs ⟨st, s⟩
  obtain ⟨o, st', out, s', g1, g2, _⟩ := C94_working m ryu cs st s.sink hl hf
  rcases hr : (textEncoder m ryu).runAll cs (⟨st, s⟩ : TextEnc Buffering) with ⟨o1, e1⟩
  rw [hr] at hh
  have hh' : (textEncoder m ryu).runAll cs (⟨st, s.sink⟩ : TextEnc Sink) = (o1, unT e1) := hh
  rw [g2] at hh'
  simp only [Prod.mk.injEq] at hh'
  obtain ⟨rfl, hu⟩ := hh'
  have hb := (runAll_bytes_result m ryu cs ⟨st, []⟩).2 ho
  rw [g1] at hb
  simp only at hb
  subst hb
  have ha : After s.sink (unT e1).writer := (lossT_runAll m ryu cs hl st s.sink () (unT e1) hh).choose_spec.choose_spec.2.2.1
  have hfail : e1.writer.fail e1.writer.calls = none := by
    have : e1.writer.fail = s.fail := ha.1
    rw [this, hf]
  refine ⟨_, by simp only [textScrape, RS.bind_run, hr, textFlushAll, textFlush, setState, onWriter, flushW, hfail]; rfl⟩

/-- C95, text. After a flush, also one that failed or panicked, the encoder is as good as new, for any writer. -/
theorem C95_text_state {W : Type} [FlushWrite W] (e : TextEnc W) :
    (textFlushAll e).2 = TextEnc.new (flushW e.writer).2 ∧ (textFlushAll e).1 = (flushW e.writer).1 := by
  simp only [textFlushAll, RS.bind_run, textFlush, setState, onWriter, TextEnc.new, and_self]

/-- C95, protobuf, Ok. Nothing is held back, and what was passed on is exactly what a buffer gets; the encoder is in the same
state as with the buffer. -/
theorem C95_proto_ok (m : Mode) (ryu : F64 → Bytes) (cs : List EncCall) (e e' : ProtoEnc Buffering)
    (h : protoScrape m ryu cs e = (.ok (), e')) :
    e'.writer.held = [] ∧ ∃ out,
      protoScrape m ryu cs (⟨e.state, [], e.buf⟩ : ProtoEnc Bytes) = (.ok (), ⟨e'.state, out, e'.buf⟩) ∧
        e'.writer.sent = e.writer.sent ++ e.writer.held ++ out := by
  have hh : Hom unP (scrapeOn m ryu cs) (scrapeOn m ryu cs) := (hom_protoRunAll m ryu cs).bind fun _ => hom_flushBuf m
  have hs : ∀ (W : Type) [FlushWrite W], (protoScrape m ryu cs : RS (ProtoEnc W) Unit) =
      (scrapeOn m ryu cs >>= fun _ => onProtoWriter flushW) := by
    intro W _
    unfold protoScrape scrapeOn Proto.flushAll
    rw [rs_assoc]
  rw [hs, RS.bind_run] at h
  have hx := hh e
  rcases hr : scrapeOn m ryu cs e with ⟨o, e1⟩
  rw [hr] at hx h
  cases o with
  | err => simp at h
  | panic => simp at h
  | ok u =>
    simp only [onProtoWriter] at h
    rcases hf : flushW e1.writer with ⟨o, w⟩
    rw [hf] at h
    simp only [Prod.mk.injEq] at h
    obtain ⟨rfl, rfl⟩ := h
    obtain ⟨f1, f2, _, _⟩ := flushW_ok hf
    obtain ⟨out, g1, g2⟩ := (simP_scrape m ryu cs).ok_run hx []
    refine ⟨f1, out, ?_, by rw [f2]; exact g2⟩
    rw [hs, RS.bind_run, show scrapeOn m ryu cs (⟨e.state, [], e.buf⟩ : ProtoEnc Bytes) = _ from g1]
    rfl

/-- C95, protobuf, errors. Some call of the writer failed, and what it passed on is an initial part of what a buffer gets. -/
theorem C95_proto_error (m : Mode) (ryu : F64 → Bytes) (cs : List EncCall) (e e' : ProtoEnc Buffering)
    (h : protoScrape m ryu cs e = (.err, e')) :
    (∃ i, e.writer.calls ≤ i ∧ i < e'.writer.calls ∧ e.writer.fail i ≠ none) ∧ ∃ o st out buf,
      protoScrape m ryu cs (⟨e.state, [], e.buf⟩ : ProtoEnc Bytes) = (o, ⟨st, out, buf⟩) ∧
        e'.writer.sent <+: e.writer.sent ++ e.writer.held ++ out := by
  have hh : Hom unP (scrapeOn m ryu cs) (scrapeOn m ryu cs) := (hom_protoRunAll m ryu cs).bind fun _ => hom_flushBuf m
  have hs : ∀ (W : Type) [FlushWrite W], (protoScrape m ryu cs : RS (ProtoEnc W) Unit) =
      (scrapeOn m ryu cs >>= fun _ => onProtoWriter flushW) := by
    intro W _
    unfold protoScrape scrapeOn Proto.flushAll
    rw [rs_assoc]
  have hb : ∀ o st out buf, scrapeOn m ryu cs (⟨e.state, [], e.buf⟩ : ProtoEnc Bytes) = (o, ⟨st, out, buf⟩) →
      protoScrape m ryu cs (⟨e.state, [], e.buf⟩ : ProtoEnc Bytes) = (o, ⟨st, out, buf⟩) := by
    intro o st out buf hx
    rw [hs, RS.bind_run, hx]
    cases o <;> rfl
  rw [hs, RS.bind_run] at h
  have hx := hh e
  rcases hr : scrapeOn m ryu cs e with ⟨o, e1⟩
  rw [hr] at hx h
  obtain ⟨o2, out, st, buf, g1, g2 | ⟨st₁, s₁, buf₁, p, g2, g3, g4, g5, g6⟩⟩ :=
    simP_scrape m ryu cs e.state e.writer.sink [] e.buf
  · obtain ⟨s', g2, g3, g4, g4'⟩ := g2
    have g2' : scrapeOn m ryu cs (unP e) = (o2, ⟨st, s', buf⟩) := g2
    rw [hx] at g2'
    simp only [Prod.mk.injEq] at g2'
    obtain ⟨rfl, hu⟩ := g2'
    have hcalls : e1.writer.sink = s' := congrArg ProtoEnc.writer hu
    cases o with
    | panic => simp at h
    | err =>
      exfalso
      have h1 := noErr_scrapes m ryu [cs] (⟨e.state, [], e.buf⟩ : ProtoEnc Bytes)
      refine h1 ?_
      show ((scrapeOn m ryu cs >>= fun _ => scrapesOn m ryu []) (⟨e.state, [], e.buf⟩ : ProtoEnc Bytes)).1 = .err
      rw [RS.bind_run, g1]
    | ok u =>
      simp only [onProtoWriter] at h
      rcases hf : flushW e1.writer with ⟨o, w⟩
      rw [hf] at h
      simp only [Prod.mk.injEq] at h
      obtain ⟨rfl, rfl⟩ := h
      obtain ⟨f1, f2, f3⟩ := flushW_err hf
      have k1 : e1.writer.fail = e.writer.fail := by
        have : e1.writer.sink.fail = e.writer.sink.fail := by rw [hcalls]; exact g4
        exact this
      have k2 : e.writer.calls ≤ e1.writer.calls := by
        have : e.writer.sink.calls ≤ e1.writer.sink.calls := by rw [hcalls]; exact g4'
        exact this
      refine ⟨⟨e1.writer.calls, k2, by show _ < w.calls; omega, by rw [← k1]; exact f2⟩, .ok u, st, out, buf,
        hb _ _ _ _ (by simpa using g1), ?_⟩
      have h1 : w.sent <+: w.sink.out := List.prefix_append _ _
      rw [f1, hcalls, g3] at h1
      exact h1
  · have g2' : scrapeOn m ryu cs (unP e) = (.err, ⟨st₁, s₁, buf₁⟩) := g2
    rw [hx] at g2'
    simp only [Prod.mk.injEq] at g2'
    obtain ⟨rfl, hu⟩ := g2'
    simp only [Prod.mk.injEq, true_and] at h
    subst h
    have hcalls : e1.writer.sink = s₁ := congrArg ProtoEnc.writer hu
    obtain ⟨i, i1, i2, i3⟩ := g6
    refine ⟨⟨i, i1, by rw [← hcalls] at i2; exact i2, i3⟩, o2, st, out, buf, hb _ _ _ _ (by simpa using g1), ?_⟩
    have h1 : e1.writer.sent <+: e1.writer.sink.out := List.prefix_append _ _
    rw [hcalls, g3] at h1
    exact h1.trans ((List.prefix_append_right_inj _).2 g4)

/-- C95, protobuf, without failures: as with a buffer. -/
theorem C95_proto_working (m : Mode) (ryu : F64 → Bytes) (cs : List EncCall) (e : ProtoEnc Buffering)
    (hf : ∀ i, e.writer.fail i = none) :
    (protoScrape m ryu cs e).1 = (protoScrape m ryu cs (⟨e.state, [], e.buf⟩ : ProtoEnc Bytes)).1 := by
  rcases h : protoScrape m ryu cs e with ⟨o, e'⟩
  cases o with
  | ok u =>
    obtain ⟨_, out, h1, _⟩ := C95_proto_ok m ryu cs e e' h
    rw [h1]
  | err =>
    obtain ⟨⟨i, _, _, hi⟩, _⟩ := C95_proto_error m ryu cs e e' h
    exact absurd (hf i) hi
  | panic =>
    have hh : Hom unP (scrapeOn m ryu cs) (scrapeOn m ryu cs) := (hom_protoRunAll m ryu cs).bind fun _ => hom_flushBuf m
    have hs : ∀ (W : Type) [FlushWrite W], (protoScrape m ryu cs : RS (ProtoEnc W) Unit) =
        (scrapeOn m ryu cs >>= fun _ => onProtoWriter flushW) := by
      intro W _
      unfold protoScrape scrapeOn Proto.flushAll
      rw [rs_assoc]
    rw [hs, RS.bind_run] at h
    have hx := hh e
    rcases hr : scrapeOn m ryu cs e with ⟨o, e1⟩
    rw [hr] at hx h
    cases o with
    | ok u =>
      simp only [onProtoWriter, Prod.mk.injEq] at h
      exact absurd h.1 (flushW_no_panic _)
    | err => simp at h
    | panic =>
      obtain ⟨o2, out, st, buf, g1, g2 | ⟨_, _, _, _, g2, _⟩⟩ := simP_scrape m ryu cs e.state e.writer.sink [] e.buf
      · obtain ⟨s', g2, _⟩ := g2
        have g2' : scrapeOn m ryu cs (unP e) = (o2, ⟨st, s', buf⟩) := g2
        rw [hx] at g2'
        simp only [Prod.mk.injEq] at g2'
        obtain ⟨rfl, _⟩ := g2'
        rw [hs, RS.bind_run, g1]
      · have g2' : scrapeOn m ryu cs (unP e) = (.err, _) := g2
        rw [hx] at g2'
        simp at g2'

/-- A writer that passes on nothing before it is flushed. -/
def exHolding : Buffering := ⟨b!"x", b!"y", 0, fun _ => none, fun _ _ => 0⟩

/-- Without the flush nothing has arrived. -/
example (m : Mode) : ((protoEncoder m exRyu).runAll exScrapeA (ProtoEnc.new exHolding)).2.writer.sent = b!"x" ∧
    (scrapeOn m exRyu exScrapeA (ProtoEnc.new exHolding)).2.writer.sent = b!"x" ∧
    (scrapeOn m exRyu exScrapeA (ProtoEnc.new exHolding)).2.writer.held ≠ b!"y" := by
  cases m <;> exact ⟨by decide +kernel, by decide +kernel, by decide +kernel⟩
example (m : Mode) : (protoScrape m exRyu exScrapeA (ProtoEnc.new exHolding)).1 = .ok () := by cases m <;> decide +kernel
example (m : Mode) : (textScrape m exRyu exScrapeA (TextEnc.new exHolding)).1 = .ok () ∧
    (textScrape m exRyu exScrapeA (TextEnc.new exHolding)).2.writer.sent = b!"xy# HELP a A\n# TYPE a counter\na 1\n" := by
  cases m <;> exact ⟨by decide +kernel, by decide +kernel⟩
/-- A flush that fails after passing on three bytes. -/
example (m : Mode) :
    (textScrape m exRyu [.type .counter (.str b!"a")]
      (TextEnc.new (⟨[], [], 0, fun i => if i = 3 then some 0 else none, fun i _ => if i = 3 then 3 else 0⟩ : Buffering))).1 = .err ∧
    (textScrape m exRyu [.type .counter (.str b!"a")]
      (TextEnc.new (⟨[], [], 0, fun i => if i = 3 then some 0 else none, fun i _ => if i = 3 then 3 else 0⟩ : Buffering))).2.writer.sent =
      b!"# T" := by
  cases m <;> exact ⟨by decide +kernel, by decide +kernel⟩
example (m : Mode) : (protoScrape m exRyu exScrapeA
    (ProtoEnc.new (⟨[], [], 0, fun i => if i = 1 then some 0 else none, fun _ _ => 0⟩ : Buffering))).1 = .err := by
  cases m <;> decide +kernel

end Measured
