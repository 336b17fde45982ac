import Verif.Proof.TextFail
import Verif.Props.Text
import Verif.Spec.ProtoCalls

/-! # A text encoder whose writer fails (C94) -/

namespace Measured
open Spec

/-- C94, errors. After an error the writer has accepted a part, from the beginning, of what a buffer gets by the same calls,
from which bytes between the braces of samples may be missing. One of the calls of the writer failed. If it was only the last one,
nothing is missing but the rest. -/
theorem C94_error (m : Mode) (ryu : F64 → Bytes) (cs : List EncCall) (st : TState) (s : Sink)
    (hl : ∀ c ∈ cs, ∀ x ls n, c = .sample x ls n → ∀ l ∈ ls, LabelNameRe l.1) (e : TextEnc Sink)
    (herr : (textEncoder m ryu).runAll cs ⟨st, s⟩ = (.err, e)) :
    ∃ o st' out t p, (∀ b, (textEncoder m ryu).runAll cs ⟨st, b⟩ = (o, ⟨st', b ++ out⟩)) ∧ e.writer.out = s.out ++ p ∧
      LabelBytesLost out t ∧ p <+: t ∧ (∃ i, s.calls ≤ i ∧ i < e.writer.calls ∧ s.fail i ≠ none) ∧
      ((∀ i, s.calls ≤ i → i + 1 < e.writer.calls → s.fail i = none) → p <+: out) := by
  obtain ⟨o, st', out, h1, ⟨s', out', h2, _⟩ | ⟨st₁, s₁, p, t, h2, h3, h4, h5, _, h6, h7⟩⟩ := failT_runAll m ryu cs hl st s
  · rw [herr] at h2
    simp only [Prod.mk.injEq] at h2
    obtain ⟨rfl, rfl⟩ := h2
    obtain ⟨g1, g2⟩ := runAll_bytes_result m ryu cs ⟨st, []⟩
    rw [h1] at g1 g2
    by_cases h : m = .debug ∧ ∃ c ∈ cs, Overflows c
    · exact absurd (g1 h) (by simp)
    · exact absurd (g2 h) (by simp)
  · rw [herr] at h2
    simp only [Prod.mk.injEq, true_and] at h2
    subst h2
    exact ⟨o, st', out, t, p, h1, h3, h4, h5, h6, fun hs => h7 hs ▸ h5⟩

/-- C94, panics. Over a buffer the encoder panics exactly in debug builds if the count of a histogram does not fit into 64 bits. -/
theorem C94_panic_iff (m : Mode) (ryu : F64 → Bytes) (cs : List EncCall) (e : TextEnc Bytes) :
    ((textEncoder m ryu).runAll cs e).1 = .panic ↔ m = .debug ∧ ∃ c ∈ cs, Overflows c := by
  obtain ⟨h1, h2⟩ := runAll_bytes_result m ryu cs e
  refine ⟨fun h => ?_, h1⟩
  by_contra hn
  rw [h2 hn] at h
  cases h

/-- C94, panics. No failure of a writer makes the encoder panic. -/
theorem C94_no_panic (m : Mode) (ryu : F64 → Bytes) (cs : List EncCall) (st : TState) (s : Sink)
    (hl : ∀ c ∈ cs, ∀ x ls n, c = .sample x ls n → ∀ l ∈ ls, LabelNameRe l.1)
    (h : ¬ (m = .debug ∧ ∃ c ∈ cs, Overflows c)) :
    ((textEncoder m ryu).runAll cs ⟨st, s⟩).1 = .ok () ∨ ((textEncoder m ryu).runAll cs ⟨st, s⟩).1 = .err := by
  obtain ⟨o, st', out, h1, ⟨s', out', h2, _⟩ | ⟨st₁, s₁, p, t, h2, _⟩⟩ := failT_runAll m ryu cs hl st s
  · have := (runAll_bytes_result m ryu cs ⟨st, []⟩).2 h
    rw [h1] at this
    simp only at this
    subst this
    exact .inl (by rw [h2])
  · exact .inr (by rw [h2])

/-- C94, a writer that does not fail gets what a buffer gets, with the same result. -/
theorem C94_working (m : Mode) (ryu : F64 → Bytes) (cs : List EncCall) (st : TState) (s : Sink)
    (hl : ∀ c ∈ cs, ∀ x ls n, c = .sample x ls n → ∀ l ∈ ls, LabelNameRe l.1) (hf : ∀ i, s.fail i = none) :
    ∃ o st' out s', (∀ b, (textEncoder m ryu).runAll cs ⟨st, b⟩ = (o, ⟨st', b ++ out⟩)) ∧
      (textEncoder m ryu).runAll cs ⟨st, s⟩ = (o, ⟨st', s'⟩) ∧ s'.out = s.out ++ out := by
  have hd : ∀ s', ¬ Dirty s s' := fun s' ⟨i, _, _, h⟩ => h (hf i)
  obtain ⟨o, st', out, h1, ⟨s', out', h2, h3, _, _, h5⟩ | ⟨st₁, s₁, p, t, h2, _, _, _, _, h6, _⟩⟩ := failT_runAll m ryu cs hl st s
  · refine ⟨o, st', out, s', h1, h2, ?_⟩
    rw [h3, h5 (hd s')]
  · exact absurd h6 (hd s₁)

/-- C94, use for further scrapes. If each scrape is followed by a flush, also one that failed or panicked, all scrapes give the
results, and the writer gets the bytes, that it gets with a new encoder for each. -/
theorem C94_reuse {W : Type} [Write W] (m : Mode) (ryu : F64 → Bytes) (css : List (List EncCall)) (w : W) :
    textAttempts m ryu css (TextEnc.new w) = freshAttempts m ryu css w := by
  induction css generalizing w with
  | nil => rfl
  | cons cs css ih =>
    simp only [textAttempts, freshAttempts]
    rw [show (textFlush ((textEncoder m ryu).runAll cs (TextEnc.new w)).2).2 =
      TextEnc.new ((textEncoder m ryu).runAll cs (TextEnc.new w)).2.writer from rfl, ih]

/-- C94, without the flush, whatever the encoder was used for: it is as good as new, or the next help or type line comes after one more line end. -/
theorem C94_unflushed {W : Type} [Write W] (m : Mode) (ryu : F64 → Bytes) (e1 : TextEnc W) (c : EncCall)
    (hc : IsHead c) :
    e1 = TextEnc.new e1.writer ∨
      (textEncoder m ryu).run c e1 =
        match writeAll b!"\n" e1.writer with
        | (.ok (), w) => (textEncoder m ryu).run c (TextEnc.new w)
        | (.err, w) => (.err, ⟨.metrics, w⟩)
        | (.panic, w) => (.panic, ⟨.metrics, w⟩) := by
  obtain ⟨st, w⟩ := e1
  cases st with
  | info => exact .inl rfl
  | metrics =>
    refine .inr ?_
    have hsep : ∀ w : W, textSep (⟨.info, w⟩ : TextEnc W) = (.ok (), ⟨.info, w⟩) := fun _ => rfl
    have hs : textSep (⟨.metrics, w⟩ : TextEnc W) = ((writeAll b!"\n" w).1, ⟨.metrics, (writeAll b!"\n" w).2⟩) := rfl
    cases c with
    | sample => exact hc.elim
    | help n t =>
      show textHelp n t ⟨.metrics, w⟩ = _
      rcases hw : (writeAll b!"\n" : RS W Unit) w with ⟨o, w'⟩
      rw [hw] at hs
      cases o with
      | ok u =>
        show _ = textHelp n t ⟨.info, w'⟩
        unfold textHelp
        rw [RS.bind_ok hs, RS.bind_ok (hsep w')]
        rfl
      | err => simp only [textHelp, RS.bind_run, hs]
      | panic => simp only [textHelp, RS.bind_run, hs]
    | type k n =>
      show textType n (textKind k) ⟨.metrics, w⟩ = _
      rcases hw : (writeAll b!"\n" : RS W Unit) w with ⟨o, w'⟩
      rw [hw] at hs
      cases o with
      | ok u =>
        show _ = textType n (textKind k) ⟨.info, w'⟩
        unfold textType
        rw [RS.bind_ok hs, RS.bind_ok (hsep w')]
        rfl
      | err => simp only [textType, RS.bind_run, hs]
      | panic => simp only [textType, RS.bind_run, hs]

/-- A counter with a label, then a gauge. -/
def exFailCalls : List EncCall :=
  [.type .counter (.str b!"x"), .sample (.counter 1) [(b!"a", .str b!"b")] (.str b!"x"), .type .gauge (.str b!"y"),
   .sample (.gauge 2) [] (.str b!"y")]

example : ∀ c ∈ exFailCalls, ∀ x ls n, c = .sample x ls n → ∀ l ∈ ls, LabelNameRe l.1 := by
  intro c hc x ls n h l hl
  simp only [exFailCalls, List.mem_cons, List.not_mem_nil, or_false] at hc
  rcases hc with rfl | rfl | rfl | rfl <;> simp only [EncCall.sample.injEq, reduceCtorEq] at h
  · obtain ⟨rfl, rfl, rfl⟩ := h
    rw [List.mem_singleton] at hl
    subst hl
    exact ⟨0x61, [], rfl, ⟨(0x61, 0x7a), by decide, by decide, by decide⟩, by simp⟩
  · obtain ⟨rfl, rfl, rfl⟩ := h
    simp at hl

/-- The writer fails once in the label and once in the type of the gauge, after two bytes. -/
example : ((textEncoder .debug exRyu).runAll exFailCalls
    (TextEnc.new (⟨[], 0, fun i => if i = 5 then some 0 else if i = 11 then some 2 else none⟩ : Sink))).1 = .err ∧
    ((textEncoder .debug exRyu).runAll exFailCalls
      (TextEnc.new (⟨[], 0, fun i => if i = 5 then some 0 else if i = 11 then some 2 else none⟩ : Sink))).2.writer.out =
        b!"# TYPE x counter\nx{} 1\n\n# " := by
  decide +kernel

/-- Only the last call fails. -/
example : ((textEncoder .debug exRyu).runAll exFailCalls
    (TextEnc.new (⟨[], 0, fun i => if i = 14 then some 2 else none⟩ : Sink))).1 = .err ∧
    ((textEncoder .debug exRyu).runAll exFailCalls
      (TextEnc.new (⟨[], 0, fun i => if i = 14 then some 2 else none⟩ : Sink))).2.writer.out =
        b!"# TYPE x counter\nx{a=\"b\"} 1\n\n# " := by
  decide +kernel

/-- A histogram whose count does not fit. -/
example : Overflows (.sample (.histogram [F64.one] ⟨[2 ^ 64 - 1], 1, F64.one⟩) [] (.str b!"h")) := by
  show 2 ^ 64 ≤ _
  decide
example : ¬ ∃ c ∈ exFailCalls, Overflows c := by simp [exFailCalls, Overflows]

/-- Two scrapes with a flush after each; the first one fails after a sample. -/
example : (textAttempts .debug exRyu [exFailCalls, exFailCalls.drop 2]
      (TextEnc.new (⟨[], 0, fun i => if i = 14 then some 2 else none⟩ : Sink))).1 = [.err, .ok ()] := by
  decide +kernel

end Measured
