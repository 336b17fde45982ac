import Verif.Props.ProtoCalls
import Verif.Proof.ProtoLife

/-! # A protobuf encoder whose writer fails (C93) -/

set_option exponentiation.threshold 3000

namespace Measured
open Measured.Spec Measured.Proto F64

/-- C93, Ok. Whatever the encoder was used for before and whatever is collected: if all scrapes are answered with Ok, the
writer got exactly what a buffer gets, and the encoder is in the same state. -/
theorem C93_ok (m : Mode) (ryu : F64 → Bytes) (css : List (List EncCall)) (e e' : ProtoEnc Sink)
    (h : scrapesOn m ryu css e = (.ok (), e')) : ∃ out,
    scrapesOn m ryu css (⟨e.state, [], e.buf⟩ : ProtoEnc Bytes) = (.ok (), ⟨e'.state, out, e'.buf⟩) ∧
      e'.writer.out = e.writer.out ++ out := by
  obtain ⟨out, h1, h2⟩ := (simP_scrapes m ryu css).ok_run h []
  exact ⟨out, h1, h2⟩

/-- C93, errors. After an error the writer has got a part of what a buffer gets by the same calls, and one of the calls of the
writer in between failed. -/
theorem C93_error (m : Mode) (ryu : F64 → Bytes) (css : List (List EncCall)) (e e' : ProtoEnc Sink)
    (h : scrapesOn m ryu css e = (.err, e')) : ∃ o st out buf p,
    scrapesOn m ryu css (⟨e.state, [], e.buf⟩ : ProtoEnc Bytes) = (o, ⟨st, out, buf⟩) ∧
      e'.writer.out = e.writer.out ++ p ∧ p <+: out ∧
      ∃ i, e.writer.calls ≤ i ∧ i < e'.writer.calls ∧ e.writer.fail i ≠ none := by
  obtain ⟨o, out, st, buf, h1, h2 | ⟨st₁, s₁, buf₁, p, h2, h3, h4, _, h5⟩⟩ := simP_scrapes m ryu css e.state e.writer [] e.buf
  · obtain ⟨s', h2, h3, _⟩ := h2
    have h2' : scrapesOn m ryu css e = (o, ⟨st, s', buf⟩) := h2
    rw [h] at h2'
    simp only [Prod.mk.injEq] at h2'
    obtain ⟨rfl, rfl⟩ := h2'
    exact absurd (congrArg Prod.fst h1) (noErr_scrapes m ryu css _)
  · have h2' : scrapesOn m ryu css e = (.err, ⟨st₁, s₁, buf₁⟩) := h2
    rw [h] at h2'
    simp only [Prod.mk.injEq, true_and] at h2'
    subst h2'
    exact ⟨o, st, out, buf, p, h1, h3, h4, h5⟩

/-- C93, a writer that does not fail. -/
theorem C93_working (m : Mode) (ryu : F64 → Bytes) (css : List (List EncCall)) (e : ProtoEnc Sink)
    (hf : ∀ i, e.writer.fail i = none) : ∃ o st out buf s,
    scrapesOn m ryu css (⟨e.state, [], e.buf⟩ : ProtoEnc Bytes) = (o, ⟨st, out, buf⟩) ∧
      scrapesOn m ryu css e = (o, ⟨st, s, buf⟩) ∧ s.out = e.writer.out ++ out := by
  obtain ⟨o, out, st, buf, h1, h2 | ⟨_, _, _, _, _, _, _, _, i, _, _, h⟩⟩ := simP_scrapes m ryu css e.state e.writer [] e.buf
  · obtain ⟨s', h2, h3, _⟩ := h2
    exact ⟨o, st, out, buf, s', h1, h2, h3⟩
  · exact absurd (hf i) h

theorem Spec.Clean.holds {e : ProtoEnc Sink} (he : Spec.Clean e) (w : Bytes) : Holds (withW e w) ⟨.init, [], w⟩ := by
  obtain ⟨h1, h2⟩ := he
  refine ⟨h1, rfl, ?_⟩
  rcases h2 with h2 | h2
  · exact .inl ⟨h2, rfl, rfl⟩
  · exact .inr ⟨e.buf, h2, by simp [encFields_nil, withW]⟩

/-- C93, panics. An encoder that is kept for further scrapes whatever becomes of each of them never panics, however its writer
fails: for any scrapes of any calls without histograms, of which none starts with a sample. -/
theorem C93_no_panic (m : Mode) (ryu : F64 → Bytes) (css : List (List EncCall)) (e : ProtoEnc Sink) (he : Spec.Clean e)
    (hfirst : ∀ cs ∈ css, ∀ c ∈ cs.head?, IsHead c) (hc : ∀ c ∈ css.flatten, NoHistCall c)
    (hs : (css.flatten.map (callSize (labelText ryu))).sum < 2 ^ 64) :
    ∀ o ∈ (attempts m ryu css e).1, o = .ok () ∨ o = .err := by
  intro o ho
  have := attempts_consistent (m := m) (ryu := ryu) (he.holds []) hfirst
    (fun cs hcs c h => hc c (List.mem_flatten.2 ⟨cs, hcs, h⟩)) (by simpa [encFields_nil] using hs) o ho
  cases o with
  | ok u => exact .inl rfl
  | err => exact .inr rfl
  | panic => exact absurd rfl this

/-- C93, use for further scrapes, as long as none of them fails: the writer gets one message per block, as it should. Missing:
scrapes after one that failed, for which it is false (`C93_reuse_refuted`, `C93_exact`). -/
theorem C93_reuse_partial {ryu : F64 → Bytes} {rf : Bytes → Option F64} (F : FloatText ryu rf) (m : Mode)
    (css : List (List EncCall)) (bs : List Block) (tail : List EncCall) (e e' : ProtoEnc Sink) (he : Spec.Clean e)
    (hb : css.flatten = bs.flatMap Block.calls ++ tail) (hw : ∀ b ∈ bs, b.Wf) (ht : ∀ c ∈ tail, IsHead c)
    (hfirst : ∀ cs ∈ css, ∀ c ∈ cs.head?, IsHead c) (hc : ∀ c ∈ css.flatten, NoHistCall c)
    (hs : (css.flatten.map (callSize (labelText ryu))).sum < 2 ^ 64) (h : scrapesOn m ryu css e = (.ok (), e')) :
    ∃ out gs, e'.writer.out = e.writer.out ++ out ∧ decodeScrape out = some gs ∧
      List.Forall₂ (BlockReads rf Name.text) bs gs := by
  obtain ⟨out, h1, h2⟩ := C93_ok m ryu css e e' h
  obtain ⟨e2, out', gs, h3, h4, h5, h6⟩ := C44_exact F m css bs tail ⟨e.state, [], e.buf⟩ ⟨he.1, he.2⟩ hb hw ht hfirst hc hs
  rw [scrapesOn_bytes, h3] at h1
  simp only [Prod.mk.injEq, true_and] at h1
  subst h1
  simp only [List.nil_append] at h4
  subst h4
  exact ⟨out, gs, h2, h5, h6⟩

/-- C93, exactly, for one scrape that fails and further ones that do not. The scrape failed in writing the message of one of
its blocks: the messages before it are written, of this one a part, and the rest of the scrape is abandoned. The block itself
is not: its samples appear in the first message of the following scrapes, under the name of the first block of those; so do
its help text and its type unless that block has its own. All messages after that are as they should be. -/
theorem C93_exact {ryu : F64 → Bytes} {rf : Bytes → Option F64} (F : FloatText ryu rf) (m : Mode) (cs : List EncCall)
    (e e1 : ProtoEnc Sink) (he : Spec.Clean e) (hfirst : ∀ c ∈ cs.head?, IsHead c) (hc : ∀ c ∈ cs, NoHistCall c)
    (hs : (cs.map (callSize (labelText ryu))).sum < 2 ^ 64) (herr : scrapeOn m ryu cs e = (.err, e1)) :
    ∃ (bs : List Block) (b : Block) (rest : List EncCall),
      cs = bs.flatMap Block.calls ++ b.calls ++ rest ∧ (∀ b ∈ bs, b.Wf) ∧ b.Wf ∧ (∀ c ∈ rest.head?, IsHead c) ∧
      (∃ out gs full g p, e1.writer.out = e.writer.out ++ out ++ p ∧ decodeScrape out = some gs ∧
        List.Forall₂ (BlockReads rf Name.text) bs gs ∧ decodeScrape full = some [g] ∧ BlockReads rf Name.text b g ∧
        p <+: full) ∧
      ∀ (css : List (List EncCall)) (b₁ : Block) (bs₁ : List Block) (tail : List EncCall) (e' : ProtoEnc Sink),
        css.flatten = (b₁ :: bs₁).flatMap Block.calls ++ tail → (∀ b ∈ b₁ :: bs₁, b.Wf) → (∀ c ∈ tail, IsHead c) →
        (∀ cs ∈ css, ∀ c ∈ cs.head?, IsHead c) → (∀ c ∈ css.flatten, NoHistCall c) →
        (b.calls.map (callSize (labelText ryu))).sum + (css.flatten.map (callSize (labelText ryu))).sum < 2 ^ 64 →
        scrapesOn m ryu css e1 = (.ok (), e') →
        ∃ out g gs, e'.writer.out = e1.writer.out ++ out ∧ decodeScrape out = some (g :: gs) ∧
          MixedReads rf Name.text b b₁ g ∧ List.Forall₂ (BlockReads rf Name.text) bs₁ gs := by
  obtain ⟨cs1, rest, e0, rfl, k2, k3, k4⟩ := scrape_err hc hs herr
  obtain ⟨out0, k5, k5'⟩ := (simP_runAll m ryu cs1).ok_run k3 []
  rw [sum_calls_append] at hs
  have hc1 : ∀ c ∈ cs1, NoHistCall c := fun c h => hc c (by simp [h])
  have hr1 : ∀ c ∈ cs1.head?, IsHead c := by
    intro c h
    refine hfirst c ?_
    cases cs1 with
    | nil => simp at h
    | cons d cs1 => simpa using h
  obtain ⟨b0, k6, k7, k8⟩ := calls_run m ryu cs1 (he.holds []) (.inr hr1) hc1 (by simp only [encFields_nil, List.length_nil]; omega)
  rw [k5] at k6
  simp only [Prod.mk.injEq, true_and] at k6
  subst k6
  simp only [encFields_nil, List.length_nil, Nat.zero_add] at k8
  have k9 := fun v => holds_flush_err k7 (by omega) k4 v
  obtain ⟨bs, b, fs, ms, rfl, hbs, hb, hfold, e2, e3, hd, hff, hle⟩ := pending_block hr1 hc1 (by omega) (k9 []).1
  rw [hfold] at k7 k9
  have hcb : ∀ c ∈ b.calls, NoHistCall c := fun c h => hc1 c (List.mem_append.2 (.inr h))
  have hreads : ∀ bs : List Block, (∀ c ∈ bs.flatMap Block.calls, NoHistCall c) →
      List.Forall₂ (BlockReads rf Name.text) bs (bs.map (pblock ryu)) := by
    intro bs hbs
    rw [show Name.text = Name.render from funext Name.text_eq]
    induction bs with
    | nil => exact .nil
    | cons b bs ih =>
      exact .cons (block_reads F fun c h => hbs c (List.mem_flatMap.2 ⟨b, by simp, h⟩))
        (ih fun c h => hbs c (by rw [List.flatMap_cons]; exact List.mem_append.2 (.inr h)))
  rw [sum_calls_append] at hs
  refine ⟨bs, b, rest, rfl, hbs, hb, k2, ?_, ?_⟩
  · refine ⟨ms.flatMap (fun m => frame (encFields m)), bs.map (pblock ryu), [fs].flatMap (fun m => frame (encFields m)), pblock ryu b, ?_⟩
    have hw : out0 = ms.flatMap (fun m => frame (encFields m)) := k7.writer
    obtain ⟨b2, h2, r2⟩ := k7.flush m (by simp only; omega)
    obtain ⟨o, out, st', buf', f1, f2 | ⟨st₁, s₁, buf₁, p, f2, f3, f4, _, _⟩⟩ :=
      simP_flushBuf m e0.state e0.writer ([] ++ out0) e0.buf
    · obtain ⟨s', f2, _, _⟩ := f2
      have f1' : flushBuf m (withW e0 ([] ++ out0)) = (o, _) := f1
      have f2' : flushBuf m e0 = (o, _) := f2
      rw [h2] at f1'
      rw [k4] at f2'
      simp only [Prod.mk.injEq] at f1' f2'
      rw [← f1'.1] at f2'
      exact absurd f2'.1 (by simp)
    · have f1' : flushBuf m (withW e0 ([] ++ out0)) = (o, _) := f1
      have f2' : flushBuf m e0 = (.err, _) := f2
      rw [h2] at f1'
      rw [k4] at f2'
      simp only [Prod.mk.injEq, true_and] at f1' f2'
      have hout : out = frame (encFields fs) := by
        have h1 := r2.2.1
        rw [f1'.2, Abs.flush, if_pos rfl, ← hw] at h1
        simpa using h1
      refine ⟨p, ?_, messages_decode e2 e3,
        hreads bs fun c h => hc1 c (List.mem_append.2 (.inl h)), messages_decode (ms := [fs]) ?_ ?_, ?_, ?_⟩
      · rw [f2', ← hw]; simp only; rw [f3, k5']
      · intro m hm
        rw [List.mem_singleton] at hm
        subst hm
        exact ⟨hff, by omega⟩
      · simp [readAll, hd]
      · rw [show Name.text = Name.render from funext Name.text_eq]
        exact block_reads F hcb
      · simpa [hout] using f4
  · intro css b₁ bs₁ tail e' g1 g2 g3 g4 g5 g6 g7
    obtain ⟨out, j1, j2⟩ := (simP_scrapes m ryu css).ok_run g7 []
    obtain ⟨e2, out', j3, j4, j5⟩ := lost_scrapes m (k9 []).2.holds hd hff g1 (g2 b₁ (by simp))
      (fun b h => g2 b (by simp [h])) g3 g4 g5 (by simp only; omega)
    rw [scrapesOn_bytes, j3] at j1
    simp only [Prod.mk.injEq, true_and] at j1
    subst j1
    have : out = out' := by simpa [withW] using j4
    subst this
    rw [g1] at g5
    refine ⟨out, _, _, j2, j5, ?_, hreads bs₁ fun c h => g5 c ?_⟩
    · rw [show Name.text = Name.render from funext Name.text_eq]
      exact mixed_reads F hcb (fun c h => g5 c (by simp [h])) (g2 b₁ (by simp))
    · rw [List.flatMap_cons]
      exact List.mem_append.2 (.inl (List.mem_append.2 (.inr h)))

/-- C93, exactly, for any scrapes of which any may fail, and an encoder that is kept through all of them (`Gets`). After an error
the blocks of the message that was not written in full stay in the buffer, and join the first message of the calls that follow;
if that cannot be written either, all of them join the next one, and so on. Nothing else differs from what was collected. -/
theorem C93_attempts {ryu : F64 → Bytes} {rf : Bytes → Option F64} (F : FloatText ryu rf) (m : Mode)
    (css : List (List EncCall)) (e : ProtoEnc Sink) (he : Spec.Clean e) (hfirst : ∀ cs ∈ css, ∀ c ∈ cs.head?, IsHead c)
    (hc : ∀ c ∈ css.flatten, NoHistCall c) (hs : (css.flatten.map (callSize (labelText ryu))).sum < 2 ^ 64) :
    ∃ out, (attempts m ryu css e).2.writer.out = e.writer.out ++ out ∧
      Gets rf Name.text [] [] css (attempts m ryu css e).1 out := by
  rw [show Name.text = Name.render from funext Name.text_eq]
  refine attempts_gets F m css (lf := []) (out := []) ⟨?_, by simp, by simp⟩ rfl (by simp) (by simp) (by simp) hfirst hc
    (by simp only [encFields_nil, List.length_nil, List.map_nil, List.sum_nil, Nat.zero_add]; exact hs)
  have := he.holds []
  simpa [withW, Abs.flush] using this

/-- A writer whose first call fails after two bytes. -/
def exFailing : Sink := ⟨[], 0, fun i => if i = 0 then some 2 else none⟩

def exScrapeA : List EncCall := [.help (.str b!"a") b!"A", .type .counter (.str b!"a"), .sample (.counter 1) [] (.str b!"a")]
def exScrapeB : List EncCall := [.type .gauge (.str b!"b"), .sample (.gauge (-1)) [] (.str b!"b")]

/-- C93 as stated is false: the first scrape, of a counter `a`, fails; the second one, of a gauge `b`, succeeds and shows one
family `b`, with the help text of `a` and a first sample which is the counter of `a`. -/
theorem C93_reuse_refuted (m : Mode) :
    (scrapeOn m exRyu exScrapeA (ProtoEnc.new exFailing)).1 = .err ∧
      (attempts m exRyu [exScrapeA, exScrapeB] (ProtoEnc.new exFailing)).1 = [.err, .ok ()] ∧
      ((attempts m exRyu [exScrapeA, exScrapeB] (ProtoEnc.new exFailing)).2.writer.out.take 2 =
        (scrapeOn m exRyu exScrapeA (ProtoEnc.new exFailing)).2.writer.out) ∧
      decodeScrape ((attempts m exRyu [exScrapeA, exScrapeB] (ProtoEnc.new exFailing)).2.writer.out.drop 2) =
        some [⟨some b!"b", some b!"A", some 1,
          [⟨[], none, some (some F64.one)⟩, ⟨[], some (some (F64.ofInt (-1))), none⟩]⟩] :=
  ⟨by cases m <;> decide +kernel, by cases m <;> decide +kernel, by cases m <;> decide +kernel,
    by cases m <;> decide +kernel⟩

/-- What the second scrape should have shown. -/
example (m : Mode) : decodeScrape (scrapeOn m exRyu exScrapeB (ProtoEnc.new ([] : Bytes))).2.writer =
    some [⟨some b!"b", none, some 1, [⟨[], some (some (F64.ofInt (-1))), none⟩]⟩] := by
  cases m <;> decide +kernel

example : Spec.Clean (ProtoEnc.new exFailing) := ⟨rfl, .inl rfl⟩
example : ∀ cs ∈ [exScrapeA, exScrapeB], ∀ c ∈ cs.head?, IsHead c := by simp [exScrapeA, exScrapeB, IsHead]
example : ∀ c ∈ [exScrapeA, exScrapeB].flatten, NoHistCall c := by simp [exScrapeA, exScrapeB, NoHistCall, Metric.kind]
example : ([exScrapeA, exScrapeB].flatten.map (callSize (labelText exRyu))).sum < 2 ^ 64 := by decide +kernel
example : [exScrapeB].flatten =
    ([⟨[.type .gauge (.str b!"b")], [(([], .gauge (-1)), .str b!"b")]⟩] : List Block).flatMap Block.calls ++ [] := rfl
example : ((⟨[.type .gauge (.str b!"b")], [(([], .gauge (-1)), .str b!"b")]⟩ : Block)).Wf :=
  ⟨by simp [IsHead], by simp, by simp⟩
/-- The scrape after the failing one is answered with Ok. -/
example (m : Mode) : (scrapesOn m exRyu [exScrapeB] (scrapeOn m exRyu exScrapeA (ProtoEnc.new exFailing)).2).1 = .ok () := by
  cases m <;> decide +kernel
/-- Two scrapes without errors. -/
example (m : Mode) : (scrapesOn m exRyu [exScrapeA, exScrapeB] (ProtoEnc.new (⟨[], 1, exFailing.fail⟩ : Sink))).1 = .ok () := by
  cases m <;> decide +kernel
/-- Two scrapes of which the second one fails. -/
example (m : Mode) : (scrapesOn m exRyu [exScrapeA, exScrapeB]
    (ProtoEnc.new (⟨[], 0, fun i => if i = 1 then some 3 else none⟩ : Sink))).1 = .err := by
  cases m <;> decide +kernel

/-- Two scrapes that fail, and a third one that shows what was collected in all of them as one family. -/
example (m : Mode) :
    (attempts m exRyu [exScrapeA, exScrapeB, exScrapeB] (ProtoEnc.new (⟨[], 0, fun i => if i < 2 then some 0 else none⟩ : Sink))).1 =
        [.err, .err, .ok ()] ∧
      decodeScrape (attempts m exRyu [exScrapeA, exScrapeB, exScrapeB]
          (ProtoEnc.new (⟨[], 0, fun i => if i < 2 then some 0 else none⟩ : Sink))).2.writer.out =
        some [⟨some b!"b", some b!"A", some 1, [⟨[], none, some (some F64.one)⟩, ⟨[], some (some (F64.ofInt (-1))), none⟩,
          ⟨[], some (some (F64.ofInt (-1))), none⟩]⟩] :=
  ⟨by cases m <;> decide +kernel, by cases m <;> decide +kernel⟩

end Measured
