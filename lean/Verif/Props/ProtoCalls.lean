import Verif.Props.Proto
import Verif.Proof.ProtoCalls

/-! # The protobuf exposition of arbitrary call sequences (C43, C44) -/

set_option exponentiation.threshold 3000

namespace Measured
open Measured.Spec Measured.Proto F64

/-- Every sequence of calls that does not start with a sample is a sequence of blocks (heads and then samples),
followed by heads. -/
theorem C44_blocks (cs : List EncCall) (h : ∀ c ∈ cs.head?, IsHead c) :
    ∃ (bs : List Block) (tail : List EncCall), cs = bs.flatMap Block.calls ++ tail ∧ (∀ b ∈ bs, b.Wf) ∧
      ∀ c ∈ tail, IsHead c :=
  blocks_exist cs h

/-- C44, exactly, for any sequence of scrapes by one encoder, of any calls without histograms, of which no scrape starts with
a sample: the whole output decodes to one message per block, in order; with the samples of the block, the last help
and the last type of its heads, and the name of that help or else of that type. Blocks are those of the calls of all
scrapes one after another: what one scrape leaves pending belongs to the first block of the next one. -/
theorem C44_exact {ryu : F64 → Bytes} {rf : Bytes → Option F64} (F : FloatText ryu rf) (m : Mode)
    (css : List (List EncCall)) (bs : List Block) (tail : List EncCall) (e : ProtoEnc Bytes) (he : Spec.Clean e)
    (hb : css.flatten = bs.flatMap Block.calls ++ tail) (hw : ∀ b ∈ bs, b.Wf) (ht : ∀ c ∈ tail, IsHead c)
    (hfirst : ∀ cs ∈ css, ∀ c ∈ cs.head?, IsHead c) (hc : ∀ c ∈ css.flatten, NoHistCall c)
    (hs : (css.flatten.map (callSize (labelText ryu))).sum < 2 ^ 64) :
    ∃ e' out gs, runScrapes m ryu css e = (.ok (), e') ∧ e'.writer = e.writer ++ out ∧ decodeScrape out = some gs ∧
      List.Forall₂ (BlockReads rf Name.text) bs gs := by
  have h0 : Holds e ⟨.init, [], e.writer⟩ := by
    obtain ⟨h1, h2⟩ := he
    refine ⟨h1, rfl, ?_⟩
    rcases h2 with h2 | h2
    · exact .inl ⟨h2, rfl, rfl⟩
    · exact .inr ⟨e.buf, h2, by simp [encFields_nil]⟩
  obtain ⟨e', h1, h2⟩ := scrapes_run m ryu css h0 (by rw [Abs.flush, if_neg (by simp)]) hfirst
    (fun cs hcs c h => hc c (List.mem_flatten.2 ⟨cs, hcs, h⟩)) (by simpa [encFields_nil] using hs)
  rw [hb] at hc hs
  have hc' : ∀ c ∈ bs.flatMap Block.calls, NoHistCall c := fun c h => hc c (List.mem_append.2 (.inl h))
  rw [sum_calls_append] at hs
  obtain ⟨ms, e1, e2, e3⟩ := blocks_fold ryu e.writer tail ht bs e.writer hw hc' (by omega)
  refine ⟨e', _, _, h1, by rw [h2, hb, e1], messages_decode e2 e3, ?_⟩
  rw [show Name.text = Name.render from funext Name.text_eq]
  clear e3 e1 hs hw hb hc
  induction bs with
  | nil => exact .nil
  | cons b bs ih =>
    exact .cons (block_reads F fun c h => hc' c (List.mem_flatMap.2 ⟨b, by simp, h⟩))
      (ih fun c h => hc' c (by rw [List.flatMap_cons]; exact List.mem_append.2 (.inr h)))

/-- Two scrapes: the first one leaves a help text, which the second one overtakes for its samples. -/
def exScrapes : List (List EncCall) :=
  [[.help (.str b!"a") b!"A", .sample (.counter 1) [] (.str b!"a"), .help (.str b!"b") b!"B", .type .counter (.str b!"b")],
   [.type .gauge (.str b!"c"), .sample (.gauge (-1)) [(b!"l", .int 5)] (.str b!"c")]]

def exBlocks : List Block :=
  [⟨[.help (.str b!"a") b!"A"], [(([], .counter 1), .str b!"a")]⟩,
   ⟨[.help (.str b!"b") b!"B", .type .counter (.str b!"b"), .type .gauge (.str b!"c")],
    [(([(b!"l", .int 5)], .gauge (-1)), .str b!"c")]⟩]

example : exScrapes.flatten = exBlocks.flatMap Block.calls ++ [] := rfl
example : ∀ b ∈ exBlocks, b.Wf := by
  simp only [exBlocks, List.mem_cons, List.not_mem_nil, or_false, forall_eq_or_imp, forall_eq]
  exact ⟨⟨by simp [IsHead], by simp, by simp⟩, ⟨by simp [IsHead], by simp, by simp⟩⟩
example : ∀ cs ∈ exScrapes, ∀ c ∈ cs.head?, IsHead c := by simp [exScrapes, IsHead]
example : ∀ c ∈ exScrapes.flatten, NoHistCall c := by simp [exScrapes, NoHistCall, Metric.kind]
example : (exScrapes.flatten.map (callSize (labelText exRyu))).sum < 2 ^ 64 := by decide +kernel
example : decodeScrape (runScrapes .debug exRyu exScrapes (ProtoEnc.new ([] : Bytes))).2.writer =
    some [⟨some b!"a", some b!"A", none, [⟨[], none, some (some F64.one)⟩]⟩,
      ⟨some b!"b", some b!"B", some 1, [⟨[⟨some b!"l", some b!"5"⟩], some (some (F64.ofInt (-1))), none⟩]⟩] := by
  decide +kernel

end Measured
