import Verif.Proof.TextHist
import Verif.Proof.TextSink
import Verif.Proof.Utf8
import Verif.Props.Histogram

/-! # Properties of the text encoder (C26, C29, C31–C37, C49) -/

set_option exponentiation.threshold 3000

namespace Measured
open Measured.Spec F64

/-- The text of a name: namespaces, base name, suffixes (C40). -/
def Name.text (n : Name) : Bytes := qualifiedName n.namespaces n.base (n.suffixes.map Suffix.text)

theorem Name.text_eq (n : Name) : n.text = n.render := n.render_qualified.symm

/-! ## A formatter of floats that meets the contract, for the examples -/

/-- `e` and the bit pattern in decimal. -/
def exRyu (x : F64) : Bytes := 0x65 :: decDigits x.bits

def exRead : Bytes → Option F64
  | 0x65 :: ds =>
    match readDigits 0 ds with
    | some n => if h : n < 2 ^ 64 then some (canon ⟨n, h⟩) else none
    | none => none
  | _ => none

theorem exFloat : FloatText exRyu exRead where
  bytes x b hb := by
    rcases List.mem_cons.1 hb with rfl | hb
    · exact .inl (by decide)
    · have := decDigits_mem _ b hb
      left; simp [isLabelByte, this]
  notInt x := by
    show readInt (0x65 :: decDigits x.bits) = none
    simp [readInt, readDigits, inRange]
  read x := by
    simp only [exRead, exRyu, decDigits_read]
    have h : x.bits < 2 ^ 64 := x.lt
    rw [dif_pos h]
    rfl

/-! ## C31 -/

/-- A quote that is not preceded by an (unescaped) backslash. -/
def Spec.rawQuote : Bytes → Bool
  | [] => false
  | 0x5c :: _ :: rest => Spec.rawQuote rest
  | b :: rest => b == 0x22 || Spec.rawQuote rest

theorem rawQuote_escape (s : Bytes) : Spec.rawQuote (escape s) = false := by
  induction s with
  | nil => rfl
  | cons b bs ih =>
    have hcons : escape (b :: bs) = escByte b ++ escape bs := rfl
    rw [hcons]
    by_cases h1 : b = 0x5c
    · subst h1; simpa [escByte, Spec.rawQuote] using ih
    · by_cases h2 : b = 0x22
      · subst h2; simpa [escByte, Spec.rawQuote] using ih
      · by_cases h3 : b = 0x0a
        · subst h3; simpa [escByte, Spec.rawQuote] using ih
        · rw [escByte, if_neg h1, if_neg h2, if_neg h3]
          simp only [List.singleton_append]
          rw [Spec.rawQuote]
          · simp [h2, ih]
          · intro c rest hb _; exact h1 hb

/-- C31. What `write_label_str_value` appends to a buffer has no line feed and no unescaped quote, and the
reader of the format gets back the string from it, whatever follows the closing quote. -/
theorem C31_escape_lossless (s w : Bytes) :
    ∃ t, (writeLabelStrValue s : RS Bytes Unit) w = (.ok (), w ++ t) ∧ (∀ b ∈ t, b ≠ 0x0a) ∧
      Spec.rawQuote t = false ∧ ∀ rest, readQuoted (t ++ 0x22 :: rest) = some (s, rest) :=
  ⟨escape s, writeLabelStrValue_bytes s w, fun _ hb => escape_mem hb, rawQuote_escape s, readQuoted_escape s⟩

/-- C31. Distinct strings are written differently. -/
theorem C31_escape_injective (s s' w w' t : Bytes) (h : (writeLabelStrValue s : RS Bytes Unit) w = (.ok (), w ++ t))
    (h' : (writeLabelStrValue s' : RS Bytes Unit) w' = (.ok (), w' ++ t)) : s = s' := by
  rw [writeLabelStrValue_bytes] at h h'
  have e : escape s = t := by simpa using h
  have e' : escape s' = t := by simpa using h'
  have r := readQuoted_escape s []
  rw [e, ← e', readQuoted_escape s' []] at r
  simpa using r.symm

example : (writeLabelStrValue b!"a\"b\\c\nd" : RS Bytes Unit) b!"x=" = (.ok (), b!"x=a\\\"b\\\\c\\nd") := by
  decide +kernel

/-! ## C32 -/

/-- The value a reader should see. -/
def MValue.shown : MValue → Val
  | .int x => .int x
  | .float x => .float (canon x)

/-- C32. A sample is written as one line, which reads back as name, labels (in visiting order) and value. -/
theorem C32_sample_reads_back {ryu : F64 → Bytes} {rf : Bytes → Option F64} (F : FloatText ryu rf) (n : Name)
    (ls : Labels) (v : MValue) (st : TState) (w : Bytes) (hn : MetricNameRe n.text)
    (hl : ∀ l ∈ ls, LabelNameRe l.1) :
    ∃ line s, textValue ryu n ls v ⟨st, w⟩ = (.ok (), ⟨.metrics, w ++ line ++ b!"\n"⟩) ∧ (∀ b ∈ line, b ≠ 0x0a) ∧
      readSample rf line = some s ∧ s.name = n.text ∧ LabelsRead rf ls s.labels ∧ s.value = v.shown := by
  rw [n.text_eq] at hn ⊢
  refine ⟨sampleText ryu n ls v, ⟨n.render, textsOf ryu ls, valOf v⟩, ?_, sampleText_noNewline F v hn hl,
    readSample_text F n ls v hn hl, rfl, labelsRead_texts F ls, ?_⟩
  · rw [textValue_bytes]; simp [sampleLine]
  · cases v <;> rfl

/-- What `LabelsRead` says: the same names in the same order, and string labels byte for byte. -/
theorem C32_labels_meaning {rf : Bytes → Option F64} {ls : Labels} {texts : List (Bytes × Bytes)}
    (h : LabelsRead rf ls texts) : texts.map Prod.fst = ls.map Prod.fst ∧
      ∀ (i : Nat) (s : Bytes) (n : Bytes), ls[i]? = some (n, .str s) → texts[i]? = some (n, s) := by
  induction h with
  | nil => simp
  | cons hd tl ih =>
    refine ⟨by simp [hd.1, ih.1], ?_⟩
    intro i s n hi
    cases i with
    | zero =>
      simp only [List.getElem?_cons_zero, Option.some.injEq] at hi ⊢
      rename_i l t _ _
      obtain ⟨l1, l2⟩ := l
      obtain ⟨t1, t2⟩ := t
      simp only [Prod.mk.injEq] at hi
      obtain ⟨rfl, rfl⟩ := hi
      simp only [LabelReads] at hd
      rw [hd.1, hd.2]
    | succ i => simpa using ih.2 i s n (by simpa using hi)

example : (textValue exRyu (.ns b!"app" (.str b!"hits")) [(b!"path", .str b!"a\"b"), (b!"code", .int (-7))] (.int 42)
    ⟨.info, []⟩).2.writer = b!"app_hits{path=\"a\\\"b\",code=\"-7\"} 42\n" := by decide +kernel
example : readSample exRead b!"app_hits{path=\"a\\\"b\",code=\"-7\"} 42" =
    some ⟨b!"app_hits", [(b!"path", b!"a\"b"), (b!"code", b!"-7")], .int 42⟩ := by decide +kernel

/-! ## C35 -/

/-- C35 fails from 2^63 on: the sample of such a counter shows a negative number. -/
theorem C35_counter_value_refuted {ryu : F64 → Bytes} {rf : Bytes → Option F64} (F : FloatText ryu rf) (m : Mode)
    (c : Nat) (h1 : 2 ^ 63 ≤ c) (h2 : c < 2 ^ 64) (n : Name) (ls : Labels) (st : TState) (w : Bytes)
    (hn : MetricNameRe n.text) (hl : ∀ l ∈ ls, LabelNameRe l.1) :
    ∃ line s x, textSample m ryu (.counter c) ls n ⟨st, w⟩ = (.ok (), ⟨.metrics, w ++ line ++ b!"\n"⟩) ∧
      readSample rf line = some s ∧ s.value = .int x ∧ x < 0 ∧ x ≠ c := by
  obtain ⟨line, s, e1, _, e3, _, _, e6⟩ := C32_sample_reads_back F n ls (.int (asI64 c)) st w hn hl
  refine ⟨line, s, asI64 c, e1, e3, e6, ?_, ?_⟩
  · unfold asI64; rw [if_neg (by omega)]; omega
  · unfold asI64; rw [if_neg (by omega)]; omega

/-- C35 below 2^63 (missing: larger counts, for which it is false). -/
theorem C35_counter_value_partial {ryu : F64 → Bytes} {rf : Bytes → Option F64} (F : FloatText ryu rf) (m : Mode)
    (c : Nat) (h : c < 2 ^ 63) (n : Name) (ls : Labels) (st : TState) (w : Bytes)
    (hn : MetricNameRe n.text) (hl : ∀ l ∈ ls, LabelNameRe l.1) :
    ∃ line s, textSample m ryu (.counter c) ls n ⟨st, w⟩ = (.ok (), ⟨.metrics, w ++ line ++ b!"\n"⟩) ∧
      readSample rf line = some s ∧ s.value = .int c := by
  obtain ⟨line, s, e1, _, e3, _, _, e6⟩ := C32_sample_reads_back F n ls (.int (asI64 c)) st w hn hl
  refine ⟨line, s, e1, e3, ?_⟩
  rw [e6, asI64_small h]
  rfl

example : (textSample .release exRyu (.counter (2 ^ 63)) [] (.str b!"c") ⟨.info, []⟩).2.writer =
    b!"c -9223372036854775808\n" := by decide +kernel
example : (textSample .release exRyu (.counter (2 ^ 63 - 1)) [] (.str b!"c") ⟨.info, []⟩).2.writer =
    b!"c 9223372036854775807\n" := by decide +kernel

/-! ## C34 -/

/-- C34, exactly: `write_help` ends as many lines as the help text has line feeds, plus one (plus the blank line
after samples). -/
theorem C34_help_lines (n : Name) (t : Bytes) (st : TState) (w : Bytes) (hn : MetricNameRe n.text) :
    ∃ out, textHelp n t ⟨st, w⟩ = (.ok (), ⟨.info, w ++ out⟩) ∧
      out.count 0x0a = (if st = .metrics then 1 else 0) + 1 + t.count 0x0a := by
  rw [n.text_eq] at hn
  refine ⟨sep st ++ helpLine n t, by rw [textHelp_bytes]; simp, ?_⟩
  have h0 : n.render.count 0x0a = 0 := List.count_eq_zero.2 fun h => name_noNewline hn _ h rfl
  simp only [helpLine, List.count_append, h0]
  cases st <;> simp [sep] <;> omega

/-- C34 is false: a help text with a line feed takes two lines, and the second one is not a line of the format. -/
theorem C34_help_refuted :
    ∃ (n : Name) (t : Bytes), MetricNameRe n.text ∧
      textHelp n t ⟨.info, []⟩ = (.ok (), ⟨.info, b!"# HELP a x\ny\n"⟩) ∧
      ∀ rf, readLine rf b!"y" = none := by
  refine ⟨.str b!"a", b!"x\ny", ⟨0x61, [], rfl, ⟨(0x61, 0x7a), by decide, by decide, by decide⟩, by simp⟩, by rfl, ?_⟩
  intro rf
  rfl

/-- C34 for help texts without line feed (missing: help texts with line feeds, for which it is false). -/
theorem C34_help_partial (n : Name) (t : Bytes) (w : Bytes) (hn : MetricNameRe n.text) (ht : (0x0a : Byte) ∉ t) :
    ∃ line, textHelp n t ⟨.info, w⟩ = (.ok (), ⟨.info, w ++ line ++ b!"\n"⟩) ∧ ∀ b ∈ line, b ≠ 0x0a := by
  rw [n.text_eq] at hn
  refine ⟨helpText n t, ?_, helpText_noNewline hn ht⟩
  rw [textHelp_bytes, helpLine_eq]; simp [sep]

example : textHelp (.str b!"a") b!"x y" ⟨.metrics, b!"z 1\n"⟩ = (.ok (), ⟨.info, b!"z 1\n\n# HELP a x y\n"⟩) := by rfl

/-! ## C33 -/

/-- C33 is false for help texts with a backslash: the reader gets another text, since `\` is written as it is. -/
theorem C33_help_backslash_refuted :
    ∃ f : FamilyIn, MetricNameRe f.name.text ∧ f.help = some b!"a\\nb" ∧ f.samples = [] ∧
      ∀ m ryu rf, ∃ out st, (textEncoder m ryu).runAll f.calls ⟨.info, []⟩ = (.ok (), ⟨st, out⟩) ∧
        readFamilies rf out = some [⟨b!"a", some b!"a\nb", some .counter, []⟩] := by
  refine ⟨⟨.str b!"a", some b!"a\\nb", .counter, []⟩,
    ⟨0x61, [], rfl, ⟨(0x61, 0x7a), by decide, by decide, by decide⟩, by simp⟩, rfl, rfl, ?_⟩
  intro m ryu rf
  exact ⟨b!"# HELP a a\\nb\n# TYPE a counter\n", .info, rfl, rfl⟩

/-- C33 for families whose help has no line feed, no backslash and no leading blank and whose counts are below
2^63 (`FamilyOk`; missing: other help texts and larger counts, for which it is false). Everything written by a
fresh encoder reads back as the families, in order. The lines are the blocks of the families, with one blank line
after each block that has samples except the last one, and with no blank line inside a block. -/
theorem C33_exposition_partial {ryu : F64 → Bytes} {rf : Bytes → Option F64} (F : FloatText ryu rf) (m : Mode)
    (fs : List FamilyIn) (h : ∀ f ∈ fs, FamilyOk f) :
    ∃ st out gs blocks, (textEncoder m ryu).runAll (fs.flatMap FamilyIn.calls) (TextEnc.new []) = (.ok (), ⟨st, out⟩) ∧
      readFamilies rf out = some gs ∧ List.Forall₂ (fun f g => FamilyReads rf f.name.text f g) fs gs ∧
      readLines rf out = some (joinBlocks blocks) ∧
      List.Forall₂ (fun b g => b.foldl consume [] = [g] ∧ Line.blank ∉ b) blocks gs := by
  obtain ⟨st, hrun⟩ := runFamilies_bytes m ryu fs (fun f hf s hs => ((h f hf).fits s hs).sizeOk) (TextEnc.new [])
  have hread := allLines_read F fs h .info
  have hlines : readLines rf (unlines ((allLines ryu .info fs).map Prod.fst)) =
      some ((allLines ryu .info fs).map Prod.snd) :=
    readLines_unlines _ (fun p hp => (hread p hp).1) (fun p hp => (hread p hp).2)
  refine ⟨st, _, fs.map (famRead ryu), fs.map fun f => (famLines ryu f).map Prod.snd, hrun, ?_, ?_, ?_, ?_⟩
  · show readFamilies rf (unlines ((allLines ryu .info fs).map Prod.fst)) = _
    unfold readFamilies
    rw [hlines, Option.map_some, consume_all fs (fun f hf => (h f hf).kind) .info [] trivial]
    simp
  · induction fs with
    | nil => exact .nil
    | cons f fs ih =>
      refine .cons ?_ ?_
      · rw [f.name.text_eq]; exact famRead_reads F (h f (by simp))
      · clear ih
        have h' : ∀ f ∈ fs, FamilyOk f := fun x hx => h x (by simp [hx])
        clear hrun hread hlines h
        induction fs with
        | nil => exact .nil
        | cons f fs ih =>
          refine .cons ?_ (ih fun x hx => h' x (by simp [hx]))
          rw [f.name.text_eq]; exact famRead_reads F (h' f (by simp))
  · show readLines rf (unlines ((allLines ryu .info fs).map Prod.fst)) = _
    rw [hlines, allLines_join]
    simp
  · clear hrun hread hlines
    induction fs with
    | nil => exact .nil
    | cons f fs ih =>
      exact .cons ⟨consume_family (h f (by simp)).kind [] trivial, famLines_noBlank ryu f⟩
        (ih fun x hx => h x (by simp [hx]))

/-- Two families, the second one a histogram with help. -/
def exFamilies : List FamilyIn :=
  [⟨.str b!"hits", none, .counter, [([(b!"path", .str b!"/\"a\"")], .counter 3), ([(b!"path", .str b!"/b")], .counter 4)]⟩,
   ⟨.str b!"lat", some b!"how long", .histogram, [([], .histogram [F64.one] ⟨[2], 1, F64.one⟩)]⟩]

theorem exFamilies_ok : ∀ f ∈ exFamilies, FamilyOk f := by
  intro f hf
  simp only [exFamilies, List.mem_cons, List.not_mem_nil, or_false] at hf
  rcases hf with rfl | rfl
  · refine ⟨?_, by simp, ?_, ?_, ?_⟩
    · refine ⟨0x68, b!"its", rfl, ⟨(0x61, 0x7a), by decide, by decide, by decide⟩, ?_⟩
      intro x hx
      refine ⟨(0x61, 0x7a), by decide, ?_⟩
      revert x
      decide
    · intro s hs; simp at hs; rcases hs with rfl | rfl <;> rfl
    · have hp : LabelNameRe b!"path" := by
        refine ⟨0x70, b!"ath", rfl, ⟨(0x61, 0x7a), by decide, by decide, by decide⟩, ?_⟩
        intro x hx
        refine ⟨(0x61, 0x7a), by decide, ?_⟩
        revert x
        decide
      intro s hs l hl
      simp only [List.mem_cons, List.not_mem_nil, or_false] at hs
      rcases hs with rfl | rfl
      · simp only [List.mem_singleton] at hl; subst hl; exact hp
      · simp only [List.mem_singleton] at hl; subst hl; exact hp
    · intro s hs
      simp only [List.mem_cons, List.not_mem_nil, or_false] at hs
      rcases hs with rfl | rfl
      · show 3 < 2 ^ 63; decide
      · show 4 < 2 ^ 63; decide
  · refine ⟨?_, ?_, ?_, ?_, ?_⟩
    · refine ⟨0x6c, b!"at", rfl, ⟨(0x61, 0x7a), by decide, by decide, by decide⟩, ?_⟩
      intro x hx
      refine ⟨(0x61, 0x7a), by decide, ?_⟩
      revert x
      decide
    · intro t ht
      cases ht
      exact ⟨by decide, by decide, by intro b bs e; cases e; rfl⟩
    · intro s hs; simp only [List.mem_singleton] at hs; subst hs; rfl
    · intro s hs; simp only [List.mem_singleton] at hs; subst hs; intro l hl; cases hl
    · intro s hs; simp only [List.mem_singleton] at hs; subst hs
      exact ⟨rfl, by decide⟩

example : ((textEncoder .debug exRyu).runAll (exFamilies.flatMap FamilyIn.calls) (TextEnc.new [])).2.writer =
    b!"# TYPE hits counter\nhits{path=\"/\\\"a\\\"\"} 3\nhits{path=\"/b\"} 4\n\n# HELP lat how long\n# TYPE lat histogram\nlat_bucket{le=\"e4607182418800017408\"} 2\nlat_bucket{le=\"+Inf\"} 3\nlat_sum e4607182418800017408\nlat_count 3\n" := by
  decide +kernel

/-! ## C29 -/

/-- The samples of a histogram: one bucket per bound with the given counts, an `+Inf` bucket, sum and count. -/
def Spec.histogramShape (n : Bytes) (ls : Labels) (bounds : List F64) (counts : List Int) (sum : F64) (count : Int) :
    List Expected :=
  List.zipWith (fun b c => ⟨n ++ b!"_bucket", ls ++ [(b!"le", .float b)], .int c⟩) bounds counts ++
  [⟨n ++ b!"_sum", ls, .float (canon sum)⟩, ⟨n ++ b!"_count", ls, .int count⟩]

/-- C29, shape. For every histogram state whatever its counts: if `collect_into` succeeds (which it always does
in release builds), the lines are exactly the `N` buckets in threshold order, the `+Inf` bucket, `_sum` and
`_count`, with the same labels apart from `le`, and the `+Inf` bucket shows the same number as `_count`. -/
theorem C29_shape {ryu : F64 → Bytes} {rf : Bytes → Option F64} (F : FloatText ryu rf) (m : Mode)
    (le : List F64) (h : HistInner) (hl : le.length = h.buckets.length) (ls : Labels) (n : Name) (st : TState) (w : Bytes)
    (hn : MetricNameRe n.text) (hls : ∀ l ∈ ls, LabelNameRe l.1) :
    (m = .release → (textSample m ryu (.histogram le h) ls n ⟨st, w⟩).1 = .ok ()) ∧
    ((textSample m ryu (.histogram le h) ls n ⟨st, w⟩).1 = .ok () →
      ∃ out samples, ∃ counts : List Int, ∃ total : Int,
        (textSample m ryu (.histogram le h) ls n ⟨st, w⟩).2.writer = w ++ out ∧
        readLines rf out = some (samples.map .sample) ∧
        counts.length = le.length + 1 ∧ counts.getLast? = some total ∧
        List.Forall₂ (SampleReads rf) (histogramShape n.text ls (le ++ [F64.inf false]) counts h.sum total) samples) := by
  rw [n.text_eq] at hn ⊢
  obtain ⟨h1, h2⟩ := histogram_gen m ryu n ls le h ⟨st, w⟩ hl
  refine ⟨h1, fun hok => ?_⟩
  obtain ⟨counts, total, c1, c2, c3⟩ := h2 hok
  have hval : ∀ s ∈ bucketWritten n ls (le ++ [F64.infinity]) counts ++
      ([⟨.suffix n .sum, ls, .float h.sum⟩, ⟨.suffix n .count, ls, .int (asI64 total)⟩] : List Written), s.valid := by
    intro s hs
    rcases List.mem_append.1 hs with hs | hs
    · exact bucketWritten_valid hn hls _ _ s hs
    · simp only [List.mem_cons, List.not_mem_nil, or_false] at hs
      rcases hs with rfl | rfl
      · exact ⟨suffix_valid hn _, hls⟩
      · exact ⟨suffix_valid hn _, hls⟩
  refine ⟨_, _, counts.map asI64, asI64 total, congrArg TextEnc.writer c3, readLines_written F _ hval, by simp [c1],
    by simp [c2], ?_⟩
  rw [List.map_append]
  exact List.rel_append (bucketWritten_reads F n ls _ _)
    (.cons ⟨rfl, labelsRead_texts F _, rfl⟩ (.cons ⟨rfl, labelsRead_texts F _, rfl⟩ .nil))

/-- C29, the counts. As long as the total is below 2^63 (missing: larger totals, for which it is false) the
counts are the running totals, hence non-decreasing, and the last two counts are the total. -/
theorem C29_counts_partial {ryu : F64 → Bytes} {rf : Bytes → Option F64} (F : FloatText ryu rf) (m : Mode)
    (le : List F64) (h : HistInner) (hl : le.length = h.buckets.length) (hsum : h.buckets.sum + h.inf < 2 ^ 63)
    (ls : Labels) (n : Name) (st : TState) (w : Bytes) (hn : MetricNameRe n.text) (hls : ∀ l ∈ ls, LabelNameRe l.1) :
    ∃ out samples, ∃ counts : List Nat,
      textSample m ryu (.histogram le h) ls n ⟨st, w⟩ = (.ok (), ⟨.metrics, w ++ out⟩) ∧
      readLines rf out = some (samples.map .sample) ∧
      counts.length = le.length + 1 ∧ counts.Pairwise (· ≤ ·) ∧ counts.getLast? = some (h.buckets.sum + h.inf) ∧
      (∀ i, i < le.length → counts[i]? = some (h.buckets.take (i + 1)).sum) ∧
      List.Forall₂ (SampleReads rf) (histogramShape n.text ls (le ++ [F64.inf false]) (counts.map Int.ofNat) h.sum
        (h.buckets.sum + h.inf : Nat)) samples := by
  rw [n.text_eq] at hn ⊢
  have hfit : Fits (.histogram le h) := ⟨hl, hsum⟩
  refine ⟨_, _, ((List.range le.length).map fun i => (h.buckets.take (i + 1)).sum) ++ [h.buckets.sum + h.inf],
    textSample_bytes m ryu _ ls n _ hfit.sizeOk, readLines_written F _ (writtenOf_valid hn hls _), by simp, ?_, by simp,
    ?_, ?_⟩
  · rw [List.pairwise_append]
    refine ⟨?_, by simp, ?_⟩
    · rw [List.pairwise_map]
      refine List.pairwise_lt_range.imp ?_
      intro a b hab
      have := sum_take_le (h.buckets.take (b + 1)) (a + 1)
      rwa [List.take_take, Nat.min_eq_left (by omega)] at this
    · intro a ha b hb
      obtain ⟨i, _, rfl⟩ := List.mem_map.1 ha
      simp only [List.mem_singleton] at hb
      subst hb
      have := sum_take_le h.buckets (i + 1)
      omega
  · intro i hi
    rw [List.getElem?_append_left (by simpa using hi)]
    simp [hi]
  · have hexp := written_expected F n ls _ hfit
    have : expected n.render ls (.histogram le h) = histogramShape n.render ls (le ++ [F64.inf false])
        ((((List.range le.length).map fun i => (h.buckets.take (i + 1)).sum) ++ [h.buckets.sum + h.inf]).map Int.ofNat)
        h.sum (h.buckets.sum + h.inf : Nat) := by
      simp only [expected, histogramShape, List.map_append]
      rw [List.zipWith_append (by simp)]
      simp only [List.map_cons, List.map_nil, List.zipWith_cons_cons, List.zipWith_nil_right, List.append_assoc]
      congr 1
      apply List.ext_getElem?
      intro i
      simp only [List.getElem?_mapIdx, List.getElem?_zipWith, List.getElem?_map]
      by_cases hi : i < le.length
      · simp [hi]
      · simp [hi]
    rw [← this]
    exact hexp

/-- C29 is false for larger totals: here a bucket with 2^63 - 1 observations is followed by a `+Inf` bucket and a
count that show a negative number. -/
theorem C29_counts_refuted {ryu : F64 → Bytes} {rf : Bytes → Option F64} (F : FloatText ryu rf) (m : Mode) :
    ∃ le h, StrictlyIncreasing le ∧ le.length = h.buckets.length ∧ h.buckets.sum + h.inf < 2 ^ 64 ∧
      ∃ out s1 s2 rest, textSample m ryu (.histogram le h) [] (.str b!"h") (TextEnc.new []) = (.ok (), ⟨.metrics, out⟩) ∧
        readLines rf out = some (.sample s1 :: .sample s2 :: rest) ∧
        s1.value = .int (2 ^ 63 - 1) ∧ s2.value = .int (-2 ^ 63) := by
  refine ⟨[F64.one], ⟨[2 ^ 63 - 1], 1, F64.one⟩, ?_, rfl, by decide, ?_⟩
  · intro i j x y hij hx hy
    have h1 := (List.getElem?_eq_some_iff.1 hx).1
    have h2 := (List.getElem?_eq_some_iff.1 hy).1
    simp only [List.length_singleton] at h1 h2
    omega
  · have hn : MetricNameRe (Name.str b!"h").render :=
      ⟨0x68, [], rfl, ⟨(0x61, 0x7a), by decide, by decide, by decide⟩, by simp⟩
    refine ⟨_, _, _, _, textSample_bytes m ryu _ [] _ _ (show SizeOk _ from ⟨rfl, by decide⟩),
      readLines_written F _ (writtenOf_valid hn (by intro l hl; cases hl) _), ?_, ?_⟩
    · rfl
    · rfl

/-! ## C26 -/

/-- C26, exactly what is shown, for all observations including NaN and all non-decreasing thresholds: the bucket
of the bound `b` counts the observations that are not above `b`. -/
theorem C26_not_above {ryu : F64 → Bytes} {rf : Bytes → Option F64} (F : FloatText ryu rf) (m : Mode)
    (le xs : List F64) (hle : NonDecreasing le) (hx : xs.length < 2 ^ 63)
    (ls : Labels) (n : Name) (st : TState) (w : Bytes) (hn : MetricNameRe n.text) (hls : ∀ l ∈ ls, LabelNameRe l.1) :
    ∃ h out samples, histObserveAll le (HistInner.default le.length) xs = .ok h ∧
      textSample m ryu (.histogram le h) ls n ⟨st, w⟩ = (.ok (), ⟨.metrics, w ++ out⟩) ∧
      readLines rf out = some (samples.map .sample) ∧
      List.Forall₂ (SampleReads rf) (histogramShape n.text ls (le ++ [F64.inf false])
        ((le.map fun b => ((xs.filter fun x => !flt b x).length : Int)) ++ [(xs.length : Int)])
        (xs.foldl F64.add F64.pzero) xs.length) samples := by
  rw [Spec.NonDecreasing.iff_pairwise] at hle
  obtain ⟨h, he, ha⟩ := histAfter_all hle xs [] _ (histAfter_default le)
  rw [List.nil_append] at ha
  have hW : (2 : Nat) ^ 63 < W64 := by decide
  obtain ⟨hc, ht⟩ := histAfter_counts hle ha (by omega)
  have hl : le.length = h.buckets.length := by rw [ha.buckets]; simp
  obtain ⟨out, samples, counts, e1, e2, c1, _, c3, c4, e3⟩ :=
    C29_counts_partial F m le h hl (by omega) ls n st w hn hls
  refine ⟨h, out, samples, he, e1, e2, ?_⟩
  have hcounts : counts.map Int.ofNat =
      (le.map fun b => ((xs.filter fun x => !flt b x).length : Int)) ++ [(xs.length : Int)] := by
    apply List.ext_getElem?
    intro i
    by_cases hi : i < le.length
    · rw [List.getElem?_map, c4 i hi, List.getElem?_append_left (by simpa using hi), List.getElem?_map,
        List.getElem?_eq_getElem hi]
      rw [hc i le[i] (List.getElem?_eq_getElem hi)]
      simp [notAbove, List.countP_eq_length_filter]
    · rw [List.getElem?_append_right (by simp; omega)]
      by_cases hi2 : i = le.length
      · subst hi2
        rw [List.getLast?_eq_getElem?, c1, Nat.add_sub_cancel] at c3
        rw [List.getElem?_map, c3, ht]
        simp
      · rw [List.getElem?_eq_none (by simp; omega), List.getElem?_eq_none (by simp; omega)]
  rw [hcounts, ha.sum, ht] at e3
  exact e3

/-- C26 is false for NaN: it is counted in the bucket of 1.0, although it is not at or below 1.0. -/
theorem C26_nan_refuted : ∃ h, histObserveAll [F64.one] (HistInner.default 1) [F64.nan] = .ok h ∧
    h.buckets = [1] ∧ atMost F64.one [F64.nan] = 0 := by
  refine ⟨_, rfl, ?_, ?_⟩ <;> decide +kernel

/-- C26 without NaN (missing: observations or a single threshold that are NaN, for which it is false, and 2^63 or
more observations, see C35): the bucket of the bound `b` shows the number of observations at or below `b`, the
`+Inf` bucket and `_count` show the number of all observations. -/
theorem C26_counts_partial {ryu : F64 → Bytes} {rf : Bytes → Option F64} (F : FloatText ryu rf) (m : Mode)
    (le xs : List F64) (hle : StrictlyIncreasing le) (hx : xs.length < 2 ^ 63)
    (hnan : ∀ b ∈ le, b.isNaN = false) (hxs : ∀ x ∈ xs, x.isNaN = false)
    (ls : Labels) (n : Name) (st : TState) (w : Bytes) (hn : MetricNameRe n.text) (hls : ∀ l ∈ ls, LabelNameRe l.1) :
    ∃ h out samples, histObserveAll le (HistInner.default le.length) xs = .ok h ∧
      textSample m ryu (.histogram le h) ls n ⟨st, w⟩ = (.ok (), ⟨.metrics, w ++ out⟩) ∧
      readLines rf out = some (samples.map .sample) ∧
      List.Forall₂ (SampleReads rf) (histogramShape n.text ls (le ++ [F64.inf false])
        ((le.map fun b => (atMost b xs : Int)) ++ [(xs.length : Int)])
        (xs.foldl F64.add F64.pzero) xs.length) samples := by
  obtain ⟨h, out, samples, e1, e2, e3, e4⟩ := C26_not_above F m le xs hle.nonDecreasing hx ls n st w hn hls
  refine ⟨h, out, samples, e1, e2, e3, ?_⟩
  have : (le.map fun b => ((xs.filter fun x => !flt b x).length : Int)) = le.map fun b => (atMost b xs : Int) := by
    apply List.map_congr_left
    intro b hb
    unfold atMost
    congr 2
    apply List.filter_congr
    intro x hx
    have := not_flt (hnan b hb) (hxs x hx)
    rw [Bool.eq_iff_iff, Bool.not_eq_true']
    exact this
  rw [← this]
  exact e4

example : ∃ h, histObserveAll [F64.one, exTwo] (HistInner.default 2) [exTwo, F64.one, F64.inf false] = .ok h ∧
    (textSample .debug exRyu (.histogram [F64.one, exTwo] h) [] (.str b!"h") (TextEnc.new [])).2.writer =
      b!"h_bucket{le=\"e4607182418800017408\"} 1\nh_bucket{le=\"e4611686018427387904\"} 2\nh_bucket{le=\"+Inf\"} 3\nh_sum e9218868437227405312\nh_count 3\n" :=
  ⟨_, rfl, by decide +kernel⟩

/-! ## C36 -/

/-- What a user does with a `BufferedTextEncoder`. -/
inductive TextOp where
  | call (c : EncCall)
  | finish

/-- The texts returned by the `finish` calls of a session. Calls are performed also after a call that panicked. -/
def textSession (m : Mode) (ryu : F64 → Bytes) : List TextOp → TextEnc Bytes → List (Out Bytes)
  | [], _ => []
  | .call c :: ops, e => textSession m ryu ops ((textEncoder m ryu).run c e).2
  | .finish :: ops, e => (textFinish e).1 :: textSession m ryu ops (textFinish e).2

/-- C36. The result of a `finish` is the result of a fresh encoder that gets the calls since the last `finish`,
whatever happened before (panics included). -/
theorem C36_reuse_after_finish (m : Mode) (ryu : F64 → Bytes) (before : List TextOp) (segments : List (List EncCall))
    (e : TextEnc Bytes) :
    textSession m ryu (before ++ .finish :: segments.flatMap fun cs => cs.map .call ++ [.finish]) e =
      textSession m ryu (before ++ [.finish]) e ++
        segments.flatMap fun cs => textSession m ryu (cs.map .call ++ [.finish]) (TextEnc.new []) := by
  have hcalls : ∀ (cs : List EncCall) (rest : List TextOp) (e : TextEnc Bytes),
      textSession m ryu (cs.map .call ++ .finish :: rest) e =
        textSession m ryu (cs.map .call ++ [.finish]) e ++ textSession m ryu rest (TextEnc.new []) := by
    intro cs rest
    induction cs with
    | nil => intro e; rfl
    | cons c cs ih => intro e; exact ih _
  induction before generalizing e with
  | nil =>
    show _ :: _ = _ :: _
    congr 1
    show textSession m ryu _ (TextEnc.new []) = _
    induction segments with
    | nil => rfl
    | cons cs segments ih =>
      rw [List.flatMap_cons, List.flatMap_cons, List.append_assoc, List.singleton_append, hcalls, ih]
      rfl
  | cons op before ih =>
    cases op with
    | call c => exact ih _
    | finish => exact congrArg (_ :: ·) (ih _)

/-! Runs do not depend on what is in the buffer. -/

theorem framed_bind {α β : Type} {x : RS (TextEnc Bytes) α} {f : α → RS (TextEnc Bytes) β}
    (hx : ∀ st, ∃ o st' out, ∀ b : Bytes, x ⟨st, b⟩ = (o, ⟨st', b ++ out⟩))
    (hf : ∀ a st, ∃ o st' out, ∀ b : Bytes, f a ⟨st, b⟩ = (o, ⟨st', b ++ out⟩)) (st : TState) :
    ∃ o st' out, ∀ b : Bytes, (x >>= f) ⟨st, b⟩ = (o, ⟨st', b ++ out⟩) := by
  obtain ⟨o, st1, out, h1⟩ := hx st
  cases o with
  | ok a =>
    obtain ⟨o2, st2, out2, h2⟩ := hf a st1
    exact ⟨o2, st2, out ++ out2, fun b => by rw [RS.bind_ok (h1 b), h2, List.append_assoc]⟩
  | err => exact ⟨.err, st1, out, fun b => by rw [RS.bind_run, h1]⟩
  | panic => exact ⟨.panic, st1, out, fun b => by rw [RS.bind_run, h1]⟩

theorem framed_value (ryu : F64 → Bytes) (n : Name) (ls : Labels) (v : MValue) (st : TState) :
    ∃ o st' out, ∀ b : Bytes, textValue ryu n ls v ⟨st, b⟩ = (o, ⟨st', b ++ out⟩) :=
  ⟨_, _, _, fun b => textValue_bytes ryu n ls v ⟨st, b⟩⟩

theorem framed_out {α : Type} (o : Out α) (st : TState) :
    ∃ o' st' out, ∀ b : Bytes, (RS.lift o : RS (TextEnc Bytes) α) ⟨st, b⟩ = (o', ⟨st', b ++ out⟩) :=
  ⟨o, st, [], fun b => by simp⟩

theorem framed_buckets (m : Mode) (ryu : F64 → Bytes) (n : Name) (ls : Labels) :
    ∀ (les : List F64) (bs : List Nat) (v : Nat) (st : TState),
      ∃ o st' out, ∀ b : Bytes, textBuckets m ryu n ls les bs v ⟨st, b⟩ = (o, ⟨st', b ++ out⟩) := by
  intro les
  induction les with
  | nil => intro bs v st; cases bs <;> exact framed_out (.ok v) st
  | cons le les ih =>
    intro bs v
    cases bs with
    | nil => exact framed_out (.ok v)
    | cons b bs =>
      exact framed_bind (framed_out _) fun a => framed_bind (framed_value _ _ _ _) fun _ => ih bs a

theorem framed_run (m : Mode) (ryu : F64 → Bytes) (c : EncCall) (st : TState) :
    ∃ o st' out, ∀ b : Bytes, (textEncoder m ryu).run c ⟨st, b⟩ = (o, ⟨st', b ++ out⟩) := by
  cases c with
  | help n t => exact ⟨.ok (), .info, sep st ++ helpLine n t, fun b => by
      rw [← List.append_assoc]; exact textHelp_bytes n t ⟨st, b⟩⟩
  | type k n => exact ⟨.ok (), .info, sep st ++ typeLine n (textKind k), fun b => by
      rw [← List.append_assoc]; exact textType_bytes n _ ⟨st, b⟩⟩
  | sample x ls n =>
    cases x with
    | histogram le h =>
      exact framed_bind (framed_buckets m ryu n ls _ _ _) (fun a => framed_bind (framed_out _) fun _ =>
        framed_bind (framed_value _ _ _ _) fun _ => framed_bind (framed_value _ _ _ _) fun _ => framed_value _ _ _ _) st
    | _ => exact framed_value _ _ _ _ st

/-- C36, `flush`. After `TextEncoder::flush` a sequence of calls appends what a fresh encoder would write, and
gives the same result. -/
theorem C36_reuse_after_flush (m : Mode) (ryu : F64 → Bytes) (cs : List EncCall) (e : TextEnc Bytes) :
    ∃ e1, textFlush e = (.ok (), e1) ∧
      (((textEncoder m ryu).runAll cs e1).1 = ((textEncoder m ryu).runAll cs (TextEnc.new ([] : Bytes))).1 ∧
       ((textEncoder m ryu).runAll cs e1).2.writer =
         e.writer ++ ((textEncoder m ryu).runAll cs (TextEnc.new ([] : Bytes))).2.writer) := by
  have key : ∀ (cs : List EncCall) (st : TState),
      ∃ o st' out, ∀ b : Bytes, (textEncoder m ryu).runAll cs ⟨st, b⟩ = (o, ⟨st', b ++ out⟩) := by
    intro cs
    induction cs with
    | nil => exact framed_out (.ok ())
    | cons c cs ih => exact framed_bind (framed_run m ryu c) fun _ => ih
  refine ⟨⟨.info, e.writer⟩, rfl, ?_⟩
  obtain ⟨o, st', out, h⟩ := key cs .info
  rw [h e.writer, show TextEnc.new [] = ⟨.info, []⟩ from rfl, h []]
  exact ⟨rfl, rfl⟩

example : textSession .debug exRyu [.call (.sample (.counter 1) [] (.str b!"a")), .finish,
    .call (.type .counter (.str b!"b")), .finish] (TextEnc.new []) =
    [.ok b!"a 1\n", .ok b!"# TYPE b counter\n"] := by decide +kernel

/-! ## C37 -/

theorem one_text : itoa (asI64 1) = b!"1" := by decide +kernel

/-- C37 is false: a writer that fails once while a label is written loses bytes, yet the result is `Ok`. -/
theorem C37_lost_bytes_refuted :
    ∃ s : Sink, ∃ e, ∀ m ryu,
      (textEncoder m ryu).run (.sample (.counter 1) [(b!"a", .str b!"b")] (.str b!"x")) (TextEnc.new s) = (.ok (), e) ∧
      e.writer.out = b!"x} 1\n" ∧
      ((textEncoder m ryu).run (.sample (.counter 1) [(b!"a", .str b!"b")] (.str b!"x")) (TextEnc.new [])).2.writer =
        b!"x{a=\"b\"} 1\n" := by
  refine ⟨⟨[], 0, fun i => if i = 1 then some 0 else none⟩,
    ⟨.metrics, ⟨b!"x} 1\n", 6, fun i => if i = 1 then some 0 else none⟩⟩, fun m ryu => ⟨?_, rfl, ?_⟩⟩
  · show textValue ryu _ _ (.int (asI64 1)) _ = _
    simp only [textValue, textNumber, one_text]; rfl
  · show (textValue ryu _ _ (.int (asI64 1)) _).2.writer = _
    simp only [textValue, textNumber, one_text]; rfl

/-- C37 for writers that keep failing once they have failed (missing: writers that recover, for which it is
false, unless nothing labelled is written, see below). -/
theorem C37_sticky_partial (m : Mode) (ryu : F64 → Bytes) (cs : List EncCall) (st : TState) (s : Sink)
    (hs : ∀ i j, i ≤ j → s.fail i ≠ none → s.fail j ≠ none) (e : TextEnc Sink)
    (hok : (textEncoder m ryu).runAll cs ⟨st, s⟩ = (.ok (), e)) :
    ∃ out, (textEncoder m ryu).runAll cs ⟨st, []⟩ = (.ok (), ⟨e.state, out⟩) ∧ e.writer.out = s.out ++ out := by
  simpa using simT_ok (simT_runAll (P := Sticky) m ryu cs fun c _ => simT_run_sticky m ryu c) hs hok []

/-- C37 for all writers and calls without labels (missing: labelled samples, for which it is false). -/
theorem C37_unlabelled_partial (m : Mode) (ryu : F64 → Bytes) (cs : List EncCall) (st : TState) (s : Sink)
    (hc : ∀ c ∈ cs, Unlabelled c) (e : TextEnc Sink)
    (hok : (textEncoder m ryu).runAll cs ⟨st, s⟩ = (.ok (), e)) :
    ∃ out, (textEncoder m ryu).runAll cs ⟨st, []⟩ = (.ok (), ⟨e.state, out⟩) ∧ e.writer.out = s.out ++ out := by
  simpa using simT_ok (simT_runAll (P := fun _ => True) m ryu cs fun c h => simT_run_unlabelled m ryu c (hc c h))
    trivial hok []

example : ((textEncoder .debug exRyu).runAll [.help (.str b!"x") b!"y", .sample (.counter 1) [] (.str b!"x")]
    (TextEnc.new ⟨[], 0, fun i => if i ≤ 8 then none else some 0⟩ : TextEnc Sink)).1 = .ok () := by decide +kernel
example : ((textEncoder .debug exRyu).runAll [.help (.str b!"x") b!"y", .sample (.counter 1) [] (.str b!"x")]
    (TextEnc.new ⟨[], 0, fun i => if i ≤ 7 then none else some 0⟩ : TextEnc Sink)).1 = .err := by decide +kernel

/-! ## C49 -/

/-- C49. If all strings passed to an encoder are UTF-8 (and floats are formatted in ASCII), everything `finish`
returns is UTF-8. -/
theorem C49_utf8 {ryu : F64 → Bytes} (F : ∀ x, ∀ b ∈ ryu x, b.toNat < 128) (m : Mode) (ops : List TextOp)
    (h : ∀ c, TextOp.call c ∈ ops → CallUtf8 c) :
    ∀ r ∈ textSession m ryu ops (TextEnc.new []), ∃ text, r = .ok text ∧ Utf8 text := by
  have key : ∀ (ops : List TextOp) (e : TextEnc Bytes), (∀ c, TextOp.call c ∈ ops → CallUtf8 c) → Utf8 e.writer →
      ∀ r ∈ textSession m ryu ops e, ∃ text, r = .ok text ∧ Utf8 text := by
    intro ops
    induction ops with
    | nil => intro e _ _ r hr; cases hr
    | cons op ops ih =>
      intro e h he r hr
      cases op with
      | call c =>
        exact ih _ (fun c hc => h c (by simp [hc])) (keeps_run F m (h c (by simp)) e he) r hr
      | finish =>
        rcases List.mem_cons.1 hr with rfl | hr
        · exact ⟨_, rfl, he⟩
        · exact ih _ (fun c hc => h c (by simp [hc])) utf8_nil r hr
  exact key ops _ h utf8_nil

example : CallUtf8 (.sample (.counter 1) [(b!"a", .str b!"é\"")] (.str b!"x")) := by
  refine ⟨⟨by simp [Name.namespaces], ⟨['x'], by decide⟩⟩, ?_⟩
  intro l hl
  simp only [List.mem_singleton] at hl
  subst hl
  exact ⟨⟨['a'], by decide⟩, ⟨['é', '"'], by decide⟩⟩
/-- Not every byte string is UTF-8. -/
example : ¬ Utf8 [0xff] := by
  rintro ⟨cs, h⟩
  cases cs with
  | nil => cases h
  | cons c cs =>
    simp only [List.flatMap_cons, String.utf8EncodeChar] at h
    split at h
    · injection h with h _
      have := congrArg UInt8.toNat h
      rw [UInt8.toNat_ofNat'] at this
      simp only [UInt8.reduceToNat] at this
      omega
    · split at h
      · injection h with h _
        have := congrArg UInt8.toNat h
        rw [UInt8.toNat_ofNat'] at this
        simp at this
        omega
      · split at h
        · injection h with h _
          have := congrArg UInt8.toNat h
          rw [UInt8.toNat_ofNat'] at this
          simp at this
          omega
        · injection h with h _
          have := congrArg UInt8.toNat h
          rw [UInt8.toNat_ofNat'] at this
          simp at this
          omega

end Measured
