import Verif.Props.TextExact
import Verif.Proof.ProtoScrape
import Verif.Proof.TextCalls
import Verif.Spec.CallsExact

/-!
# C34 and C50: what a line feed in a help text does

`write_help` writes the help text as it is, so whatever follows a line feed in it is the exposition for a reader.
-/

namespace Measured
open Measured.Spec

theorem splitLines_append {a : Bytes} {ls : List Bytes} (b : Bytes) (h : splitLines a = some ls) :
    splitLines (a ++ b) = (splitLines b).map (ls ++ ·) := by
  induction a generalizing ls with
  | nil =>
    cases h
    simp
  | cons x a ih =>
    rw [splitLines] at h
    rw [List.cons_append, splitLines]
    by_cases hx : x = 0x0a
    · rw [if_pos hx] at h ⊢
      obtain ⟨ls', h1, h2⟩ := Option.map_eq_some_iff.1 h
      subst h2
      rw [ih h1]
      cases splitLines b <;> rfl
    · rw [if_neg hx] at h ⊢
      cases hs : splitLines a with
      | none => rw [hs] at h; cases h
      | some ls' =>
        rw [hs] at h
        cases ls' with
        | nil => cases h
        | cons l ls' =>
          cases h
          rw [ih hs]
          cases splitLines b <;> rfl

theorem readLines_append {rf : Bytes → Option F64} {a b : Bytes} {x y : List Line} (ha : readLines rf a = some x)
    (hb : readLines rf b = some y) : readLines rf (a ++ b) = some (x ++ y) := by
  unfold readLines at *
  cases h1 : splitLines a with
  | none => rw [h1] at ha; cases ha
  | some as =>
    cases h2 : splitLines b with
    | none => rw [h2] at hb; cases hb
    | some bs =>
      rw [h1] at ha
      rw [h2] at hb
      rw [splitLines_append b h1, h2]
      exact Proto.readAll_append _ _ _ ha hb

/-- A text of complete lines, not empty, is a text and a line feed. -/
theorem splitLines_last {t : Bytes} {ls : List Bytes} (h : splitLines t = some ls) (hne : t ≠ []) : ∃ t', t = t' ++ b!"\n" := by
  induction t generalizing ls with
  | nil => exact absurd rfl hne
  | cons x t ih =>
    rw [splitLines] at h
    cases t with
    | nil =>
      by_cases hx : x = 0x0a
      · subst hx; exact ⟨[], rfl⟩
      · rw [if_neg hx] at h
        simp [splitLines] at h
    | cons y t =>
      have : ∃ ls', splitLines (y :: t) = some ls' := by
        cases hs : splitLines (y :: t) with
        | some ls' => exact ⟨ls', rfl⟩
        | none => rw [hs] at h; split at h <;> cases h
      obtain ⟨ls', hs⟩ := this
      obtain ⟨t', ht'⟩ := ih hs (by simp)
      exact ⟨x :: t', by rw [ht']; rfl⟩

/-- C34, exactly, for all help texts: the first line is the line of HELP, and what follows the first line feed is in the
text as it is, as lines of its own. -/
theorem C34_exact (n : Name) (first rest : Bytes) (st : TState) (w : Bytes) :
    ∃ out, textHelp n first ⟨st, w⟩ = (.ok (), ⟨.info, w ++ out⟩) ∧
      textHelp n (first ++ b!"\n" ++ rest) ⟨st, w⟩ = (.ok (), ⟨.info, w ++ out ++ rest ++ b!"\n"⟩) := by
  refine ⟨sep st ++ helpLine n first, by rw [textHelp_bytes]; simp, ?_⟩
  rw [textHelp_bytes]
  simp [helpLine]

/-- C34, how wrong it is: whatever lines a text has, there is a help text that puts them into the exposition, wherever
`write_help` is called. -/
theorem C34_inject {rf : Bytes → Option F64} (n : Name) (hn : MetricNameRe n.text) (st : TState) {w text : Bytes}
    {before ls : List Line} (hw : readLines rf w = some before) (ht : readLines rf text = some ls) :
    ∃ help e, textHelp n help ⟨st, w⟩ = (.ok (), e) ∧ readLines rf e.writer =
      some (before ++ (if st = .metrics then [.blank] else []) ++ [.help n.text b!"x"] ++ ls) := by
  rw [n.text_eq] at hn ⊢
  have hx : (0x0a : Byte) ∉ b!"x" := by decide
  have hhelp : readLines rf (helpText n b!"x" ++ b!"\n") = some [.help n.render b!"x"] := by
    have := readLines_unlines (rf := rf) [(helpText n b!"x", .help n.render b!"x")]
      (fun p hp => by rw [List.mem_singleton.1 hp]; exact helpText_noNewline hn hx)
      (fun p hp => by rw [List.mem_singleton.1 hp, readLine_helpSeen _ _ hn]; rfl)
    simpa [unlines] using this
  have hsep : readLines rf (sep st) = some (if st = .metrics then [.blank] else []) := by
    cases st <;> rfl
  have hh : readLines rf (w ++ sep st ++ (helpText n b!"x" ++ b!"\n")) =
      some (before ++ (if st = .metrics then [.blank] else []) ++ [.help n.render b!"x"]) :=
    readLines_append (readLines_append hw hsep) hhelp
  by_cases hne : text = []
  · subst hne
    cases ht
    refine ⟨b!"x", _, textHelp_bytes _ _ _, ?_⟩
    rw [List.append_nil]
    exact hh
  · have : ∃ raw, splitLines text = some raw := by
      unfold readLines at ht
      cases hs : splitLines text with
      | some raw => exact ⟨raw, rfl⟩
      | none => rw [hs] at ht; cases ht
    obtain ⟨raw, hraw⟩ := this
    obtain ⟨text', htext⟩ := splitLines_last hraw hne
    refine ⟨b!"x\n" ++ text', _, textHelp_bytes _ _ _, ?_⟩
    have := readLines_append hh ht
    rw [htext] at this
    rw [← this]
    congr 1
    simp [helpLine, helpText]

/-- C34, with families: one call of `write_help` on a new encoder can make a reader find any families, with types and
samples, that the encoder can write at all. -/
theorem C34_forge {ryu : F64 → Bytes} {rf : Bytes → Option F64} (F : FloatText ryu rf) (n : Name) (hn : MetricNameRe n.text)
    (fs : List FamilyIn) (h : ∀ f ∈ fs, FamilyOk f) :
    ∃ help e gs, textHelp n help (TextEnc.new []) = (.ok (), e) ∧
      readFamilies rf e.writer = some (⟨n.text, some b!"x", some .counter, []⟩ :: gs) ∧
      List.Forall₂ (fun f g => FamilyReads rf f.name.text f g) fs gs := by
  obtain ⟨st, out, gs, blocks, h1, h2, h3, _, _⟩ := C33_exposition_partial F .debug fs h
  have hread := allLines_read F fs h .info
  have hlines : readLines rf (unlines ((allLines ryu .info fs).map Prod.fst)) =
      some ((allLines ryu .info fs).map Prod.snd) :=
    readLines_unlines _ (fun p hp => (hread p hp).1) (fun p hp => (hread p hp).2)
  have hn' := hn
  rw [n.text_eq] at hn'
  have htype : readLines rf (typeLineText n .counter ++ b!"\n") = some [.type n.render .counter] := by
    have := readLines_unlines (rf := rf) [(typeLineText n .counter, .type n.render .counter)]
      (fun p hp => by rw [List.mem_singleton.1 hp]; exact typeText_noNewline _ hn')
      (fun p hp => by rw [List.mem_singleton.1 hp]; exact readLine_type n .counter hn')
    simpa [unlines] using this
  obtain ⟨help, e, e1, e2⟩ := C34_inject n hn .info (w := []) (before := []) rfl (readLines_append htype hlines)
  refine ⟨help, e, fs.map (famRead ryu), e1, ?_, ?_⟩
  · unfold readFamilies
    rw [e2, Option.map_some]
    rw [n.text_eq]
    simp only [List.nil_append, reduceCtorEq, if_false, List.singleton_append, List.foldl_cons, consume, and_self, if_true]
    rw [consume_all fs (fun f hf => (h f hf).kind) .info _ (by simp [Closed])]
    simp
  · clear h1 h2 h3 hread hlines e2
    induction fs with
    | nil => exact .nil
    | cons f fs ih =>
      refine .cons ?_ (ih fun x hx => h x (by simp [hx]))
      rw [f.name.text_eq]; exact famRead_reads F (h f (by simp))

/-! ## Any calls -/

theorem readAll_bind {α β : Type} (f : α → Option β) (l r : List α) :
    readAll f (l ++ r) = (readAll f l).bind fun x => (readAll f r).map (x ++ ·) := by
  induction l with
  | nil => cases h : readAll f r <;> simp [readAll, h]
  | cons a l ih =>
    simp only [List.cons_append, readAll, ih]
    cases f a with
    | none => rfl
    | some b =>
      cases readAll f l with
      | none => rfl
      | some x => cases readAll f r <;> rfl

/-- Complete lines in front of a text. -/
theorem readLines_bind {rf : Bytes → Option F64} {a b : Bytes} {as : List Bytes} (ha : splitLines a = some as) :
    readLines rf (a ++ b) = (readLines rf a).bind fun x => (readLines rf b).map (x ++ ·) := by
  unfold readLines
  rw [splitLines_append b ha, ha]
  cases splitLines b with
  | none => simp
  | some bs => exact readAll_bind _ _ _

/-- What is written for a call, without the blank line. -/
def callText (ryu : F64 → Bytes) : EncCall → Bytes
  | .help n t => helpLine n t
  | .type k n => typeLine n (textKind k)
  | .sample x ls n => unlines ((writtenOf n ls x).map fun s => s.text ryu)

theorem call_bytes (m : Mode) (ryu : F64 → Bytes) (c : EncCall) (hc : CallValid Name.render c) (e : TextEnc Bytes) :
    (textEncoder m ryu).run c e =
      (.ok (), ⟨stateOf c.isSample, e.writer ++ ((if c.isSample then [] else sep e.state) ++ callText ryu c)⟩) := by
  cases c with
  | help n t =>
    show (textEncoder m ryu).help n t e = _
    rw [show (textEncoder m ryu).help n t e = _ from textHelp_bytes _ _ _]
    simp [EncCall.isSample, stateOf, callText]
  | type k n =>
    show (textEncoder m ryu).type k n e = _
    rw [show (textEncoder m ryu).type k n e = _ from textType_bytes _ _ _]
    simp [EncCall.isSample, stateOf, callText]
  | sample x ls n =>
    show (textEncoder m ryu).sample x ls n e = _
    rw [show (textEncoder m ryu).sample x ls n e = _ from textSample_bytes m ryu x ls n e (counts64_sizeOk hc.2.2)]
    simp [EncCall.isSample, stateOf, callText, Function.comp_def]

/-- The first line of a text. -/
theorem first_line (t : Bytes) : (0x0a : Byte) ∉ t ∨ ∃ a b, t = a ++ b!"\n" ++ b ∧ (0x0a : Byte) ∉ a := by
  induction t with
  | nil => exact Or.inl (by simp)
  | cons x t ih =>
    by_cases hx : x = 0x0a
    · exact Or.inr ⟨[], t, by rw [hx]; rfl, by simp⟩
    · rcases ih with h | ⟨a, b, rfl, h⟩
      · exact Or.inl (by simp only [List.mem_cons, not_or]; exact ⟨fun h' => hx h'.symm, h⟩)
      · exact Or.inr ⟨x :: a, b, rfl, by simp only [List.mem_cons, not_or]; exact ⟨fun h' => hx h'.symm, h⟩⟩

theorem first_unique {a b a' b' : Bytes} (h : a ++ b!"\n" ++ b = a' ++ b!"\n" ++ b') (ha : (0x0a : Byte) ∉ a)
    (ha' : (0x0a : Byte) ∉ a') : a = a' ∧ b = b' := by
  induction a generalizing a' with
  | nil =>
    cases a' with
    | nil => exact ⟨rfl, by simpa using h⟩
    | cons y a' =>
      simp only [List.nil_append, List.cons_append, List.cons.injEq] at h
      exact absurd (by rw [h.1]; simp) ha'
  | cons x a ih =>
    cases a' with
    | nil =>
      simp only [List.nil_append, List.cons_append, List.cons.injEq] at h
      exact absurd (by rw [h.1]; simp) ha
    | cons y a' =>
      simp only [List.cons_append, List.cons.injEq] at h
      obtain ⟨h1, h2⟩ := ih h.2 (fun h' => ha (by simp [h'])) (fun h' => ha' (by simp [h']))
      exact ⟨by rw [h.1, h1], h2⟩

/-- A text that ends in a line feed has complete lines. -/
theorem splitLines_ends (t : Bytes) : ∃ ls, splitLines (t ++ b!"\n") = some ls ∧ ls ≠ [] := by
  induction t with
  | nil => exact ⟨[[]], rfl, by simp⟩
  | cons x t ih =>
    obtain ⟨ls, h, hne⟩ := ih
    rw [List.cons_append, splitLines, h]
    by_cases hx : x = 0x0a
    · exact ⟨[] :: ls, by rw [if_pos hx]; rfl, by simp⟩
    · cases ls with
      | nil => exact absurd rfl hne
      | cons l ls => exact ⟨(x :: l) :: ls, by rw [if_neg hx], by simp⟩

theorem callText_split {ryu : F64 → Bytes} {rf : Bytes → Option F64} (F : FloatText ryu rf) {c : EncCall}
    (h : CallValid Name.render c) : ∃ ls, splitLines (callText ryu c) = some ls := by
  cases c with
  | help n t =>
    obtain ⟨ls, h, _⟩ := splitLines_ends (helpText n t)
    exact ⟨ls, by simpa [callText, helpLine_eq] using h⟩
  | type k n =>
    obtain ⟨ls, h, _⟩ := splitLines_ends (typeLineText n (textKind k))
    exact ⟨ls, by simpa [callText, typeLine_eq] using h⟩
  | sample x ls n =>
    refine ⟨_, splitLines_unlines _ ?_⟩
    intro l hl
    obtain ⟨s, hs, rfl⟩ := List.mem_map.1 hl
    exact Written.noNewline F (writtenOf_valid h.1 h.2.1 x s hs)

theorem readLines_one {rf : Bytes → Option F64} {l : Bytes} (hl : ∀ b ∈ l, b ≠ 0x0a) :
    readLines rf (l ++ b!"\n") = (readLine rf l).map ([·]) := by
  unfold readLines
  rw [show l ++ b!"\n" = l ++ 0x0a :: [] from rfl, splitLines_line hl]
  simp only [splitLines, Option.map_some, readAll]
  cases readLine rf l <;> rfl

/-- One call: what is read, or nothing. -/
theorem callText_read {ryu : F64 → Bytes} {rf : Bytes → Option F64} (F : FloatText ryu rf) {c : EncCall}
    (h : CallValid Name.render c) :
    (∃ ls, readLines rf (callText ryu c) = some ls ∧ CallSeen rf Name.render c ls) ∨
    (readLines rf (callText ryu c) = none ∧ ∀ ls, ¬ CallSeen rf Name.render c ls) := by
  cases c with
  | type k n =>
    refine Or.inl ⟨_, ?_, .type k n⟩
    have := readLines_one (rf := rf) (typeText_noNewline (n := n) (textKind k) h)
    rw [readLine_type n _ h, typeWord_kind] at this
    simpa [callText, typeLine_eq] using this
  | sample x ls n =>
    have hv := writtenOf_valid h.1 h.2.1 x
    have hr := readLines_unlines (rf := rf) ((writtenOf n ls x).map fun s => (s.text ryu, .sample (s.sample ryu)))
      (fun p hp => by obtain ⟨s, hs, rfl⟩ := List.mem_map.1 hp; exact Written.noNewline F (hv s hs))
      (fun p hp => by obtain ⟨s, hs, rfl⟩ := List.mem_map.1 hp; exact Written.readLine F (hv s hs))
    refine Or.inl ⟨_, ?_, .sample (written_shown F n ls x)⟩
    simpa [callText, Function.comp_def] using hr
  | help n t =>
    rcases first_line t with hl | ⟨a, b, rfl, hl⟩
    · have hr := readLines_one (rf := rf) (helpText_noNewline (n := n) h hl)
      rw [readLine_helpSeen _ _ h] at hr
      have hr : readLines rf (callText ryu (.help n t)) = ((helpSeen t).map (.help n.render ·)).map ([·]) := by
        simpa only [callText, helpLine_eq] using hr
      cases hx : helpSeen t with
      | some x => exact Or.inl ⟨_, by rw [hr, hx]; rfl, .help hl hx⟩
      | none =>
        refine Or.inr ⟨by rw [hr, hx]; rfl, fun ls hs => ?_⟩
        cases hs with
        | help _ h' => rw [hx] at h'; cases h'
        | helpMore _ _ _ => exact hl (by simp)
    · have hsp : splitLines (helpText n a ++ b!"\n") = some [helpText n a] := by
        rw [show helpText n a ++ b!"\n" = helpText n a ++ 0x0a :: [] from rfl, splitLines_line (helpText_noNewline h hl)]
        rfl
      have hr := readLines_bind (rf := rf) (b := b ++ b!"\n") hsp
      rw [readLines_one (helpText_noNewline h hl), readLine_helpSeen _ _ h] at hr
      have hr : readLines rf (callText ryu (.help n (a ++ b!"\n" ++ b))) =
          (((helpSeen a).map (.help n.render ·)).map ([·])).bind fun x => (readLines rf (b ++ b!"\n")).map (x ++ ·) := by
        rw [← hr]
        congr 1
        simp [callText, helpLine, helpText]
      have hinv : ∀ ls, CallSeen rf Name.render (.help n (a ++ b!"\n" ++ b)) ls →
          ∃ x ls', helpSeen a = some x ∧ readLines rf (b ++ b!"\n") = some ls' := by
        intro ls hs
        generalize ht : a ++ b!"\n" ++ b = t at hs
        cases hs with
        | help hl' _ => exact absurd (by rw [← ht]; simp) hl'
        | @helpMore _ t' x more ls' hl' hx hm =>
          obtain ⟨rfl, rfl⟩ := first_unique ht hl hl'
          exact ⟨x, ls', hx, hm⟩
      cases hx : helpSeen a with
      | none =>
        refine Or.inr ⟨by rw [hr, hx]; rfl, fun ls hs => ?_⟩
        obtain ⟨x, _, h1, _⟩ := hinv ls hs
        rw [hx] at h1; cases h1
      | some x =>
        cases hm : readLines rf (b ++ b!"\n") with
        | none =>
          refine Or.inr ⟨by rw [hr, hx, hm]; rfl, fun ls hs => ?_⟩
          obtain ⟨_, _, _, h1⟩ := hinv ls hs
          rw [hm] at h1; cases h1
        | some ls => exact Or.inl ⟨_, by rw [hr, hx, hm]; rfl, .helpMore hl hx hm⟩

theorem calls_seen {ryu : F64 → Bytes} {rf : Bytes → Option F64} (F : FloatText ryu rf) (m : Mode) (cs : List EncCall)
    (h : ∀ c ∈ cs, CallValid Name.render c) (prev : Bool) (w : Bytes) :
    ∃ prev' out raw, (textEncoder m ryu).runAll cs ⟨stateOf prev, w⟩ = (.ok (), ⟨stateOf prev', w ++ out⟩) ∧
      splitLines out = some raw ∧
      ((∃ ls, readLines rf out = some ls ∧ CallsSeen rf Name.render prev cs ls) ∨
       (readLines rf out = none ∧ ∃ c ∈ cs, ∀ ls, ¬ CallSeen rf Name.render c ls)) := by
  induction cs generalizing prev w with
  | nil => exact ⟨prev, [], [], by simp [Encoder.runAll], rfl, Or.inl ⟨[], rfl, .nil⟩⟩
  | cons c cs ih =>
    have hc := h c (by simp)
    obtain ⟨p, out, raw, h1, h2, h3⟩ := ih (fun x hx => h x (by simp [hx])) c.isSample
      (w ++ ((if c.isSample then [] else sep (stateOf prev)) ++ callText ryu c))
    obtain ⟨craw, hcraw⟩ := callText_split F hc
    have hsep : ∃ sraw, splitLines (if c.isSample then [] else sep (stateOf prev)) = some sraw := by
      cases c.isSample <;> cases prev <;> exact ⟨_, rfl⟩
    obtain ⟨sraw, hsraw⟩ := hsep
    have hrsep : readLines rf (if c.isSample then [] else sep (stateOf prev)) =
        some (if prev && !c.isSample then [.blank] else []) := by
      cases c.isSample <;> cases prev <;> rfl
    have hfront : splitLines ((if c.isSample then [] else sep (stateOf prev)) ++ callText ryu c) = some (sraw ++ craw) := by
      rw [splitLines_append _ hsraw, hcraw]; rfl
    refine ⟨p, (if c.isSample then [] else sep (stateOf prev)) ++ callText ryu c ++ out, sraw ++ craw ++ raw, ?_, ?_, ?_⟩
    · simp only [Encoder.runAll]
      rw [RS.bind_ok (call_bytes m ryu c hc _), h1, List.append_assoc]
    · rw [splitLines_append _ hfront, h2]; rfl
    · have hall : readLines rf ((if c.isSample then [] else sep (stateOf prev)) ++ callText ryu c ++ out) =
          (readLines rf (callText ryu c)).bind fun x => (readLines rf out).map
            (((if prev && !c.isSample then [.blank] else []) ++ x) ++ ·) := by
        rw [readLines_bind hfront, readLines_bind hsraw, hrsep]
        cases readLines rf (callText ryu c) <;> rfl
      rw [hall]
      rcases callText_read F hc with ⟨l, hl, hs⟩ | ⟨hl, hs⟩
      · rcases h3 with ⟨ls, hls, hss⟩ | ⟨hls, c', hc', hno⟩
        · exact Or.inl ⟨_, by rw [hl, hls]; rfl, .cons hs hss⟩
        · exact Or.inr ⟨by rw [hl, hls]; rfl, c', by simp [hc'], hno⟩
      · exact Or.inr ⟨by rw [hl]; rfl, c, by simp, hs⟩

/-- C50, exactly, for all help texts and all 64 bit counts: the calls read back as their lines, what follows a line feed in
a help text as lines of their own, or one of the help texts makes the reader refuse the text. -/
theorem C50_exact {ryu : F64 → Bytes} {rf : Bytes → Option F64} (F : FloatText ryu rf) (m : Mode) (cs : List EncCall)
    (h : ∀ c ∈ cs, CallValid Name.text c) :
    ∃ e, (textEncoder m ryu).runAll cs (TextEnc.new []) = (.ok (), e) ∧
      ((∃ ls, readLines rf e.writer = some ls ∧ CallsSeen rf Name.text false cs ls) ∨
       (readLines rf e.writer = none ∧ ∃ c ∈ cs, ∀ ls, ¬ CallSeen rf Name.text c ls)) := by
  have hte : Name.text = Name.render := funext Name.text_eq
  rw [hte] at h ⊢
  obtain ⟨p, out, raw, h1, _, h3⟩ := calls_seen F m cs h false []
  exact ⟨_, h1, by simpa using h3⟩

theorem calls_all {rf : Bytes → Option F64} {text : Name → Bytes} {prev : Bool} {cs : List EncCall} {ls : List Line}
    (h : CallsSeen rf text prev cs ls) : ∀ c ∈ cs, ∃ ls, CallSeen rf text c ls := by
  induction h with
  | nil => intro c hc; cases hc
  | cons h' _ ih =>
    intro c hc
    rcases List.mem_cons.1 hc with rfl | hc
    · exact ⟨_, h'⟩
    · exact ih c hc

/-- C50, the same as an equivalence: a reader accepts the text if and only if every call can be read. -/
theorem C50_accepted {ryu : F64 → Bytes} {rf : Bytes → Option F64} (F : FloatText ryu rf) (m : Mode) (cs : List EncCall)
    (h : ∀ c ∈ cs, CallValid Name.text c) :
    ∃ e, (textEncoder m ryu).runAll cs (TextEnc.new []) = (.ok (), e) ∧
      ((readLines rf e.writer).isSome ↔ ∀ c ∈ cs, ∃ ls, CallSeen rf Name.text c ls) := by
  obtain ⟨e, h1, h2⟩ := C50_exact F m cs h
  refine ⟨e, h1, ?_⟩
  rcases h2 with ⟨ls, h2, h3⟩ | ⟨h2, c, hc, h3⟩
  · rw [h2]
    exact ⟨fun _ => calls_all h3, fun _ => rfl⟩
  · rw [h2]
    refine ⟨fun h' => (by simp at h'), fun h' => ?_⟩
    obtain ⟨ls, hls⟩ := h' c hc
    exact absurd hls (h3 ls)

/-- A help text that adds a sample of another metric. -/
example (rf : Bytes → Option F64) : ∃ e, textHelp (.str b!"a") b!"x\nup 1" ⟨.info, []⟩ = (.ok (), e) ∧
    readFamilies rf e.writer = some [⟨b!"a", some b!"x", none, []⟩, ⟨b!"up", none, none, [⟨b!"up", [], .int 1⟩]⟩] :=
  ⟨_, rfl, rfl⟩

/-- Calls that `C50_exact` is about: a sample, a help text with a line feed and a backslash, a count above 2^63. -/
example : ∀ c ∈ [EncCall.sample (.counter (2 ^ 64 - 1)) [(b!"k", .str b!"\n")] (.str b!"a"), .help (.str b!"b") b!"x\ny\\"],
    CallValid Name.text c := by
  intro c hc
  simp only [List.mem_cons, List.not_mem_nil, or_false] at hc
  rcases hc with rfl | rfl
  · refine ⟨?_, ?_, by unfold Counts64; decide⟩
    · exact ⟨0x61, [], rfl, ⟨(0x61, 0x7a), by decide, by decide, by decide⟩, by simp⟩
    · intro l hl
      rw [List.mem_singleton.1 hl]
      exact ⟨0x6b, [], rfl, ⟨(0x61, 0x7a), by decide, by decide, by decide⟩, by simp⟩
  · exact ⟨0x62, [], rfl, ⟨(0x61, 0x7a), by decide, by decide, by decide⟩, by simp⟩

end Measured
