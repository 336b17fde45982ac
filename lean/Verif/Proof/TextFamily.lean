import Verif.Proof.TextRead
import Verif.Spec.Exposition

/-! From encoder calls to families read back. -/

namespace Measured
open Spec

/-! ## The samples a metric writes -/

structure Written where
  name : Name
  labels : Labels
  value : MValue

def Written.text (ryu : F64 → Bytes) (s : Written) : Bytes := sampleText ryu s.name s.labels s.value

/-- What `collect_into` writes as long as no sum overflows. -/
def writtenOf (n : Name) (ls : Labels) : Metric → List Written
  | .counter c => [⟨n, ls, .int (asI64 c)⟩]
  | .gauge c => [⟨n, ls, .int c⟩]
  | .floatGauge x => [⟨n, ls, .float x⟩]
  | .histogram le h =>
    le.mapIdx (fun i b => ⟨.suffix n .bucket, ls ++ [(b!"le", .float b)], .int (asI64 (h.buckets.take (i + 1)).sum)⟩) ++
    [⟨.suffix n .bucket, ls ++ [(b!"le", .float F64.infinity)], .int (asI64 (h.buckets.sum + h.inf))⟩,
     ⟨.suffix n .sum, ls, .float h.sum⟩,
     ⟨.suffix n .count, ls, .int (asI64 (h.buckets.sum + h.inf))⟩]

/-- The sizes that the types and the running sum of `collect_into` allow without overflow. -/
def SizeOk : Metric → Prop
  | .counter c => c < W64
  | .gauge _ => True
  | .floatGauge _ => True
  | .histogram le h => le.length = h.buckets.length ∧ h.buckets.sum + h.inf < W64

theorem bucketLines_eq (ryu : F64 → Bytes) (n : Name) (ls : Labels) : ∀ (les : List F64) (bs : List Nat) (v : Nat),
    les.length = bs.length →
    bucketLines ryu n ls les (totals v bs) =
      unlines ((les.mapIdx fun i b => (⟨.suffix n .bucket, ls ++ [(b!"le", .float b)],
        .int (asI64 (v + (bs.take (i + 1)).sum))⟩ : Written)).map (Written.text ryu)) := by
  intro les
  induction les with
  | nil => intro bs v _; cases bs <;> rfl
  | cons le les ih =>
    intro bs v hl
    cases bs with
    | nil => simp at hl
    | cons b bs =>
      simp only [totals, bucketLines]
      rw [ih bs (v + b) (by simpa using hl)]
      simp only [List.mapIdx_cons, List.map_cons, unlines, List.flatMap_cons, sampleLine, Written.text]
      simp [Nat.add_assoc]

theorem textSample_bytes (m : Mode) (ryu : F64 → Bytes) (x : Metric) (ls : Labels) (n : Name) (e : TextEnc Bytes)
    (hs : SizeOk x) :
    textSample m ryu x ls n e =
      (.ok (), ⟨.metrics, e.writer ++ unlines ((writtenOf n ls x).map (Written.text ryu))⟩) := by
  cases x with
  | counter c => simp [textSample, textValue_bytes, writtenOf, unlines, Written.text, sampleLine]
  | gauge c => simp [textSample, textValue_bytes, writtenOf, unlines, Written.text, sampleLine]
  | floatGauge c => simp [textSample, textValue_bytes, writtenOf, unlines, Written.text, sampleLine]
  | histogram le h =>
    simp only [textSample]
    rw [textHistogram_bytes m ryu le h ls n e hs.1 hs.2]
    have hb := bucketLines_eq ryu n ls le h.buckets 0 hs.1
    simp only [Nat.zero_add] at hb
    simp only [histLines, hb, writtenOf, List.map_append, unlines_append]
    simp [unlines, sampleLine, Written.text]

def Written.valid (s : Written) : Prop := MetricNameRe s.name.render ∧ LabelsOk s.labels

theorem le_label : LabelNameRe b!"le" := by
  refine ⟨0x6c, [0x65], rfl, ⟨(0x61, 0x7a), by decide, by decide, by decide⟩, ?_⟩
  intro x hx
  simp only [List.mem_singleton] at hx
  subst hx
  exact ⟨(0x61, 0x7a), by decide, by decide, by decide⟩

theorem suffix_valid {n : Name} (hn : MetricNameRe n.render) (s : Suffix) : MetricNameRe (Name.suffix n s).render :=
  metricRe_append hn (suffix_class s)

theorem labelsOk_le {ls : Labels} (h : LabelsOk ls) (x : LVal) : LabelsOk (ls ++ [(b!"le", x)]) := by
  intro l hl
  rcases List.mem_append.1 hl with hl | hl
  · exact h l hl
  · simp only [List.mem_singleton] at hl
    subst hl
    exact le_label

theorem writtenOf_valid {n : Name} {ls : Labels} (hn : MetricNameRe n.render) (hl : LabelsOk ls) (x : Metric) :
    ∀ s ∈ writtenOf n ls x, s.valid := by
  cases x with
  | histogram le h =>
    intro s hs
    simp only [writtenOf, List.mem_append, List.mem_mapIdx, List.mem_cons, List.not_mem_nil, or_false] at hs
    rcases hs with ⟨i, b, rfl⟩ | rfl | rfl | rfl
    · exact ⟨suffix_valid hn _, labelsOk_le hl _⟩
    · exact ⟨suffix_valid hn _, labelsOk_le hl _⟩
    · exact ⟨suffix_valid hn _, hl⟩
    · exact ⟨suffix_valid hn _, hl⟩
  | _ =>
    intro s hs
    simp only [writtenOf, List.mem_singleton] at hs
    subst hs
    exact ⟨hn, hl⟩

/-- The line a written sample reads as. -/
def Written.sample (ryu : F64 → Bytes) (s : Written) : Sample := ⟨s.name.render, textsOf ryu s.labels, valOf s.value⟩

theorem Written.readLine {ryu : F64 → Bytes} {rf : Bytes → Option F64} (F : FloatText ryu rf) {s : Written}
    (h : s.valid) : readLine rf (s.text ryu) = some (.sample (s.sample ryu)) :=
  readLine_sample F s.name s.labels s.value h.1 h.2

theorem Written.noNewline {ryu : F64 → Bytes} {rf : Bytes → Option F64} (F : FloatText ryu rf) {s : Written}
    (h : s.valid) : ∀ b ∈ s.text ryu, b ≠ 0x0a := sampleText_noNewline F s.value h.1 h.2

/-! ## They are the expected ones below 2^63 -/

/-- Every count that is shown fits an `i64`. -/
def Fits : Metric → Prop
  | .counter c => c < 2 ^ 63
  | .gauge _ => True
  | .floatGauge _ => True
  | .histogram le h => le.length = h.buckets.length ∧ h.buckets.sum + h.inf < 2 ^ 63

theorem Fits.sizeOk {x : Metric} (h : Fits x) : SizeOk x := by
  have : (2 : Nat) ^ 63 < W64 := by decide
  cases x with
  | counter c => exact Nat.lt_trans h this
  | gauge => trivial
  | floatGauge => trivial
  | histogram le st => exact ⟨h.1, Nat.lt_trans h.2 this⟩

theorem asI64_small {n : Nat} (h : n < 2 ^ 63) : asI64 n = n := by rw [asI64, if_pos h]

theorem sum_take_le (l : List Nat) (i : Nat) : (l.take i).sum ≤ l.sum := by
  conv_rhs => rw [← List.take_append_drop i l]
  rw [List.sum_append]; omega

theorem reads_mapIdx {α : Type} {rf : Bytes → Option F64} {f : Nat → α → Expected} {g : Nat → α → Sample}
    (l : List α) (h : ∀ i, ∀ a ∈ l, SampleReads rf (f i a) (g i a)) :
    List.Forall₂ (SampleReads rf) (l.mapIdx f) (l.mapIdx g) := by
  induction l generalizing f g with
  | nil => exact .nil
  | cons a l ih =>
    rw [List.mapIdx_cons, List.mapIdx_cons]
    exact .cons (h 0 a (by simp)) (ih fun i b hb => h (i + 1) b (by simp [hb]))

theorem written_expected {ryu : F64 → Bytes} {rf : Bytes → Option F64} (F : FloatText ryu rf) (n : Name) (ls : Labels)
    (x : Metric) (hx : Fits x) :
    List.Forall₂ (SampleReads rf) (expected n.render ls x) ((writtenOf n ls x).map (Written.sample ryu)) := by
  have hL := labelsRead_texts F
  cases x with
  | counter c =>
    exact .cons ⟨rfl, hL ls, by simp [Written.sample, valOf, asI64_small (show c < 2 ^ 63 from hx)]⟩ .nil
  | gauge c => exact .cons ⟨rfl, hL ls, rfl⟩ .nil
  | floatGauge c => exact .cons ⟨rfl, hL ls, rfl⟩ .nil
  | histogram le h =>
    have hlt : ∀ i, (h.buckets.take i).sum < 2 ^ 63 := fun i => by
      have := sum_take_le h.buckets i
      have := hx.2
      omega
    simp only [expected, writtenOf, List.map_append]
    refine List.rel_append ?_ ?_
    · have hm : ∀ (α β γ : Type) (l : List α) (f : Nat → α → β) (g : β → γ),
          (l.mapIdx f).map g = l.mapIdx fun i a => g (f i a) := by
        intro α β γ l f g
        induction l generalizing f with
        | nil => rfl
        | cons a l ih => simp [List.mapIdx_cons, ih]
      rw [hm]
      apply reads_mapIdx
      intro i b _
      exact ⟨rfl, hL _, by simp [Written.sample, valOf, asI64_small (hlt (i + 1))]⟩
    · refine .cons ⟨rfl, hL _, ?_⟩ (.cons ⟨rfl, hL _, rfl⟩ (.cons ⟨rfl, hL _, ?_⟩ .nil))
      · simp only [Written.sample, valOf, asI64_small hx.2]
      · simp only [Written.sample, valOf, asI64_small hx.2]

/-! ## Families -/

/-- What a family's calls need to be shown faithfully. -/
structure FamilyOk (f : FamilyIn) : Prop where
  name : MetricNameRe f.name.render
  help : ∀ t, f.help = some t → HelpOk t
  kind : ∀ s ∈ f.samples, s.2.kind = f.kind
  labels : ∀ s ∈ f.samples, LabelsOk s.1
  fits : ∀ s ∈ f.samples, Fits s.2

def famWritten (f : FamilyIn) : List Written := f.samples.flatMap fun s => writtenOf f.name s.1 s.2

/-- The lines of a family, with what they read as. -/
def famLines (ryu : F64 → Bytes) (f : FamilyIn) : List (Bytes × Line) :=
  (match f.help with
    | some t => [(helpText f.name t, .help f.name.render t)]
    | none => []) ++
  (typeLineText f.name (textKind f.kind), .type f.name.render (kindWord f.kind)) ::
  (famWritten f).map fun s => (s.text ryu, .sample (s.sample ryu))

theorem typeWord_kind (k : Kind) : typeWord (textKind k) = kindWord k := by cases k <;> rfl

theorem famWritten_valid {f : FamilyIn} (h : FamilyOk f) : ∀ s ∈ famWritten f, s.valid := by
  intro s hs
  obtain ⟨p, hp, hs⟩ := List.mem_flatMap.1 hs
  exact writtenOf_valid h.name (h.labels p hp) _ s hs

theorem famLines_read {ryu : F64 → Bytes} {rf : Bytes → Option F64} (F : FloatText ryu rf) {f : FamilyIn}
    (h : FamilyOk f) : ∀ p ∈ famLines ryu f, (∀ b ∈ p.1, b ≠ 0x0a) ∧ readLine rf p.1 = some p.2 := by
  intro p hp
  simp only [famLines, List.mem_append, List.mem_cons, List.mem_map] at hp
  rcases hp with hp | rfl | ⟨s, hs, rfl⟩
  · cases hh : f.help with
    | none => simp [hh] at hp
    | some t =>
      simp only [hh, List.mem_singleton] at hp
      subst hp
      exact ⟨helpText_noNewline h.name (h.help t hh).1, readLine_help f.name t h.name (h.help t hh)⟩
  · refine ⟨typeText_noNewline _ h.name, ?_⟩
    rw [← typeWord_kind]
    exact readLine_type f.name _ h.name
  · exact ⟨Written.noNewline F (famWritten_valid h s hs), Written.readLine F (famWritten_valid h s hs)⟩

theorem runAll_append {E : Type} (enc : Encoder E) (a b : List EncCall) (e e' : E)
    (h : enc.runAll a e = (.ok (), e')) : enc.runAll (a ++ b) e = enc.runAll b e' := by
  induction a generalizing e with
  | nil => simp only [Encoder.runAll, RS.pure_run, Prod.mk.injEq] at h; rw [h.2]; rfl
  | cons c cs ih =>
    simp only [Encoder.runAll, List.cons_append] at h ⊢
    rw [RS.bind_run] at h ⊢
    split at h
    · rename_i e1 h1
      exact ih _ h
    · cases h
    · cases h

/-- The state after the samples of a family. -/
def famState (f : FamilyIn) : TState := if f.samples = [] then .info else .metrics

theorem runSamples_bytes (m : Mode) (ryu : F64 → Bytes) (n : Name) (ss : List (Labels × Metric))
    (h : ∀ s ∈ ss, SizeOk s.2) (e : TextEnc Bytes) :
    (textEncoder m ryu).runAll (ss.map fun s => .sample s.2 s.1 n) e =
      (.ok (), ⟨if ss = [] then e.state else .metrics,
        e.writer ++ unlines ((ss.flatMap fun s => writtenOf n s.1 s.2).map (Written.text ryu))⟩) := by
  induction ss generalizing e with
  | nil => simp [Encoder.runAll, unlines]
  | cons s ss ih =>
    simp only [List.map_cons, Encoder.runAll, Encoder.run]
    rw [RS.bind_ok (show (textEncoder m ryu).sample s.2 s.1 n e = _ from
      textSample_bytes m ryu s.2 s.1 n e (h s (by simp)))]
    rw [ih fun x hx => h x (by simp [hx])]
    simp only [List.flatMap_cons, List.map_append, unlines_append]
    simp

theorem runFamily_bytes (m : Mode) (ryu : F64 → Bytes) (f : FamilyIn) (h : ∀ s ∈ f.samples, SizeOk s.2)
    (e : TextEnc Bytes) :
    (textEncoder m ryu).runAll f.calls e =
      (.ok (), ⟨famState f, e.writer ++ sep e.state ++ unlines ((famLines ryu f).map Prod.fst)⟩) := by
  have tail : ∀ e : TextEnc Bytes,
      (textEncoder m ryu).runAll (.type f.kind f.name :: f.samples.map fun s => .sample s.2 s.1 f.name) e =
      (.ok (), ⟨famState f, e.writer ++ sep e.state ++
        unlines (typeLineText f.name (textKind f.kind) :: (famWritten f).map (Written.text ryu))⟩) := by
    intro e
    simp only [Encoder.runAll, Encoder.run]
    rw [RS.bind_ok (show (textEncoder m ryu).type f.kind f.name e = _ from textType_bytes _ _ _)]
    rw [runSamples_bytes m ryu f.name f.samples h]
    simp only [famState, typeLine_eq, famWritten]
    simp [unlines]
  unfold FamilyIn.calls famLines
  cases hh : f.help with
  | none => simpa [Function.comp_def] using tail e
  | some t =>
    simp only [List.singleton_append, Encoder.runAll, Encoder.run]
    rw [RS.bind_ok (show (textEncoder m ryu).help f.name t e = _ from textHelp_bytes _ _ _)]
    have := tail ⟨.info, e.writer ++ sep e.state ++ helpLine f.name t⟩
    simp only [Encoder.runAll, Encoder.run] at this
    rw [this]
    simp [unlines, sep, helpLine_eq, Function.comp_def]

/-! ### The reader on the lines of one family -/

def famRead (ryu : F64 → Bytes) (f : FamilyIn) : Family :=
  ⟨f.name.render, f.help, some (kindWord f.kind), (famWritten f).map (Written.sample ryu)⟩

theorem owns_written {f : FamilyIn} (h : ∀ s ∈ f.samples, s.2.kind = f.kind) (g : Family) (hg : g.name = f.name.render)
    (ht : g.type = some (kindWord f.kind)) : ∀ s ∈ famWritten f, g.owns s.name.render = true := by
  intro s hs
  obtain ⟨p, hp, hs⟩ := List.mem_flatMap.1 hs
  have hk := h p hp
  revert hs
  unfold Family.owns
  rw [hg, ht]
  cases hx : p.2 with
  | histogram le st =>
    rw [hx] at hk
    simp only [Metric.kind] at hk
    rw [← hk]
    intro hs
    simp only [writtenOf, List.mem_append, List.mem_mapIdx, List.mem_cons, List.not_mem_nil, or_false] at hs
    rcases hs with ⟨i, b, rfl⟩ | rfl | rfl | rfl <;> simp [kindWord, Name.render, Suffix.text]
  | _ =>
    rw [hx] at hk
    simp only [Metric.kind] at hk
    rw [← hk]
    intro hs
    simp only [writtenOf, List.mem_singleton] at hs
    subst hs
    simp [kindWord]

theorem consume_samples (ryu : F64 → Bytes) (ws : List Written) : ∀ (g : Family) (acc : List Family),
    (∀ s ∈ ws, g.owns s.name.render = true) →
    (ws.map fun s => Line.sample (s.sample ryu)).foldl consume (g :: acc) =
      { g with samples := g.samples ++ ws.map (Written.sample ryu) } :: acc := by
  induction ws with
  | nil => intro g acc _; simp
  | cons w ws ih =>
    intro g acc h
    have hw : g.owns (w.sample ryu).name = true := h w (by simp)
    simp only [List.map_cons, List.foldl_cons, consume, hw, if_true]
    rw [ih]
    · simp
    · intro s hs
      exact h s (by simp [hs])

/-- Nothing in the accumulator can absorb a TYPE line. -/
def Closed : List Family → Prop
  | [] => True
  | f :: _ => f.type ≠ none

theorem consume_family {ryu : F64 → Bytes} {f : FamilyIn} (h : ∀ s ∈ f.samples, s.2.kind = f.kind) (acc : List Family) (hacc : Closed acc) :
    ((famLines ryu f).map Prod.snd).foldl consume acc = famRead ryu f :: acc := by
  have tail : ∀ (help : Option Bytes),
      ((famWritten f).map fun s => Line.sample (s.sample ryu)).foldl consume
        (⟨f.name.render, help, some (kindWord f.kind), []⟩ :: acc) =
      ⟨f.name.render, help, some (kindWord f.kind), (famWritten f).map (Written.sample ryu)⟩ :: acc := by
    intro help
    rw [consume_samples]
    · rfl
    · exact owns_written h _ rfl rfl
  unfold famLines famRead
  cases hh : f.help with
  | none =>
    simp only [List.nil_append, List.map_cons, List.map_map, List.foldl_cons, Function.comp_def]
    have : consume acc (.type f.name.render (kindWord f.kind)) =
        ⟨f.name.render, none, some (kindWord f.kind), []⟩ :: acc := by
      cases acc with
      | nil => rfl
      | cons g gs =>
        have hg : g.type ≠ none := hacc
        simp [consume, hg]
    rw [this, tail]
  | some t =>
    simp only [List.singleton_append, List.map_cons, List.map_map, List.foldl_cons, Function.comp_def]
    have : consume (consume acc (.help f.name.render t)) (.type f.name.render (kindWord f.kind)) =
        ⟨f.name.render, some t, some (kindWord f.kind), []⟩ :: acc := by
      simp [consume]
    rw [this, tail]

theorem famRead_reads {ryu : F64 → Bytes} {rf : Bytes → Option F64} (F : FloatText ryu rf) {f : FamilyIn}
    (h : FamilyOk f) : FamilyReads rf f.name.render f (famRead ryu f) := by
  refine ⟨rfl, rfl, rfl, ?_⟩
  have hfits := h.fits
  simp only [famRead, famWritten]
  generalize f.samples = ss at hfits
  induction ss with
  | nil => exact .nil
  | cons s ss ih =>
    rw [List.flatMap_cons, List.flatMap_cons, List.map_append]
    exact List.rel_append (written_expected F f.name s.1 s.2 (hfits s (by simp)))
      (ih fun x hx => hfits x (by simp [hx]))

/-! ### Several families -/

/-- All lines: a blank line before every family that follows samples. -/
def allLines (ryu : F64 → Bytes) : TState → List FamilyIn → List (Bytes × Line)
  | _, [] => []
  | st, f :: fs => (if st = .metrics then [([], .blank)] else []) ++ famLines ryu f ++ allLines ryu (famState f) fs

theorem runFamilies_bytes (m : Mode) (ryu : F64 → Bytes) (fs : List FamilyIn)
    (h : ∀ f ∈ fs, ∀ s ∈ f.samples, SizeOk s.2) (e : TextEnc Bytes) :
    ∃ st, (textEncoder m ryu).runAll (fs.flatMap FamilyIn.calls) e =
      (.ok (), ⟨st, e.writer ++ unlines ((allLines ryu e.state fs).map Prod.fst)⟩) := by
  induction fs generalizing e with
  | nil => exact ⟨e.state, by simp [Encoder.runAll, allLines, unlines]⟩
  | cons f fs ih =>
    obtain ⟨st, hst⟩ := ih (fun x hx => h x (by simp [hx]))
      ⟨famState f, e.writer ++ sep e.state ++ unlines ((famLines ryu f).map Prod.fst)⟩
    refine ⟨st, ?_⟩
    rw [List.flatMap_cons, runAll_append _ _ _ _ _ (runFamily_bytes m ryu f (h f (by simp)) e), hst]
    simp only [allLines, List.map_append, unlines_append]
    have : unlines (List.map Prod.fst (if e.state = TState.metrics then [(([] : Bytes), Line.blank)] else [])) =
        sep e.state := by
      cases e.state <;> rfl
    rw [this]
    simp

theorem allLines_read {ryu : F64 → Bytes} {rf : Bytes → Option F64} (F : FloatText ryu rf) (fs : List FamilyIn)
    (h : ∀ f ∈ fs, FamilyOk f) (st : TState) :
    ∀ p ∈ allLines ryu st fs, (∀ b ∈ p.1, b ≠ 0x0a) ∧ readLine rf p.1 = some p.2 := by
  induction fs generalizing st with
  | nil => intro p hp; cases hp
  | cons f fs ih =>
    intro p hp
    simp only [allLines, List.mem_append] at hp
    rcases hp with (hp | hp) | hp
    · split at hp
      · simp only [List.mem_singleton] at hp
        subst hp
        exact ⟨by simp, rfl⟩
      · cases hp
    · exact famLines_read F (h f (by simp)) p hp
    · exact ih (fun x hx => h x (by simp [hx])) _ p hp

theorem consume_all {ryu : F64 → Bytes} (fs : List FamilyIn) (h : ∀ f ∈ fs, ∀ s ∈ f.samples, s.2.kind = f.kind)
    (st : TState) (acc : List Family) (hacc : Closed acc) :
    ((allLines ryu st fs).map Prod.snd).foldl consume acc = (fs.map (famRead ryu)).reverse ++ acc := by
  induction fs generalizing st acc with
  | nil => rfl
  | cons f fs ih =>
    have hblank : (List.map Prod.snd (if st = TState.metrics then [(([] : Bytes), Line.blank)] else [])).foldl
        consume acc = acc := by split <;> rfl
    simp only [allLines, List.map_append, List.foldl_append]
    rw [hblank, consume_family (h f (by simp)) acc hacc, ih (fun x hx => h x (by simp [hx]))]
    · simp
    · show (famRead ryu f).type ≠ none
      simp [famRead]

theorem famWritten_ne {f : FamilyIn} (h : f.samples ≠ []) : famWritten f ≠ [] := by
  obtain ⟨s, ss, e⟩ := List.exists_cons_of_ne_nil h
  unfold famWritten
  rw [e, List.flatMap_cons]
  have : writtenOf f.name s.1 s.2 ≠ [] := by cases s.2 <;> simp [writtenOf]
  simp [this]

theorem famLines_hasSample {ryu : F64 → Bytes} {f : FamilyIn} :
    (((famLines ryu f).map Prod.snd).any Line.isSample = true) ↔ f.samples ≠ [] := by
  have h1 : ((famLines ryu f).map Prod.snd).any Line.isSample = !(famWritten f).isEmpty := by
    unfold famLines
    cases f.help <;> cases famWritten f <;> simp [Line.isSample]
  rw [h1]
  constructor
  · intro h e
    have : famWritten f = [] := by simp [famWritten, e]
    rw [this] at h
    simp at h
  · intro h
    have := famWritten_ne h
    simpa using this

theorem allLines_join (ryu : F64 → Bytes) (fs : List FamilyIn) (st : TState) :
    (allLines ryu st fs).map Prod.snd =
      (if st = .metrics ∧ fs ≠ [] then [.blank] else []) ++
        joinBlocks (fs.map fun f => (famLines ryu f).map Prod.snd) := by
  induction fs generalizing st with
  | nil => simp [allLines, joinBlocks]
  | cons f fs ih =>
    simp only [allLines, List.map_append, ih]
    cases fs with
    | nil =>
      simp only [List.map_nil, List.map_cons, joinBlocks]
      cases st <;> simp
    | cons f' fs =>
      simp only [List.map_cons, joinBlocks]
      have : (famState f = TState.metrics ∧ f' :: fs ≠ []) ↔
          ((famLines ryu f).map Prod.snd).any Line.isSample = true := by
        rw [famLines_hasSample]
        unfold famState
        split <;> simp_all
      rw [if_congr this rfl rfl]
      cases st <;> simp

theorem famLines_noBlank (ryu : F64 → Bytes) (f : FamilyIn) : Line.blank ∉ (famLines ryu f).map Prod.snd := by
  unfold famLines
  cases f.help <;> simp

end Measured
