import Verif.Proof.Text

/-! Reading back what the text encoder writes. -/

namespace Measured
open Spec

/-! ## Names -/

/-- Bytes of a name token. -/
def TokOk (p : Byte → Bool) (s : Bytes) : Prop :=
  ∃ b bs, s = b :: bs ∧ inRange 0x30 0x39 b = false ∧ ∀ x ∈ s, p x = true

theorem tok_metric {s : Bytes} (h : MetricNameRe s) : TokOk isNameByte s := by
  obtain ⟨b, bs, rfl, h1, h2⟩ := h
  have key : ∀ x : Byte, inClass (alpha ++ underscore ++ colon) x ∨
      inClass (alpha ++ digit ++ underscore ++ colon) x → isNameByte x = true := by
    intro x hx
    simp only [inClass, alpha, underscore, colon, digit, List.cons_append, List.nil_append, List.mem_cons,
      List.not_mem_nil, or_false, exists_eq_or_imp, exists_eq_left] at hx
    simp only [isNameByte, isLabelByte, inRange, Bool.or_eq_true, Bool.and_eq_true, decide_eq_true_eq, beq_iff_eq,
      UInt8.eq_iff_toNat]
    simp only [UInt8.reduceToNat]
    omega
  refine ⟨b, bs, rfl, ?_, ?_⟩
  · simp only [inClass, alpha, underscore, colon, List.cons_append, List.nil_append, List.mem_cons,
      List.not_mem_nil, or_false, exists_eq_or_imp, exists_eq_left] at h1
    simp only [inRange, Bool.and_eq_false_iff, decide_eq_false_iff_not]
    omega
  · intro x hx
    rcases List.mem_cons.1 hx with rfl | hx
    · exact key _ (.inl h1)
    · exact key _ (.inr (h2 x hx))

theorem tok_label {s : Bytes} (h : LabelNameRe s) : TokOk isLabelByte s := by
  obtain ⟨b, bs, rfl, h1, h2⟩ := h
  have key : ∀ x : Byte, inClass (alpha ++ underscore) x ∨
      inClass (alpha ++ digit ++ underscore) x → isLabelByte x = true := by
    intro x hx
    simp only [inClass, alpha, underscore, digit, List.cons_append, List.nil_append, List.mem_cons,
      List.not_mem_nil, or_false, exists_eq_or_imp, exists_eq_left] at hx
    simp only [isLabelByte, inRange, Bool.or_eq_true, Bool.and_eq_true, decide_eq_true_eq, beq_iff_eq,
      UInt8.eq_iff_toNat]
    simp only [UInt8.reduceToNat]
    omega
  refine ⟨b, bs, rfl, ?_, ?_⟩
  · simp only [inClass, alpha, underscore, List.cons_append, List.nil_append, List.mem_cons,
      List.not_mem_nil, or_false, exists_eq_or_imp, exists_eq_left] at h1
    simp only [inRange, Bool.and_eq_false_iff, decide_eq_false_iff_not]
    omega
  · intro x hx
    rcases List.mem_cons.1 hx with rfl | hx
    · exact key _ (.inl h1)
    · exact key _ (.inr (h2 x hx))

theorem takeWhile_append_stop {p : Byte → Bool} {a : Bytes} {r : Byte} {rs : Bytes} (ha : ∀ x ∈ a, p x = true)
    (hr : p r = false) : (a ++ r :: rs).takeWhile p = a ∧ (a ++ r :: rs).dropWhile p = r :: rs := by
  induction a with
  | nil => simp [hr]
  | cons x xs ih =>
    have hx := ha x (by simp)
    obtain ⟨h1, h2⟩ := ih fun y hy => ha y (by simp [hy])
    simp [hx, h1, h2]

theorem readToken_ok {p : Byte → Bool} {a : Bytes} (ha : TokOk p a) {r : Byte} (rs : Bytes) (hr : p r = false) :
    readToken p (a ++ r :: rs) = some (a, r :: rs) := by
  obtain ⟨b, bs, rfl, hd, hall⟩ := ha
  obtain ⟨h1, h2⟩ := takeWhile_append_stop (rs := rs) hall hr
  simp only [readToken, h1, h2, hd, Bool.false_eq_true, if_false]

/-! ## Quoted strings -/

theorem readQuoted_escape (s r : Bytes) : readQuoted (escape s ++ 0x22 :: r) = some (s, r) := by
  induction s with
  | nil => rfl
  | cons b bs ih =>
    have hcons : escape (b :: bs) = escByte b ++ escape bs := rfl
    rw [hcons, List.append_assoc]
    by_cases h1 : b = 0x5c
    · subst h1; simp [escByte, readQuoted, ih]
    · by_cases h2 : b = 0x22
      · subst h2; simp [escByte, readQuoted, ih]
      · by_cases h3 : b = 0x0a
        · subst h3; simp [escByte, readQuoted, ih]
        · rw [escByte, if_neg h1, if_neg h2, if_neg h3]
          simp only [List.singleton_append]
          rw [readQuoted]
          · rw [ih]; rfl
          · exact h2
          · exact h3
          · exact h1

theorem escape_mem {s : Bytes} {b : Byte} (h : b ∈ escape s) : b ≠ 0x0a := by
  simp only [escape, List.mem_flatMap] at h
  obtain ⟨a, _, ha⟩ := h
  unfold escByte at ha
  split at ha
  · simp at ha; rcases ha with rfl | rfl <;> decide
  · split at ha
    · simp at ha; rcases ha with rfl | rfl <;> decide
    · split at ha
      · simp at ha; rcases ha with rfl | rfl <;> decide
      · simp only [List.mem_singleton] at ha; subst ha; assumption

/-! ## Numbers -/

theorem readDigits_append (a b : Bytes) (acc : Nat) :
    readDigits acc (a ++ b) = (readDigits acc a).bind fun n => readDigits n b := by
  induction a generalizing acc with
  | nil => rfl
  | cons x xs ih =>
    simp only [List.cons_append, readDigits]
    split
    · exact ih _
    · rfl

theorem digit_toNat {d : Nat} (h : d < 10) : (UInt8.ofNat (48 + d)).toNat = 48 + d := by
  rw [UInt8.toNat_ofNat']; omega

theorem decDigits_read (n : Nat) : readDigits 0 (decDigits n) = some n := by
  induction n using decDigits.induct with
  | case1 n h =>
    rw [decDigits, if_pos h]
    simp only [readDigits, inRange, digit_toNat h]
    simp; omega
  | case2 n h ih =>
    rw [decDigits, if_neg h, readDigits_append, ih]
    have hd : n % 10 < 10 := Nat.mod_lt _ (by omega)
    simp only [Option.bind_some, readDigits, inRange, digit_toNat hd]
    have : (decide (48 ≤ 48 + n % 10) && decide (48 + n % 10 ≤ 57)) = true := by simp; omega
    rw [if_pos this]
    congr 1
    omega

theorem decDigits_ne (n : Nat) : decDigits n ≠ [] := by
  rw [decDigits]; split <;> simp

theorem decDigits_mem (n : Nat) : ∀ b ∈ decDigits n, inRange 0x30 0x39 b = true := by
  induction n using decDigits.induct with
  | case1 n h =>
    rw [decDigits, if_pos h]
    intro b hb
    simp only [List.mem_singleton] at hb
    subst hb
    simp only [inRange, digit_toNat h]; simp; omega
  | case2 n h ih =>
    rw [decDigits, if_neg h]
    intro b hb
    rcases List.mem_append.1 hb with hb | hb
    · exact ih b hb
    · simp only [List.mem_singleton] at hb
      subst hb
      have hd : n % 10 < 10 := Nat.mod_lt _ (by omega)
      simp only [inRange, digit_toNat hd]; simp; omega

theorem readInt_itoa (x : Int) : readInt (itoa x) = some x := by
  unfold itoa
  have hne := decDigits_ne x.natAbs
  have hmem := decDigits_mem x.natAbs
  have hrd := decDigits_read x.natAbs
  cases hd : decDigits x.natAbs with
  | nil => exact absurd hd hne
  | cons d ds =>
    rw [hd] at hmem hrd
    have hd1 := hmem d (by simp)
    have hd2 : d ≠ 0x2d := by rintro rfl; simp [inRange] at hd1
    split
    · rw [readInt]
      · rw [hrd]; simp; omega
      · simp
    · rw [readInt]
      · rw [hrd]; simp; omega
      · simp
      · intro h; injection h with h _; exact hd2 h
      · intro ds' h; injection h with h _; exact hd2 h

theorem itoa_mem (x : Int) : ∀ b ∈ itoa x, b = 0x2d ∨ inRange 0x30 0x39 b = true := by
  unfold itoa
  split
  · intro b hb
    rcases List.mem_cons.1 hb with rfl | hb
    · exact .inl rfl
    · exact .inr (decDigits_mem _ b hb)
  · intro b hb; exact .inr (decDigits_mem _ b hb)

/-- What a written number reads as. -/
def valOf : MValue → Val
  | .int x => .int x
  | .float x => .float (if x.isNaN then F64.nan else x)

theorem readVal_value {ryu : F64 → Bytes} {rf : Bytes → Option F64} (F : FloatText ryu rf) (v : MValue) :
    readVal rf (valueText ryu v) = some (valOf v) := by
  cases v with
  | int x => simp [readVal, valueText, readInt_itoa, valOf]
  | float x => simp [readVal, valueText, F.notInt, F.read, valOf]

theorem value_noNewline {ryu : F64 → Bytes} {rf : Bytes → Option F64} (F : FloatText ryu rf) (v : MValue) :
    ∀ b ∈ valueText ryu v, b ≠ 0x0a := by
  cases v with
  | int x =>
    rintro b hb rfl
    rcases itoa_mem x _ hb with h | h
    · exact absurd h (by decide)
    · simp [inRange] at h
  | float x =>
    rintro b hb rfl
    rcases F.bytes x _ hb with h | h | h | h
    · revert h; decide
    all_goals exact absurd h (by decide)

/-! ## Labels -/

theorem labelReads_text {ryu : F64 → Bytes} {rf : Bytes → Option F64} (F : FloatText ryu rf) (x : LVal) :
    LabelReads rf x (labelText ryu x) := by
  cases x with
  | int x => exact readInt_itoa x
  | str s => rfl
  | float x =>
    simp only [LabelReads, labelText, labelFloat]
    by_cases h1 : x.isInf = true
    · simp [h1]
    · simp only [h1, if_false, Bool.false_eq_true]
      by_cases h2 : x.isNaN = true
      · simp [h2]
      · simp only [h2, if_false, Bool.false_eq_true]
        rw [F.read]; simp [h2]

def textsOf (ryu : F64 → Bytes) (ls : Labels) : List (Bytes × Bytes) := ls.map fun l => (l.1, labelText ryu l.2)

theorem labelsRead_texts {ryu : F64 → Bytes} {rf : Bytes → Option F64} (F : FloatText ryu rf) (ls : Labels) :
    LabelsRead rf ls (textsOf ryu ls) := by
  induction ls with
  | nil => exact .nil
  | cons l ls ih => exact .cons ⟨rfl, labelReads_text F l.2⟩ ih

/-- Label names a `LabelName` can hold. -/
def LabelsOk (ls : Labels) : Prop := ∀ l ∈ ls, LabelNameRe l.1

theorem readLabels_render (ryu : F64 → Bytes) : ∀ (ls : Labels) (l : Bytes × LVal) (fuel : Nat) (r : Bytes),
    LabelsOk (l :: ls) → ls.length < fuel →
    readLabels fuel (renderLabel ryu l ++ renderMore ryu ls ++ 0x7d :: r) = some (textsOf ryu (l :: ls), r) := by
  intro ls
  induction ls with
  | nil =>
    intro l fuel r hok hf
    obtain ⟨f, rfl⟩ : ∃ f, fuel = f + 1 := ⟨fuel - 1, by simp at hf; omega⟩
    have htok := tok_label (hok l (by simp))
    simp only [readLabels, renderLabel, renderMore, List.flatMap_nil, List.append_assoc, List.cons_append,
      List.nil_append]
    rw [readToken_ok htok _ (by decide)]
    simp only [readQuoted_escape, textsOf, List.map_cons, List.map_nil]
  | cons l' ls ih =>
    intro l fuel r hok hf
    obtain ⟨f, rfl⟩ : ∃ f, fuel = f + 1 := ⟨fuel - 1, by simp at hf; omega⟩
    have htok := tok_label (hok l (by simp))
    have hrec := ih l' f r (fun x hx => hok x (List.mem_cons_of_mem _ hx)) (by simp at hf; omega)
    have hsplit : renderLabel ryu l ++ renderMore ryu (l' :: ls) ++ 0x7d :: r =
        l.1 ++ 0x3d :: 0x22 :: (escape (labelText ryu l.2) ++
          0x22 :: 0x2c :: (renderLabel ryu l' ++ renderMore ryu ls ++ 0x7d :: r)) := by
      simp [renderLabel, renderMore]
    rw [hsplit]
    simp only [readLabels]
    rw [readToken_ok htok _ (by decide)]
    simp only [readQuoted_escape, hrec, textsOf, List.map_cons, Option.map_some]

theorem renderMore_length (ryu : F64 → Bytes) (ls : Labels) : ls.length ≤ (renderMore ryu ls).length := by
  induction ls with
  | nil => simp
  | cons l ls ih => simp [renderMore] at *; omega

theorem renderLabel_noNewline {ryu : F64 → Bytes} {l : Bytes × LVal} (h : LabelNameRe l.1) :
    ∀ b ∈ renderLabel ryu l, b ≠ 0x0a := by
  rintro b hb rfl
  simp only [renderLabel, List.mem_append] at hb
  rcases hb with hb | (hb | hb) | hb
  · obtain ⟨_, _, _, _, hall⟩ := tok_label h
    have := hall _ hb
    revert this; decide
  · revert hb; decide
  · exact escape_mem hb rfl
  · revert hb; decide

theorem renderLabels_noNewline {ryu : F64 → Bytes} {ls : Labels} (h : LabelsOk ls) :
    ∀ b ∈ renderLabels ryu ls, b ≠ 0x0a := by
  cases ls with
  | nil => intro b hb; cases hb
  | cons l ls =>
    rintro b hb rfl
    simp only [renderLabels, renderMore, List.mem_append, List.mem_flatMap] at hb
    rcases hb with ((hb | hb) | ⟨l', hl', hb | hb⟩) | hb
    · revert hb; decide
    · exact renderLabel_noNewline (h l (by simp)) _ hb rfl
    · revert hb; decide
    · exact renderLabel_noNewline (h l' (by simp [hl'])) _ hb rfl
    · revert hb; decide

/-! ## Sample lines -/

theorem readSample_text {ryu : F64 → Bytes} {rf : Bytes → Option F64} (F : FloatText ryu rf) (n : Name) (ls : Labels)
    (v : MValue) (hn : MetricNameRe n.render) (hl : LabelsOk ls) :
    readSample rf (sampleText ryu n ls v) = some ⟨n.render, textsOf ryu ls, valOf v⟩ := by
  have htok := tok_metric hn
  unfold sampleText
  cases ls with
  | nil =>
    simp only [renderLabels, List.append_nil, List.append_assoc, List.cons_append, List.nil_append, readSample]
    rw [readToken_ok htok _ (by decide)]
    simp only [readVal_value F, Option.map_some, textsOf, List.map_nil]
  | cons l ls =>
    have hsplit : n.render ++ renderLabels ryu (l :: ls) ++ b!" " ++ valueText ryu v =
        n.render ++ 0x7b :: (renderLabel ryu l ++ renderMore ryu ls ++ 0x7d :: 0x20 :: valueText ryu v) := by
      simp [renderLabels]
    rw [hsplit]
    simp only [readSample]
    rw [readToken_ok htok _ (by decide)]
    simp only
    rw [readLabels_render ryu ls l _ _ hl (by
      have := renderMore_length ryu ls
      simp; omega)]
    simp only [readVal_value F, Option.map_some]

theorem sampleText_noNewline {ryu : F64 → Bytes} {rf : Bytes → Option F64} (F : FloatText ryu rf) {n : Name}
    {ls : Labels} (v : MValue) (hn : MetricNameRe n.render) (hl : LabelsOk ls) :
    ∀ b ∈ sampleText ryu n ls v, b ≠ 0x0a := by
  rintro b hb rfl
  simp only [sampleText, List.mem_append] at hb
  rcases hb with ((hb | hb) | hb) | hb
  · obtain ⟨_, _, _, _, hall⟩ := tok_metric hn
    have := hall _ hb
    revert this; decide
  · exact renderLabels_noNewline hl _ hb rfl
  · revert hb; decide
  · exact value_noNewline F v _ hb rfl

theorem strip_name {n : Bytes} (hn : TokOk isNameByte n) (p r : Bytes) : stripPrefix (0x23 :: p) (n ++ r) = none := by
  obtain ⟨b, bs, rfl, _, hall⟩ := hn
  have hb := hall b (by simp)
  have : ¬ (0x23 : Byte) = b := by rintro rfl; revert hb; decide
  simp [stripPrefix, this]

theorem readLine_sample {ryu : F64 → Bytes} {rf : Bytes → Option F64} (F : FloatText ryu rf) (n : Name) (ls : Labels)
    (v : MValue) (hn : MetricNameRe n.render) (hl : LabelsOk ls) :
    readLine rf (sampleText ryu n ls v) = some (.sample ⟨n.render, textsOf ryu ls, valOf v⟩) := by
  have htok := tok_metric hn
  have h1 := readSample_text F n ls v hn hl
  have hne : sampleText ryu n ls v ≠ [] := by
    obtain ⟨b, bs, e, _⟩ := htok
    simp [sampleText, e]
  unfold readLine
  rw [if_neg hne, h1]
  unfold sampleText
  rw [List.append_assoc, List.append_assoc, strip_name htok]
  simp only
  rw [strip_name htok]
  rfl

/-! ## Help and type lines -/

theorem unescapeHelp_plain {s : Bytes} (h : (0x5c : Byte) ∉ s) : unescapeHelp s = some s := by
  induction s with
  | nil => rfl
  | cons b bs ih =>
    simp only [List.mem_cons, not_or] at h
    rw [unescapeHelp]
    · rw [ih h.2]; rfl
    · exact fun hb => h.1 hb.symm

/-- Help texts that survive: no line feed, no backslash, not starting with a blank. -/
def HelpOk (t : Bytes) : Prop :=
  (0x0a : Byte) ∉ t ∧ (0x5c : Byte) ∉ t ∧ ∀ b bs, t = b :: bs → isBlank b = false

def helpText (n : Name) (help : Bytes) : Bytes := b!"# HELP " ++ n.render ++ b!" " ++ help

theorem readLine_help {rf : Bytes → Option F64} (n : Name) (t : Bytes) (hn : MetricNameRe n.render) (ht : HelpOk t) :
    readLine rf (helpText n t) = some (.help n.render t) := by
  have hstrip : stripPrefix b!"# HELP " (helpText n t) = some (n.render ++ 0x20 :: t) := by
    simp [helpText, stripPrefix]
  have hne : helpText n t ≠ [] := by simp [helpText]
  have hdrop : t.dropWhile isBlank = t := by
    cases t with
    | nil => rfl
    | cons b bs => simp [ht.2.2 b bs rfl]
  unfold readLine
  rw [if_neg hne, hstrip]
  simp only [readHelpLine]
  rw [readToken_ok (tok_metric hn) _ (by decide)]
  simp only [hdrop, unescapeHelp_plain ht.2.1, Option.map_some]

def typeWord : MetricType → TypeWord
  | .counter => .counter
  | .histogram => .histogram
  | .gauge => .gauge
  | .summary => .summary
  | .untyped => .untyped

/-- The word itself. -/
def typeText : MetricType → Bytes
  | .counter => b!"counter"
  | .histogram => b!"histogram"
  | .gauge => b!"gauge"
  | .summary => b!"summary"
  | .untyped => b!"untyped"

def typeLineText (n : Name) (t : MetricType) : Bytes := b!"# TYPE " ++ n.render ++ b!" " ++ typeText t

theorem typeLine_eq (n : Name) (t : MetricType) : typeLine n t = typeLineText n t ++ b!"\n" := by
  cases t <;> simp [typeLine, typeLineText, MetricType.text, typeText]

theorem helpLine_eq (n : Name) (t : Bytes) : helpLine n t = helpText n t ++ b!"\n" := by
  simp [helpLine, helpText]

theorem readLine_type {rf : Bytes → Option F64} (n : Name) (t : MetricType) (hn : MetricNameRe n.render) :
    readLine rf (typeLineText n t) = some (.type n.render (typeWord t)) := by
  have h1 : stripPrefix b!"# HELP " (typeLineText n t) = none := by simp [typeLineText, stripPrefix]
  have h2 : stripPrefix b!"# TYPE " (typeLineText n t) = some (n.render ++ 0x20 :: typeText t) := by
    simp [typeLineText, stripPrefix]
  have hne : typeLineText n t ≠ [] := by simp [typeLineText]
  unfold readLine
  rw [if_neg hne, h1]
  simp only [h2, readTypeLine]
  rw [readToken_ok (tok_metric hn) _ (by decide)]
  cases t <;> rfl

theorem name_noNewline {n : Name} (hn : MetricNameRe n.render) : ∀ b ∈ n.render, b ≠ 0x0a := by
  rintro b hb rfl
  obtain ⟨_, _, _, _, hall⟩ := tok_metric hn
  have := hall _ hb
  revert this; decide

theorem helpText_noNewline {n : Name} {t : Bytes} (hn : MetricNameRe n.render) (ht : (0x0a : Byte) ∉ t) :
    ∀ b ∈ helpText n t, b ≠ 0x0a := by
  rintro b hb rfl
  simp only [helpText, List.mem_append] at hb
  rcases hb with ((hb | hb) | hb) | hb
  · revert hb; decide
  · exact name_noNewline hn _ hb rfl
  · revert hb; decide
  · exact ht hb

theorem typeText_noNewline {n : Name} (t : MetricType) (hn : MetricNameRe n.render) :
    ∀ b ∈ typeLineText n t, b ≠ 0x0a := by
  rintro b hb rfl
  simp only [typeLineText, List.mem_append] at hb
  rcases hb with ((hb | hb) | hb) | hb
  · revert hb; decide
  · exact name_noNewline hn _ hb rfl
  · revert hb; decide
  · revert hb; cases t <;> decide

/-! ## Whole texts -/

theorem splitLines_line {l : Bytes} (hl : ∀ b ∈ l, b ≠ 0x0a) (rest : Bytes) :
    splitLines (l ++ 0x0a :: rest) = (splitLines rest).map (l :: ·) := by
  induction l with
  | nil => simp [splitLines]
  | cons b bs ih =>
    rw [List.cons_append, splitLines, if_neg (hl b (by simp)), ih fun x hx => hl x (by simp [hx])]
    cases splitLines rest <;> rfl

/-- A text made of the given lines. -/
def unlines (ls : List Bytes) : Bytes := ls.flatMap fun l => l ++ b!"\n"

theorem splitLines_unlines (ls : List Bytes) (h : ∀ l ∈ ls, ∀ b ∈ l, b ≠ 0x0a) : splitLines (unlines ls) = some ls := by
  induction ls with
  | nil => rfl
  | cons l ls ih =>
    have : unlines (l :: ls) = l ++ 0x0a :: unlines ls := by simp [unlines]
    rw [this, splitLines_line (h l (by simp)), ih fun x hx => h x (by simp [hx])]
    rfl

theorem readLines_unlines {rf : Bytes → Option F64} (ls : List (Bytes × Line))
    (h1 : ∀ p ∈ ls, ∀ b ∈ p.1, b ≠ 0x0a) (h2 : ∀ p ∈ ls, readLine rf p.1 = some p.2) :
    readLines rf (unlines (ls.map Prod.fst)) = some (ls.map Prod.snd) := by
  unfold readLines
  rw [splitLines_unlines]
  · simp only
    induction ls with
    | nil => rfl
    | cons p ls ih =>
      simp only [List.map_cons, readAll]
      rw [h2 p (by simp), ih (fun q hq => h1 q (by simp [hq])) (fun q hq => h2 q (by simp [hq]))]
  · intro l hl
    obtain ⟨p, hp, rfl⟩ := List.mem_map.1 hl
    exact h1 p hp

theorem unlines_append (a b : List Bytes) : unlines (a ++ b) = unlines a ++ unlines b := List.flatMap_append

end Measured
