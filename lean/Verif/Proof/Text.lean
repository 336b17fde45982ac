import Verif.Model.Text
import Verif.Spec.Text
import Verif.Proof.Name
import Verif.Proof.Histogram

/-! What the text encoder writes into a buffer. -/

namespace Measured
open Spec

/-! ## Rendering -/

def escByte (b : Byte) : Bytes :=
  if b = 0x5c then b!"\\\\" else if b = 0x22 then b!"\\\"" else if b = 0x0a then b!"\\n" else [b]

/-- The escaped form of a string. -/
def escape (s : Bytes) : Bytes := s.flatMap escByte

def special (b : Byte) : Bool := b == 0x5c || b == 0x22 || b == 0x0a

theorem escByte_plain {b : Byte} (h : special b = false) : escByte b = [b] := by
  simp only [special, Bool.or_eq_false_iff, beq_eq_false_iff_ne, ne_eq] at h
  simp [escByte, h]

theorem escape_plain {s : Bytes} (h : ∀ b ∈ s, special b = false) : escape s = s := by
  induction s with
  | nil => rfl
  | cons b bs ih =>
    simp only [escape, List.flatMap_cons] at *
    rw [escByte_plain (h b (by simp)), ih fun x hx => h x (by simp [hx])]
    rfl

theorem escape_append (a b : Bytes) : escape (a ++ b) = escape a ++ escape b := List.flatMap_append

def posFrom (s : Bytes) (k : Nat) : List Nat :=
  (List.range' k (s.length - k)).filter fun j => s[j]? == some 0x5c || s[j]? == some 0x22 || s[j]? == some 0x0a

theorem specialPositions_eq (s : Bytes) : specialPositions s = posFrom s 0 := by
  simp [specialPositions, posFrom, List.range_eq_range']

theorem labelStrLoop_bytes (s : Bytes) : ∀ (n k i : Nat), s.length - k = n → i ≤ k → k ≤ s.length →
    (∀ b ∈ (s.take k).drop i, special b = false) → ∀ w : Bytes,
    labelStrLoop s i (posFrom s k) w = (.ok (), w ++ escape (s.drop i)) := by
  intro n
  induction n with
  | zero =>
    intro k i hn hik hk hpl w
    have hpos : posFrom s k = [] := by simp [posFrom, hn]
    have hk' : k = s.length := by omega
    rw [hpos]
    simp only [labelStrLoop, writeAll_bytes]
    rw [escape_plain]
    rw [hk', List.take_length] at hpl
    exact hpl
  | succ n ih =>
    intro k i hn hik hk hpl w
    have hlt : k < s.length := by omega
    have hsplit : s.drop i = (s.take k).drop i ++ s[k] :: s.drop (k + 1) := by
      rw [← List.drop_eq_getElem_cons hlt]
      conv_lhs => rw [← List.take_append_drop k s]
      rw [List.drop_append_of_le_length (by simp; omega)]
    have htake : (s.take (k + 1)).drop i = (s.take k).drop i ++ [s[k]] := by
      rw [List.take_succ_eq_append_getElem hlt, List.drop_append_of_le_length (by simp; omega)]
    have hpos : posFrom s k = if special s[k] then k :: posFrom s (k + 1) else posFrom s (k + 1) := by
      unfold posFrom
      rw [hn, List.range'_succ, List.filter_cons, show s.length - (k + 1) = n by omega]
      simp [special, List.getElem?_eq_getElem hlt]
    rw [hpos]
    by_cases hsp : special s[k] = true
    · rw [if_pos hsp]
      simp only [labelStrLoop]
      have hrec := ih (k + 1) (k + 1) (by omega) (Nat.le_refl _) (by omega) (by simp)
      have hesc : ∀ w : Bytes, (writeEscape s[k]? : RS Bytes Unit) w = (.ok (), w ++ escByte s[k]) := by
        intro w
        rw [List.getElem?_eq_getElem hlt]
        generalize s[k] = b at hsp
        simp only [special, Bool.or_eq_true, beq_iff_eq] at hsp
        rcases hsp with (rfl | rfl) | rfl <;> rfl
      rw [RS.bind_ok (writeAll_bytes _ _), RS.bind_ok (hesc _), hrec, hsplit, escape_append,
        escape_plain hpl]
      simp only [escape, List.flatMap_cons, List.append_assoc]
    · rw [if_neg hsp]
      apply ih (k + 1) i (by omega) (by omega) (by omega)
      rw [htake]
      intro b hb
      rcases List.mem_append.1 hb with hb | hb
      · exact hpl b hb
      · simp only [List.mem_singleton] at hb
        subst hb
        simpa using hsp

theorem writeLabelStrValue_bytes (s w : Bytes) :
    (writeLabelStrValue s : RS Bytes Unit) w = (.ok (), w ++ escape s) := by
  unfold writeLabelStrValue
  rw [specialPositions_eq]
  exact labelStrLoop_bytes s _ 0 0 rfl (Nat.le_refl _) (Nat.zero_le _) (by simp) w

/-- The text of a label value, before escaping. -/
def labelText (ryu : F64 → Bytes) : LVal → Bytes
  | .int x => itoa x
  | .float x => labelFloat ryu x
  | .str s => s

theorem visitLabel_bytes (ryu : F64 → Bytes) (x : LVal) (w : Bytes) :
    (visitLabel ryu x : RS Bytes Unit) w = (.ok (), w ++ (b!"=\"" ++ escape (labelText ryu x) ++ b!"\"")) := by
  have h : ∀ s : Bytes, (visitorStr s : RS Bytes Unit) w = (.ok (), w ++ (b!"=\"" ++ escape s ++ b!"\"")) := by
    intro s
    simp only [visitorStr]
    rw [RS.bind_ok (writeAll_bytes _ _), RS.bind_ok (writeLabelStrValue_bytes _ _), writeAll_bytes]
    simp
  cases x <;> exact h _

/-- `name="value"` -/
def renderLabel (ryu : F64 → Bytes) (l : Bytes × LVal) : Bytes :=
  l.1 ++ (b!"=\"" ++ escape (labelText ryu l.2) ++ b!"\"")

/-- The labels after the first one. -/
def renderMore (ryu : F64 → Bytes) (ls : Labels) : Bytes := ls.flatMap fun l => b!"," ++ renderLabel ryu l

def renderLabels (ryu : F64 → Bytes) : Labels → Bytes
  | [] => []
  | l :: ls => b!"{" ++ renderLabel ryu l ++ renderMore ryu ls ++ b!"}"

theorem groupValue_bytes (ryu : F64 → Bytes) (first : Bool) (n : Bytes) (x : LVal) (w : Bytes) :
    (groupValue ryu first n x : RS Bytes Unit) w =
      (.ok (), w ++ ((if first then b!"{" else b!",") ++ renderLabel ryu (n, x))) := by
  have h : ∀ w : Bytes, (openOrComma first : RS Bytes Unit) w =
      (.ok (), w ++ (if first then b!"{" else b!",")) := by
    intro w; cases first <;> rfl
  simp only [groupValue]
  rw [RS.bind_ok (h _), RS.bind_ok (writeAll_bytes _ _), visitLabel_bytes]
  simp [renderLabel]

theorem visitLabels_false (ryu : F64 → Bytes) (ls : Labels) (w : Bytes) :
    (visitLabels ryu false ls : RS Bytes Bool) w = (.ok false, w ++ renderMore ryu ls) := by
  induction ls generalizing w with
  | nil => simp [visitLabels, renderMore]
  | cons l ls ih =>
    obtain ⟨n, x⟩ := l
    simp only [visitLabels, groupValue_bytes, ih]
    simp [renderMore]

theorem visitLabels_bytes (ryu : F64 → Bytes) (l : Bytes × LVal) (ls : Labels) (w : Bytes) :
    (visitLabels ryu true (l :: ls) : RS Bytes Bool) w =
      (.ok false, w ++ (b!"{" ++ renderLabel ryu l ++ renderMore ryu ls)) := by
  obtain ⟨n, x⟩ := l
  simp only [visitLabels, groupValue_bytes, visitLabels_false]
  simp

/-! ## Encoder calls on a buffer -/

def sep : TState → Bytes
  | .info => []
  | .metrics => b!"\n"

theorem onWriter_bytes {α : Type} {x : RS Bytes α} {a : α} {e : TextEnc Bytes} {out : Bytes}
    (h : x e.writer = (.ok a, e.writer ++ out)) :
    onWriter x e = (.ok a, { e with writer := e.writer ++ out }) := by
  simp only [onWriter, h]

theorem textSep_bytes (e : TextEnc Bytes) :
    textSep e = (.ok (), { e with writer := e.writer ++ sep e.state }) := by
  rcases e with ⟨st, w⟩
  cases st
  · simp [textSep, sep]
  · rfl

def helpLine (n : Name) (help : Bytes) : Bytes := b!"# HELP " ++ n.render ++ b!" " ++ help ++ b!"\n"

theorem textHelp_bytes (n : Name) (help : Bytes) (e : TextEnc Bytes) :
    textHelp n help e = (.ok (), ⟨.info, e.writer ++ sep e.state ++ helpLine n help⟩) := by
  unfold textHelp
  rw [RS.bind_ok (textSep_bytes e)]
  rw [RS.bind_ok (show setState .info _ = (.ok (), _) from rfl)]
  rw [RS.bind_ok (onWriter_bytes (writeAll_bytes _ _)), RS.bind_ok (onWriter_bytes (Name.encodeUtf8_bytes _ _)),
    RS.bind_ok (onWriter_bytes (writeAll_bytes _ _)), RS.bind_ok (onWriter_bytes (writeAll_bytes _ _)),
    onWriter_bytes (writeAll_bytes _ _)]
  simp [helpLine]

def typeLine (n : Name) (t : MetricType) : Bytes := b!"# TYPE " ++ n.render ++ t.text

theorem textType_bytes (n : Name) (t : MetricType) (e : TextEnc Bytes) :
    textType n t e = (.ok (), ⟨.info, e.writer ++ sep e.state ++ typeLine n t⟩) := by
  unfold textType
  rw [RS.bind_ok (textSep_bytes e)]
  rw [RS.bind_ok (show setState .info _ = (.ok (), _) from rfl)]
  rw [RS.bind_ok (onWriter_bytes (writeAll_bytes _ _)), RS.bind_ok (onWriter_bytes (Name.encodeUtf8_bytes _ _)),
    onWriter_bytes (writeAll_bytes _ _)]
  simp [typeLine]

def valueText (ryu : F64 → Bytes) : MValue → Bytes
  | .int x => itoa x
  | .float x => ryu x

/-- A sample line without its line feed. -/
def sampleText (ryu : F64 → Bytes) (n : Name) (ls : Labels) (v : MValue) : Bytes :=
  n.render ++ renderLabels ryu ls ++ b!" " ++ valueText ryu v

def sampleLine (ryu : F64 → Bytes) (n : Name) (ls : Labels) (v : MValue) : Bytes := sampleText ryu n ls v ++ b!"\n"

theorem textValue_bytes (ryu : F64 → Bytes) (n : Name) (ls : Labels) (v : MValue) (e : TextEnc Bytes) :
    textValue ryu n ls v e = (.ok (), ⟨.metrics, e.writer ++ sampleLine ryu n ls v⟩) := by
  have hval : ∀ e : TextEnc Bytes, textNumber ryu v e =
      (.ok (), { e with writer := e.writer ++ valueText ryu v }) := by
    intro e; cases v <;> rfl
  unfold textValue
  rw [RS.bind_ok (show setState .metrics e = (.ok (), _) from rfl),
    RS.bind_ok (onWriter_bytes (Name.encodeUtf8_bytes _ _))]
  cases ls with
  | nil =>
    rw [RS.bind_ok (onWriter_bytes (a := true) (out := []) (by simp [visitLabels]))]
    rw [RS.bind_ok (show textClose true _ = (.ok (), _) from rfl), RS.bind_ok (onWriter_bytes (writeAll_bytes _ _)), RS.bind_ok (hval _),
      onWriter_bytes (writeAll_bytes _ _)]
    simp [sampleLine, sampleText, renderLabels]
  | cons l ls =>
    rw [RS.bind_ok (onWriter_bytes (visitLabels_bytes _ _ _ _))]
    rw [RS.bind_ok (show textClose false _ = (.ok (), _) from onWriter_bytes (writeAll_bytes _ _)),
      RS.bind_ok (onWriter_bytes (writeAll_bytes _ _)), RS.bind_ok (hval _), onWriter_bytes (writeAll_bytes _ _)]
    simp [sampleLine, sampleText, renderLabels]

/-! ## Histograms -/

/-- Running totals without overflow. -/
def totals : Nat → List Nat → List Nat
  | _, [] => []
  | val, b :: bs => (val + b) :: totals (val + b) bs

theorem totals_length (v : Nat) (bs : List Nat) : (totals v bs).length = bs.length := by
  induction bs generalizing v with
  | nil => rfl
  | cons b bs ih => simp [totals, ih]

theorem addU_ok {m : Mode} {a b : Nat} (h : a + b < W64) : addU m a b = .ok (a + b) := by simp [addU, h]

def bucketLines (ryu : F64 → Bytes) (n : Name) (ls : Labels) : List F64 → List Nat → Bytes
  | le :: les, c :: cs =>
    sampleLine ryu (.suffix n .bucket) (ls ++ [(b!"le", .float le)]) (.int (asI64 c)) ++ bucketLines ryu n ls les cs
  | _, _ => []

theorem textBuckets_bytes (m : Mode) (ryu : F64 → Bytes) (n : Name) (ls : Labels) :
    ∀ (les : List F64) (bs : List Nat) (val : Nat) (e : TextEnc Bytes), les.length = bs.length →
      val + bs.sum < W64 →
      textBuckets m ryu n ls les bs val e =
        (.ok (val + bs.sum), ⟨if bs = [] then e.state else .metrics,
          e.writer ++ bucketLines ryu n ls les (totals val bs)⟩) := by
  intro les
  induction les with
  | nil =>
    intro bs val e hl hb
    cases bs with
    | nil => simp [textBuckets, bucketLines, totals]
    | cons b bs => simp at hl
  | cons le les ih =>
    intro bs val e hl hb
    cases bs with
    | nil => simp at hl
    | cons b bs =>
      rw [List.sum_cons] at hb
      simp only [textBuckets]
      rw [RS.bind_ok (show RS.lift (addU m val b) e = (.ok (val + b), e) by
        rw [addU_ok (by omega)]; rfl)]
      rw [RS.bind_ok (textValue_bytes _ _ _ _ _), ih bs (val + b) _ (by simpa using hl) (by omega)]
      simp only [totals, bucketLines, List.sum_cons, Prod.mk.injEq, Out.ok.injEq, TextEnc.mk.injEq]
      refine ⟨by omega, by split <;> simp, by simp⟩

/-- All lines of a histogram. -/
def histLines (ryu : F64 → Bytes) (le : List F64) (h : HistInner) (ls : Labels) (n : Name) : Bytes :=
  bucketLines ryu n ls le (totals 0 h.buckets) ++
  sampleLine ryu (.suffix n .bucket) (ls ++ [(b!"le", .float F64.infinity)]) (.int (asI64 (h.buckets.sum + h.inf))) ++
  sampleLine ryu (.suffix n .sum) ls (.float h.sum) ++
  sampleLine ryu (.suffix n .count) ls (.int (asI64 (h.buckets.sum + h.inf)))

theorem textHistogram_bytes (m : Mode) (ryu : F64 → Bytes) (le : List F64) (h : HistInner) (ls : Labels) (n : Name)
    (e : TextEnc Bytes) (hl : le.length = h.buckets.length) (hb : h.buckets.sum + h.inf < W64) :
    textHistogram m ryu le h ls n e = (.ok (), ⟨.metrics, e.writer ++ histLines ryu le h ls n⟩) := by
  unfold textHistogram
  simp only [HistInner.sample]
  rw [RS.bind_ok (textBuckets_bytes m ryu n ls le h.buckets 0 e hl (by omega))]
  rw [RS.bind_ok (show RS.lift (addU m (0 + h.buckets.sum) h.inf) _ =
    (.ok (h.buckets.sum + h.inf), _) by rw [Nat.zero_add, addU_ok hb]; rfl)]
  rw [RS.bind_ok (textValue_bytes _ _ _ _ _), RS.bind_ok (textValue_bytes _ _ _ _ _), textValue_bytes]
  simp [histLines]

end Measured
