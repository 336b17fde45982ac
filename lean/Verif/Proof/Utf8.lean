import Verif.Proof.Text
import Verif.Spec.Utf8

/-! UTF-8 is preserved by escaping and by every encoder call. -/

namespace Measured
open Spec

theorem utf8_nil : Utf8 [] := ⟨[], rfl⟩

theorem utf8_append {a b : Bytes} (ha : Utf8 a) (hb : Utf8 b) : Utf8 (a ++ b) := by
  obtain ⟨x, rfl⟩ := ha
  obtain ⟨y, rfl⟩ := hb
  exact ⟨x ++ y, by simp⟩

theorem utf8_flatMap {α : Type} {f : α → Bytes} {l : List α} (h : ∀ a ∈ l, Utf8 (f a)) : Utf8 (l.flatMap f) := by
  induction l with
  | nil => exact utf8_nil
  | cons a l ih =>
    rw [List.flatMap_cons]
    exact utf8_append (h a (by simp)) (ih fun b hb => h b (by simp [hb]))

theorem utf8_ascii_byte {b : Byte} (h : b.toNat < 128) : Utf8 [b] := by
  refine ⟨[Char.ofNat b.toNat], ?_⟩
  have hv : (Char.ofNat b.toNat).val.toNat = b.toNat := by
    rw [Char.ofNat, dif_pos (Or.inl (by omega))]
    rfl
  simp only [List.flatMap_cons, List.flatMap_nil, List.append_nil, String.utf8EncodeChar, hv]
  rw [if_pos (by omega)]
  simp

theorem utf8_ascii {s : Bytes} (h : ∀ b ∈ s, b.toNat < 128) : Utf8 s := by
  have : s = s.flatMap fun b => [b] := by simp
  rw [this]
  exact utf8_flatMap fun b hb => utf8_ascii_byte (h b hb)

theorem utf8_escape {s : Bytes} (h : Utf8 s) : Utf8 (escape s) := by
  obtain ⟨cs, rfl⟩ := h
  induction cs with
  | nil => exact utf8_nil
  | cons c cs ih =>
    rw [List.flatMap_cons, escape_append]
    refine utf8_append ?_ ih
    by_cases hc : c.val.toNat ≤ 127
    · simp only [String.utf8EncodeChar, hc, if_true, escape, List.flatMap_cons, List.flatMap_nil, List.append_nil]
      apply utf8_ascii
      have hb : (UInt8.ofNat c.val.toNat).toNat < 128 := by rw [UInt8.toNat_ofNat']; omega
      generalize UInt8.ofNat c.val.toNat = b at hb
      intro x hx
      unfold escByte at hx
      split at hx
      · revert x; decide
      · split at hx
        · revert x; decide
        · split at hx
          · revert x; decide
          · simp only [List.mem_singleton] at hx; subst hx; exact hb
    · rw [escape_plain]
      · exact ⟨[c], by simp⟩
      · have big : ∀ n, 128 ≤ n → n < 256 → special (UInt8.ofNat n) = false := by
          intro n h1 h2
          simp only [special, Bool.or_eq_false_iff, beq_eq_false_iff_ne, ne_eq, UInt8.eq_iff_toNat]
          rw [UInt8.toNat_ofNat']
          simp only [UInt8.reduceToNat]
          omega
        intro b hb
        simp only [String.utf8EncodeChar, hc, if_false] at hb
        split at hb
        · simp only [List.mem_cons, List.not_mem_nil, or_false] at hb
          rcases hb with rfl | rfl <;> apply big <;> omega
        · split at hb
          · simp only [List.mem_cons, List.not_mem_nil, or_false] at hb
            rcases hb with rfl | rfl | rfl <;> apply big <;> omega
          · simp only [List.mem_cons, List.not_mem_nil, or_false] at hb
            rcases hb with rfl | rfl | rfl | rfl <;> apply big <;> omega

/-! ## What is written -/

theorem utf8_name {n : Name} (hns : ∀ x ∈ n.namespaces, Utf8 x) (hb : Utf8 n.base) : Utf8 n.render := by
  induction n with
  | str s => exact hb
  | ns p inner ih =>
    simp only [Name.namespaces, List.forall_mem_cons, Name.base] at hns hb
    exact utf8_append (utf8_append hns.1 (utf8_ascii (by decide))) (ih hns.2 hb)
  | suffix inner s ih =>
    refine utf8_append (ih hns hb) (utf8_ascii ?_)
    cases s <;> decide

def NameUtf8 (n : Name) : Prop := (∀ x ∈ n.namespaces, Utf8 x) ∧ Utf8 n.base

def LValUtf8 : LVal → Prop
  | .str s => Utf8 s
  | _ => True

def LabelsUtf8 (ls : Labels) : Prop := ∀ l ∈ ls, Utf8 l.1 ∧ LValUtf8 l.2

/-- ASCII output of the float formatter. -/
def FloatAscii (ryu : F64 → Bytes) : Prop := ∀ x, ∀ b ∈ ryu x, b.toNat < 128

theorem decDigits_ascii (n : Nat) : ∀ b ∈ decDigits n, b.toNat < 128 := by
  induction n using decDigits.induct with
  | case1 n h =>
    rw [decDigits, if_pos h]
    intro b hb
    simp only [List.mem_singleton] at hb
    subst hb
    rw [UInt8.toNat_ofNat']; omega
  | case2 n h ih =>
    rw [decDigits, if_neg h]
    intro b hb
    rcases List.mem_append.1 hb with hb | hb
    · exact ih b hb
    · simp only [List.mem_singleton] at hb
      subst hb
      rw [UInt8.toNat_ofNat']; omega

theorem itoa_ascii (x : Int) : ∀ b ∈ itoa x, b.toNat < 128 := by
  unfold itoa
  split
  · intro b hb
    rcases List.mem_cons.1 hb with rfl | hb
    · decide
    · exact decDigits_ascii _ b hb
  · exact decDigits_ascii _

theorem utf8_labelText {ryu : F64 → Bytes} (F : FloatAscii ryu) {x : LVal} (h : LValUtf8 x) : Utf8 (labelText ryu x) := by
  cases x with
  | int x => exact utf8_ascii (itoa_ascii x)
  | str s => exact h
  | float x =>
    simp only [labelText, labelFloat]
    split
    · split <;> exact utf8_ascii (by decide)
    · split
      · exact utf8_ascii (by decide)
      · exact utf8_ascii (F x)

theorem utf8_renderLabel {ryu : F64 → Bytes} (F : FloatAscii ryu) {l : Bytes × LVal} (h : Utf8 l.1 ∧ LValUtf8 l.2) :
    Utf8 (renderLabel ryu l) :=
  utf8_append h.1 (utf8_append (utf8_append (utf8_ascii (by decide)) (utf8_escape (utf8_labelText F h.2)))
    (utf8_ascii (by decide)))

theorem utf8_renderLabels {ryu : F64 → Bytes} (F : FloatAscii ryu) {ls : Labels} (h : LabelsUtf8 ls) :
    Utf8 (renderLabels ryu ls) := by
  cases ls with
  | nil => exact utf8_nil
  | cons l ls =>
    refine utf8_append (utf8_append (utf8_append (utf8_ascii (by decide)) (utf8_renderLabel F (h l (by simp)))) ?_)
      (utf8_ascii (by decide))
    exact utf8_flatMap fun x hx => utf8_append (utf8_ascii (by decide)) (utf8_renderLabel F (h x (by simp [hx])))

theorem utf8_sampleLine {ryu : F64 → Bytes} (F : FloatAscii ryu) {n : Name} {ls : Labels} (v : MValue)
    (hn : NameUtf8 n) (hl : LabelsUtf8 ls) : Utf8 (sampleLine ryu n ls v) := by
  refine utf8_append (utf8_append (utf8_append (utf8_append (utf8_name hn.1 hn.2) (utf8_renderLabels F hl))
    (utf8_ascii (by decide))) ?_) (utf8_ascii (by decide))
  cases v with
  | int x => exact utf8_ascii (itoa_ascii x)
  | float x => exact utf8_ascii (F x)

/-! ## Encoder calls keep the buffer valid, also when they panic -/

def Keeps {α : Type} (x : RS (TextEnc Bytes) α) : Prop := ∀ e, Utf8 e.writer → Utf8 (x e).2.writer

theorem keeps_bind {α β : Type} {x : RS (TextEnc Bytes) α} {f : α → RS (TextEnc Bytes) β} (hx : Keeps x)
    (hf : ∀ a, Keeps (f a)) : Keeps (x >>= f) := by
  intro e he
  have h1 := hx e he
  rw [RS.bind_run]
  split
  · rename_i a s h; rw [h] at h1; exact hf a s h1
  · rename_i s h; rw [h] at h1; exact h1
  · rename_i s h; rw [h] at h1; exact h1

theorem keeps_value {ryu : F64 → Bytes} (F : FloatAscii ryu) {n : Name} {ls : Labels} (v : MValue) (hn : NameUtf8 n)
    (hl : LabelsUtf8 ls) : Keeps (textValue ryu n ls v) := by
  intro e he
  rw [textValue_bytes]
  exact utf8_append he (utf8_sampleLine F v hn hl)

theorem keeps_out {α : Type} (o : Out α) : Keeps (RS.lift o) := fun _ h => h

theorem nameUtf8_suffix {n : Name} (h : NameUtf8 n) (s : Suffix) : NameUtf8 (.suffix n s) := h

theorem labelsUtf8_le {ls : Labels} (h : LabelsUtf8 ls) (x : F64) : LabelsUtf8 (ls ++ [(b!"le", .float x)]) := by
  intro l hl
  rcases List.mem_append.1 hl with hl | hl
  · exact h l hl
  · simp only [List.mem_singleton] at hl
    subst hl
    exact ⟨utf8_ascii (s := b!"le") (by decide), trivial⟩

theorem keeps_buckets {ryu : F64 → Bytes} (F : FloatAscii ryu) (m : Mode) {n : Name} {ls : Labels} (hn : NameUtf8 n)
    (hl : LabelsUtf8 ls) : ∀ (les : List F64) (bs : List Nat) (v : Nat), Keeps (textBuckets m ryu n ls les bs v) := by
  intro les
  induction les with
  | nil => intro bs v; cases bs <;> exact keeps_out _
  | cons le les ih =>
    intro bs v
    cases bs with
    | nil => exact keeps_out _
    | cons b bs =>
      exact keeps_bind (keeps_out _) fun _ => keeps_bind (keeps_value F _ (nameUtf8_suffix hn _) (labelsUtf8_le hl _))
        fun _ => ih _ _

theorem keeps_sample {ryu : F64 → Bytes} (F : FloatAscii ryu) (m : Mode) (x : Metric) {n : Name} {ls : Labels}
    (hn : NameUtf8 n) (hl : LabelsUtf8 ls) : Keeps (textSample m ryu x ls n) := by
  cases x with
  | histogram le h =>
    exact keeps_bind (keeps_buckets F m hn hl _ _ _) fun _ => keeps_bind (keeps_out _) fun _ =>
      keeps_bind (keeps_value F _ (nameUtf8_suffix hn _) (labelsUtf8_le hl _)) fun _ =>
        keeps_bind (keeps_value F _ (nameUtf8_suffix hn _) hl) fun _ => keeps_value F _ (nameUtf8_suffix hn _) hl
  | _ => exact keeps_value F _ hn hl

/-- All strings of a call are UTF-8. -/
def CallUtf8 : EncCall → Prop
  | .help n t => NameUtf8 n ∧ Utf8 t
  | .type _ n => NameUtf8 n
  | .sample _ ls n => NameUtf8 n ∧ LabelsUtf8 ls

theorem utf8_sep (st : TState) : Utf8 (sep st) := by cases st <;> exact utf8_ascii (by decide)

theorem keeps_run {ryu : F64 → Bytes} (F : FloatAscii ryu) (m : Mode) {c : EncCall} (h : CallUtf8 c) :
    Keeps ((textEncoder m ryu).run c) := by
  cases c with
  | help n t =>
    intro e he
    show Utf8 (textHelp n t e).2.writer
    rw [textHelp_bytes]
    exact utf8_append (utf8_append he (utf8_sep _)) (utf8_append (utf8_append (utf8_append (utf8_append
      (utf8_ascii (by decide)) (utf8_name h.1.1 h.1.2)) (utf8_ascii (by decide))) h.2) (utf8_ascii (by decide)))
  | type k n =>
    intro e he
    show Utf8 (textType n (textKind k) e).2.writer
    rw [textType_bytes]
    refine utf8_append (utf8_append he (utf8_sep _)) (utf8_append (utf8_append
      (utf8_ascii (by decide)) (utf8_name h.1 h.2)) (utf8_ascii ?_))
    cases k <;> decide
  | sample x ls n => exact keeps_sample F m x h.1 h.2

end Measured
