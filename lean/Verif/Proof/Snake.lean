import Verif.Proof.TextRead

/-! A computable sufficient condition for literal names and help texts. -/

namespace Measured
open Spec

def snakeByte (b : Byte) : Bool := inRange 0x61 0x7a b || inRange 0x30 0x39 b || b == 0x5f

/-- `[a-z_][a-z0-9_]*` -/
def isSnake : Bytes → Bool
  | [] => false
  | b :: bs => (inRange 0x61 0x7a b || b == 0x5f) && bs.all snakeByte

theorem snakeByte_class {c : Class} (h : ∀ r ∈ alpha ++ digit ++ underscore, r ∈ c) {b : Byte} (hb : snakeByte b = true) :
    inClass c b := by
  simp only [snakeByte, inRange, Bool.or_eq_true, Bool.and_eq_true, decide_eq_true_eq, beq_iff_eq] at hb
  rcases hb with (hb | hb) | hb
  · exact ⟨(0x61, 0x7a), h _ (by decide), hb⟩
  · exact ⟨(0x30, 0x39), h _ (by decide), hb⟩
  · subst hb; exact ⟨(0x5f, 0x5f), h _ (by decide), by decide, by decide⟩

theorem snakeHead_class {c : Class} (h : ∀ r ∈ alpha ++ underscore, r ∈ c) {b : Byte}
    (hb : (inRange 0x61 0x7a b || b == 0x5f) = true) : inClass c b := by
  simp only [inRange, Bool.or_eq_true, Bool.and_eq_true, decide_eq_true_eq, beq_iff_eq] at hb
  rcases hb with hb | hb
  · exact ⟨(0x61, 0x7a), h _ (by decide), hb⟩
  · subst hb; exact ⟨(0x5f, 0x5f), h _ (by decide), by decide, by decide⟩

theorem snake_metric {s : Bytes} (h : isSnake s = true) : MetricNameRe s := by
  cases s with
  | nil => cases h
  | cons b bs =>
    simp only [isSnake, Bool.and_eq_true, List.all_eq_true] at h
    exact ⟨b, bs, rfl, snakeHead_class (by decide) h.1, fun x hx => snakeByte_class (by decide) (h.2 x hx)⟩

theorem snake_label {s : Bytes} (h : isSnake s = true) : LabelNameRe s := by
  cases s with
  | nil => cases h
  | cons b bs =>
    simp only [isSnake, Bool.and_eq_true, List.all_eq_true] at h
    exact ⟨b, bs, rfl, snakeHead_class (by decide) h.1, fun x hx => snakeByte_class (by decide) (h.2 x hx)⟩

/-- No line feed, no backslash, not starting with a blank. -/
def isPlainHelp (t : Bytes) : Bool :=
  !t.contains 0x0a && !t.contains 0x5c && !(t.head?.any isBlank)

theorem plain_help {t : Bytes} (h : isPlainHelp t = true) : HelpOk t := by
  simp only [isPlainHelp, Bool.and_eq_true, Bool.not_eq_true'] at h
  refine ⟨?_, ?_, ?_⟩
  · have := h.1.1; simpa using this
  · have := h.1.2; simpa using this
  · intro b bs e
    have := h.2
    rw [e] at this
    simpa using this

end Measured
