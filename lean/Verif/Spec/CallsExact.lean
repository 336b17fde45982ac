import Verif.Spec.TextExact
import Verif.Spec.Calls

/-!
# Specification: the lines of any encoder calls, whatever the help texts and counts are
-/

namespace Measured.Spec

/-- The lines a reader finds for one call. A help text goes up to its first line feed; what follows is read as lines of
their own. Counts are seen as signed numbers. -/
inductive CallSeen (rf : Bytes → Option F64) (text : Name → Bytes) : EncCall → List Line → Prop
  | help {n : Name} {t x : Bytes} (hl : (0x0a : Byte) ∉ t) (h : helpSeen t = some x) : CallSeen rf text (.help n t) [.help (text n) x]
  | helpMore {n : Name} {t x more : Bytes} {ls : List Line} (hl : (0x0a : Byte) ∉ t) (h : helpSeen t = some x)
      (hm : readLines rf (more ++ b!"\n") = some ls) : CallSeen rf text (.help n (t ++ b!"\n" ++ more)) (.help (text n) x :: ls)
  | type (k : Kind) (n : Name) : CallSeen rf text (.type k n) [.type (text n) (kindWord k)]
  | sample {x : Metric} {ls : Labels} {n : Name} {ss : List Sample}
      (h : List.Forall₂ (SampleReads rf) (shownAs (text n) ls x) ss) : CallSeen rf text (.sample x ls n) (ss.map .sample)

/-- The lines of a sequence of calls: a blank line goes before each HELP or TYPE call directly after a sample. -/
inductive CallsSeen (rf : Bytes → Option F64) (text : Name → Bytes) : Bool → List EncCall → List Line → Prop
  | nil {prev : Bool} : CallsSeen rf text prev [] []
  | cons {prev : Bool} {c : EncCall} {cs : List EncCall} {l ls : List Line} (h : CallSeen rf text c l)
      (rest : CallsSeen rf text c.isSample cs ls) :
      CallsSeen rf text prev (c :: cs) ((if prev && !c.isSample then [.blank] else []) ++ l ++ ls)

/-- A call with valid names and 64 bit counts. -/
def CallValid (text : Name → Bytes) : EncCall → Prop
  | .help n _ => MetricNameRe (text n)
  | .type _ n => MetricNameRe (text n)
  | .sample x ls n => MetricNameRe (text n) ∧ (∀ l ∈ ls, LabelNameRe l.1) ∧ Counts64 x

end Measured.Spec
