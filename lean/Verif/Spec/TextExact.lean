import Verif.Spec.Exposition

/-!
# Specification: what the text format makes of counts and help texts that it does not show faithfully
-/

namespace Measured.Spec

/-- A 64 bit count seen as a signed number. -/
def signed (c : Nat) : Int := if c < 9223372036854775808 then c else (c : Int) - 18446744073709551616

/-- The samples of one metric, in order, with the numbers that are shown: counts as signed numbers. -/
def shownAs (n : Bytes) (ls : Labels) : Metric → List Expected
  | .counter c => [⟨n, ls, .int (signed c)⟩]
  | .gauge c => [⟨n, ls, .int c⟩]
  | .floatGauge x => [⟨n, ls, .float (canon x)⟩]
  | .histogram le h =>
    le.mapIdx (fun i b => ⟨n ++ b!"_bucket", ls ++ [(b!"le", .float b)], .int (signed (h.buckets.take (i + 1)).sum)⟩) ++
    [⟨n ++ b!"_bucket", ls ++ [(b!"le", .float (F64.inf false))], .int (signed (h.buckets.sum + h.inf))⟩,
     ⟨n ++ b!"_sum", ls, .float (canon h.sum)⟩,
     ⟨n ++ b!"_count", ls, .int (signed (h.buckets.sum + h.inf))⟩]

/-- The counts of a metric, and their sum, are 64 bit numbers; a histogram has a bucket for each bound. -/
def Counts64 : Metric → Prop
  | .counter c => c < 18446744073709551616
  | .gauge _ => True
  | .floatGauge _ => True
  | .histogram le h => le.length = h.buckets.length ∧ h.buckets.sum + h.inf < 18446744073709551616

/-- What a reader makes of a help text that was written without escapes: blanks in front are dropped, `\\\\` and `\\n` are
taken for escapes, other backslashes are errors. -/
def helpSeen (t : Bytes) : Option Bytes := unescapeHelp (t.dropWhile isBlank)

/-- The family read, given the text of the family's name, with the help and the numbers as they are seen. -/
structure FamilySeen (rf : Bytes → Option F64) (n : Bytes) (f : FamilyIn) (g : Family) : Prop where
  name : g.name = n
  help : g.help = f.help.bind helpSeen
  type : g.type = some (kindWord f.kind)
  samples : List.Forall₂ (SampleReads rf) (f.samples.flatMap fun s => shownAs n s.1 s.2) g.samples

end Measured.Spec
