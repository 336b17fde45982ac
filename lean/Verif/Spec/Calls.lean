import Verif.Spec.Exposition

/-!
# Specification: the lines of an arbitrary sequence of encoder calls

Not every collector writes whole families (`FamilyIn`): hand written ones such as the process and runtime
collectors call the encoder directly. Whatever the order of the calls, each HELP and TYPE call should read back as
one line, each sample call as the samples of its metric, and exactly the HELP and TYPE calls that directly follow a
sample call should be preceded by one blank line.
-/

namespace Measured.Spec

/-- The lines `ls` are those of one call, given the text of names. -/
inductive CallLines (rf : Bytes → Option F64) (text : Name → Bytes) : EncCall → List Line → Prop
  | help (n : Name) (t : Bytes) : CallLines rf text (.help n t) [.help (text n) t]
  | type (k : Kind) (n : Name) : CallLines rf text (.type k n) [.type (text n) (kindWord k)]
  | sample {x : Metric} {ls : Labels} {n : Name} {ss : List Sample}
      (h : List.Forall₂ (SampleReads rf) (expected (text n) ls x) ss) :
      CallLines rf text (.sample x ls n) (ss.map .sample)

def _root_.Measured.EncCall.isSample : EncCall → Bool
  | .sample _ _ _ => true
  | _ => false

/-- The lines `ls` are those of the calls; `prev` says whether a sample call comes directly before them. -/
inductive CallsLines (rf : Bytes → Option F64) (text : Name → Bytes) : Bool → List EncCall → List Line → Prop
  | nil {prev : Bool} : CallsLines rf text prev [] []
  | cons {prev : Bool} {c : EncCall} {cs : List EncCall} {l ls : List Line}
      (h : CallLines rf text c l) (rest : CallsLines rf text c.isSample cs ls) :
      CallsLines rf text prev (c :: cs) ((if prev && !c.isSample then [.blank] else []) ++ l ++ ls)

end Measured.Spec
