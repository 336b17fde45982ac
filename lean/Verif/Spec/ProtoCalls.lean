import Verif.Spec.ProtoFamily
import Verif.Model.Proto

/-! What the protobuf exposition of an arbitrary sequence of encoder calls should show. -/

namespace Measured.Spec

def IsHead : EncCall → Prop
  | .sample _ _ _ => False
  | _ => True

/-- Calls of `write_help` and `write_type`, then samples (each with the name it is reported under). -/
structure Block where
  heads : List EncCall
  samples : List ((Labels × Metric) × Name)

def Block.calls (b : Block) : List EncCall := b.heads ++ b.samples.map fun s => .sample s.1.2 s.1.1 s.2

structure Block.Wf (b : Block) : Prop where
  heads : ∀ c ∈ b.heads, IsHead c
  headed : b.heads ≠ []
  sampled : b.samples ≠ []

def helpOf : EncCall → Option (Name × Bytes)
  | .help n t => some (n, t)
  | _ => none

def typeOf : EncCall → Option (Kind × Name)
  | .type k n => some (k, n)
  | _ => none

/-- The last help text. -/
def lastHelp (cs : List EncCall) : Option (Name × Bytes) := (cs.filterMap helpOf).getLast?

/-- The last type. -/
def lastType (cs : List EncCall) : Option (Kind × Name) := (cs.filterMap typeOf).getLast?

/-- The name of the last help text, or without help texts that of the last type. -/
def headName (cs : List EncCall) : Option Name :=
  match lastHelp cs with
  | some h => some h.1
  | none => (lastType cs).map Prod.snd

/-- The message of a block, given the text of names. -/
structure BlockReads (rf : Bytes → Option F64) (text : Name → Bytes) (b : Block) (g : PFamily) : Prop where
  name : g.name = (headName b.heads).map text
  help : g.help = (lastHelp b.heads).map Prod.snd
  type : g.type = (lastType b.heads).map fun t => kindCode t.1
  metrics : List.Forall₂ (ProtoSampleReads rf) (b.samples.map Prod.fst) g.metrics

/-- A server's life: scrapes, each followed by a flush. -/
def runScrapes (m : Mode) (ryu : F64 → Bytes) : List (List EncCall) → RS (Proto.ProtoEnc Bytes) Unit
  | [] => fun e => (.ok (), e)
  | cs :: css => do
    (Proto.protoEncoder m ryu).runAll cs
    Proto.flush m
    runScrapes m ryu css

end Measured.Spec
