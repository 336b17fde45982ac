import Verif.Model.Encoder
import Mathlib.Data.List.Forall2

/-!
# Specification: a reader for the Prometheus text format

<https://prometheus.io/docs/instrumenting/exposition_formats/#text-based-format>. Lines end in `\n`; empty lines
are ignored; `# HELP name text` (with `\\` and `\n` escapes in the text), `# TYPE name type`, and samples
`name{label="value",…} number` with `\\`, `\"`, `\n` escapes in label values. Nothing here refers to the writer.
-/

namespace Measured.Spec

def inRange (lo hi : Nat) (b : Byte) : Bool := decide (lo ≤ b.toNat) && decide (b.toNat ≤ hi)

/-- `[a-zA-Z0-9_]` -/
def isLabelByte (b : Byte) : Bool :=
  inRange 0x61 0x7a b || inRange 0x41 0x5a b || inRange 0x30 0x39 b || b == 0x5f

/-- `[a-zA-Z0-9_:]` -/
def isNameByte (b : Byte) : Bool := isLabelByte b || b == 0x3a

/-- Blank or tab. -/
def isBlank (b : Byte) : Bool := b == 0x20 || b == 0x09

/-- A name token: non-empty, not starting with a digit; and the rest. -/
def readToken (p : Byte → Bool) (s : Bytes) : Option (Bytes × Bytes) :=
  match s.takeWhile p with
  | [] => none
  | b :: bs => if inRange 0x30 0x39 b then none else some (b :: bs, s.dropWhile p)

/-- Contents of a quoted string after its opening quote, and what follows the closing quote. -/
def readQuoted : Bytes → Option (Bytes × Bytes)
  | [] => none
  | 0x22 :: rest => some ([], rest)
  | 0x0a :: _ => none
  | 0x5c :: rest =>
    match rest with
    | 0x5c :: rest => (readQuoted rest).map fun q => (0x5c :: q.1, q.2)
    | 0x22 :: rest => (readQuoted rest).map fun q => (0x22 :: q.1, q.2)
    | 0x6e :: rest => (readQuoted rest).map fun q => (0x0a :: q.1, q.2)
    | _ => none
  | b :: rest => (readQuoted rest).map fun q => (b :: q.1, q.2)

/-- `label="value",…}` after the opening brace. The number bounds the number of labels. -/
def readLabels : Nat → Bytes → Option (List (Bytes × Bytes) × Bytes)
  | 0, _ => none
  | fuel + 1, s =>
    match readToken isLabelByte s with
    | some (name, 0x3d :: 0x22 :: r) =>
      match readQuoted r with
      | some (v, 0x2c :: r) => (readLabels fuel r).map fun q => ((name, v) :: q.1, q.2)
      | some (v, 0x7d :: r) => some ([(name, v)], r)
      | _ => none
    | _ => none

/-- Decimal digits read into an accumulator. -/
def readDigits : Nat → Bytes → Option Nat
  | acc, [] => some acc
  | acc, b :: bs => if inRange 0x30 0x39 b then readDigits (acc * 10 + (b.toNat - 0x30)) bs else none

/-- A decimal integer, with sign. -/
def readInt (s : Bytes) : Option Int :=
  match s with
  | [] => none
  | 0x2d :: [] => none
  | 0x2d :: ds => (readDigits 0 ds).map fun n => -(n : Int)
  | ds => (readDigits 0 ds).map fun n => (n : Int)

/-- A sample value: an integer, or any other number read by `readFloat` (Go's `ParseFloat`). -/
inductive Val where
  | int (x : Int)
  | float (x : F64)
  deriving DecidableEq

def readVal (readFloat : Bytes → Option F64) (s : Bytes) : Option Val :=
  match readInt s with
  | some x => some (.int x)
  | none => (readFloat s).map .float

structure Sample where
  name : Bytes
  labels : List (Bytes × Bytes)
  value : Val
  deriving DecidableEq

/-- `name{labels} value` or `name value`. (No time stamps.) -/
def readSample (rf : Bytes → Option F64) (s : Bytes) : Option Sample :=
  match readToken isNameByte s with
  | some (name, 0x7b :: r) =>
    match readLabels r.length r with
    | some (ls, 0x20 :: v) => (readVal rf v).map (⟨name, ls, ·⟩)
    | _ => none
  | some (name, 0x20 :: v) => (readVal rf v).map (⟨name, [], ·⟩)
  | _ => none

/-- The docstring of a HELP line: `\\` and `\n` are escapes. -/
def unescapeHelp : Bytes → Option Bytes
  | [] => some []
  | 0x5c :: rest =>
    match rest with
    | 0x5c :: rest => (unescapeHelp rest).map (0x5c :: ·)
    | 0x6e :: rest => (unescapeHelp rest).map (0x0a :: ·)
    | _ => none
  | b :: rest => (unescapeHelp rest).map (b :: ·)

inductive TypeWord where
  | counter
  | gauge
  | histogram
  | summary
  | untyped
  deriving DecidableEq

def readType (s : Bytes) : Option TypeWord :=
  if s = b!"counter" then some .counter
  else if s = b!"gauge" then some .gauge
  else if s = b!"histogram" then some .histogram
  else if s = b!"summary" then some .summary
  else if s = b!"untyped" then some .untyped
  else none

/-- One line of the exposition. -/
inductive Line where
  | blank
  | help (name text : Bytes)
  | type (name : Bytes) (t : TypeWord)
  | sample (s : Sample)
  deriving DecidableEq

/-- The rest of `s` after the prefix `p`. -/
def stripPrefix : Bytes → Bytes → Option Bytes
  | [], s => some s
  | p :: ps, b :: s => if p = b then stripPrefix ps s else none
  | _ :: _, [] => none

def readHelpLine (s : Bytes) : Option Line :=
  match readToken isNameByte s with
  | some (name, 0x20 :: t) => (unescapeHelp (t.dropWhile isBlank)).map (.help name ·)
  | _ => none

def readTypeLine (s : Bytes) : Option Line :=
  match readToken isNameByte s with
  | some (name, 0x20 :: t) => (readType t).map (.type name ·)
  | _ => none

/-- A line without its line feed. -/
def readLine (rf : Bytes → Option F64) (s : Bytes) : Option Line :=
  if s = [] then some .blank
  else match stripPrefix b!"# HELP " s with
    | some r => readHelpLine r
    | none => match stripPrefix b!"# TYPE " s with
      | some r => readTypeLine r
      | none => (readSample rf s).map .sample

/-- Split at line feeds; every line must be terminated. -/
def splitLines : Bytes → Option (List Bytes)
  | [] => some []
  | b :: bs =>
    if b = 0x0a then (splitLines bs).map ([] :: ·)
    else match splitLines bs with
      | some (l :: ls) => some ((b :: l) :: ls)
      | _ => none

/-- `l.mapM f` -/
def readAll {α β : Type} (f : α → Option β) : List α → Option (List β)
  | [] => some []
  | a :: as =>
    match f a, readAll f as with
    | some b, some bs => some (b :: bs)
    | _, _ => none

/-- The lines of an exposition. -/
def readLines (rf : Bytes → Option F64) (s : Bytes) : Option (List Line) :=
  match splitLines s with
  | some ls => readAll (readLine rf) ls
  | none => none

/-- A metric family as a consumer sees it. -/
structure Family where
  name : Bytes
  help : Option Bytes
  type : Option TypeWord
  samples : List Sample
  deriving DecidableEq

/-- The sample names that belong to a family. -/
def Family.owns (f : Family) (n : Bytes) : Bool :=
  if f.type = some .histogram then
    n = f.name ++ b!"_bucket" || n = f.name ++ b!"_sum" || n = f.name ++ b!"_count"
  else n = f.name

/-- Consume one line; the families seen so far are in reverse order. HELP starts a family, TYPE starts one unless
it directly follows the HELP of the same name, a sample that does not belong to the current family starts an
untyped one. -/
def consume (acc : List Family) : Line → List Family
  | .blank => acc
  | .help n t => ⟨n, some t, none, []⟩ :: acc
  | .type n t =>
    match acc with
    | f :: fs => if f.name = n ∧ f.type = none ∧ f.samples = [] then { f with type := some t } :: fs
      else ⟨n, none, some t, []⟩ :: f :: fs
    | [] => [⟨n, none, some t, []⟩]
  | .sample s =>
    match acc with
    | f :: fs => if f.owns s.name then { f with samples := f.samples ++ [s] } :: fs
      else ⟨s.name, none, none, [s]⟩ :: f :: fs
    | [] => [⟨s.name, none, none, [s]⟩]

/-- The families of an exposition. -/
def readFamilies (rf : Bytes → Option F64) (s : Bytes) : Option (List Family) :=
  (readLines rf s).map fun ls => (ls.foldl consume []).reverse

/-! ## Number texts -/

/-- The contract of the float formatter (`ryu::Buffer::format`) with a reader of numbers: the text uses only
`[0-9a-zA-Z.+-]`, is not an integer, and reads back to the same number (up to the payload of NaN). -/
structure FloatText (ryu : F64 → Bytes) (rf : Bytes → Option F64) : Prop where
  bytes : ∀ x, ∀ b ∈ ryu x, isLabelByte b = true ∨ b = 0x2e ∨ b = 0x2b ∨ b = 0x2d
  notInt : ∀ x, readInt (ryu x) = none
  read : ∀ x, rf (ryu x) = some (if x.isNaN then F64.nan else x)

/-- The text of a label value denotes the value. -/
def LabelReads (rf : Bytes → Option F64) (x : LVal) (text : Bytes) : Prop :=
  match x with
  | .str s => text = s
  | .int x => readInt text = some x
  | .float x =>
    if x.isInf then text = (if x.sign then b!"-Inf" else b!"+Inf")
    else if x.isNaN then text = b!"NaN"
    else rf text = some x

/-- The labels read are the labels visited, in order. -/
def LabelsRead (rf : Bytes → Option F64) (ls : Labels) (texts : List (Bytes × Bytes)) : Prop :=
  List.Forall₂ (fun l t => l.1 = t.1 ∧ LabelReads rf l.2 t.2) ls texts

end Measured.Spec
