import Verif.Model.Api
import Verif.Spec.Exposition
import Verif.Spec.Histogram
import Verif.Spec.VecMap
import Mathlib.Logic.Function.Basic

/-!
# Specification: what the calls on a metric add up to

Plain numbers without overflow, and a tally per label group. The tally looks at the calls and at how they ended, and
knows nothing about ids, storages and machine words.
-/

namespace Measured.Spec
variable {G C A : Type}

/-- How much a call counts. -/
def CounterCall.amount : CounterCall → Nat
  | .inc => 1
  | .incBy x => x

def CounterCall.apply (c : CounterCall) (v : Nat) : Nat := v + CounterCall.amount c

/-- The argument is a `u64`. -/
def CounterCall.Ok (c : CounterCall) : Prop := CounterCall.amount c < 2 ^ 64

def GaugeCall.apply : GaugeCall → Int → Int
  | .inc, v => v + 1
  | .incBy x, v => v + x
  | .dec, v => v - 1
  | .decBy x, v => v - x
  | .set x, _ => x

def InI64 (x : Int) : Prop := -2 ^ 63 ≤ x ∧ x < 2 ^ 63

/-- The argument is an `i64`. -/
def GaugeCall.Ok : GaugeCall → Prop
  | .set x => InI64 x
  | .incBy x => InI64 x
  | .decBy x => InI64 x
  | _ => True

/-- `x + 1.0`, `x - y` and so on, in `f64` arithmetic. -/
def FloatCall.apply : FloatCall → F64 → F64
  | .inc, v => F64.add v F64.one
  | .incBy x, v => F64.add v x
  | .dec, v => F64.sub v F64.one
  | .decBy x, v => F64.sub v x
  | .set x, _ => x

/-- The number a call observes. -/
def HistCall.value : HistCall → F64
  | .observe x => x
  | .observeDuration d => asSecsF64 d

def HistCall.apply (c : HistCall) (xs : List F64) : List F64 := xs ++ [HistCall.value c]

/-- What a call does to the tally, given how it ended. -/
def tallyStep [DecidableEq G] (dense : Bool) (zero : A) (apply : C → A → A) (live : G → Option A) :
    VecCall G C × CallRes → G → Option A
  | (.shared g c, .done) => Function.update live g (some (apply c ((live g).getD zero)))
  | (.exclusive g c, .done) => Function.update live g (some (apply c ((live g).getD zero)))
  | (.shared g _, .panicked) => Function.update live g (some ((live g).getD zero))
  | (.exclusive g _, .panicked) => Function.update live g (some ((live g).getD zero))
  | (.remove g, .done) => if dense then live else Function.update live g none
  | _ => live

/-- The tally of every label group; `none` for those that are not there. -/
def tally [DecidableEq G] (dense : Bool) (zero : A) (apply : C → A → A) (l : List (VecCall G C × CallRes)) :
    G → Option A := l.foldl (tallyStep dense zero apply) fun _ => none

/-- The call of a program. -/
def VecCall.call? : VecCall G C → Option C
  | .shared _ c => some c
  | .exclusive _ c => some c
  | .remove _ => none

def _root_.Measured.VecCall.group : VecCall G C → G
  | .shared g _ => g
  | .exclusive g _ => g
  | .remove g => g

/-- A call that panics in its arithmetic is not shared. -/
def VecCall.isShared : VecCall G C → Bool
  | .shared _ _ => true
  | _ => false

/-! ## Single metrics -/

def Use.call : Use C → C
  | .shared c => c
  | .exclusive c => c

/-- What a sequence of calls adds up to. -/
def total (apply : C → A → A) (a : A) (us : List (Use C)) : A := us.foldl (fun a u => apply (Use.call u) a) a

/-! ## What a scrape should show for a tally -/

def shownCounter (n : Bytes) (ls : Labels) (v : Nat) : List Expected := [⟨n, ls, .int v⟩]

def shownGauge (n : Bytes) (ls : Labels) (v : Int) : List Expected := [⟨n, ls, .int v⟩]

def shownFloat (n : Bytes) (ls : Labels) (v : F64) : List Expected := [⟨n, ls, .float (canon v)⟩]

/-- Observations `xs`: for each bound how many of them are at or below it, then all of them. -/
def shownHistogram (le : List F64) (n : Bytes) (ls : Labels) (xs : List F64) : List Expected :=
  (le.map fun b => ⟨n ++ b!"_bucket", ls ++ [(b!"le", .float b)], .int (atMost b xs : Nat)⟩) ++
    [⟨n ++ b!"_bucket", ls ++ [(b!"le", .float (F64.inf false))], .int (xs.length : Nat)⟩,
     ⟨n ++ b!"_sum", ls, .float (canon (xs.foldl F64.add F64.pzero))⟩,
     ⟨n ++ b!"_count", ls, .int (xs.length : Nat)⟩]

/-- The text reads back as one family with the given name and type, that has the samples `shown` of every label group
in the tally, each once. -/
def ScrapeShows (rf : Bytes → Option F64) (n : Bytes) (kind : Kind) (visit : G → Labels)
    (shown : Bytes → Labels → A → List Expected) (live : G → Option A) (text : Bytes) : Prop :=
  ∃ (l : List (G × A)) (ss : List Sample), Enumerates l live ∧
    readFamilies rf text = some [⟨n, none, some (kindWord kind), ss⟩] ∧
    List.Forall₂ (SampleReads rf) (l.flatMap fun q => shown n (visit q.1) q.2) ss

end Measured.Spec
