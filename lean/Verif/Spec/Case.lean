import Verif.Spec.Name
import Mathlib.Data.List.Forall2

/-!
# Specification: the words of a name, and a name written in another case

Independent of any scan: a word is a longest stretch of letters and digits without a place to cut. A place to cut is before a
capital letter, if the last letter before it is small (`delete|All`, `v2|Beta`), or if it is a capital one too and a small
letter follows (`HTTP|Server`).
-/

namespace Measured.Spec

def small : Class := [(0x61, 0x7a)]
def capital : Class := [(0x41, 0x5a)]
def alnum : Class := alpha ++ digit

/-- The last letter of a text that ends in a letter, or in a letter and digits. -/
def LastLetter (before : Bytes) (x : Byte) : Prop :=
  ∃ u ds, before = u ++ x :: ds ∧ inClass alpha x ∧ ∀ d ∈ ds, inClass digit d

/-- A place to cut. -/
def CutAt (before after : Bytes) : Prop :=
  ∃ x y rest, LastLetter before x ∧ after = y :: rest ∧ inClass capital y ∧
    (inClass small x ∨ inClass capital x ∧ ∃ z more, rest = z :: more ∧ inClass small z)

/-- The words of the second text, which follows the first one. -/
inductive WordsOf : Bytes → Bytes → List Bytes → Prop
  | nil {b : Bytes} : WordsOf b [] []
  | sep {b s : Bytes} {x : Byte} {ws : List Bytes} (h : ¬ inClass alnum x) (rest : WordsOf (b ++ [x]) s ws) : WordsOf b (x :: s) ws
  | word {b w s : Bytes} {ws : List Bytes} (hne : w ≠ []) (hw : ∀ x ∈ w, inClass alnum x)
      (whole : ∀ u v, w = u ++ v → u ≠ [] → v ≠ [] → ¬ CutAt (b ++ u) (v ++ s))
      (ends : (∀ x ∈ s.head?, ¬ inClass alnum x) ∨ CutAt (b ++ w) s) (rest : WordsOf (b ++ w) s ws) : WordsOf b (w ++ s) (w :: ws)

/-- The same text up to the case of letters: the letter at a place is the same, or one is 32 after the other. -/
def SameLetters (u v : Bytes) : Prop :=
  List.Forall₂ (fun x y => x = y ∨ (inClass capital x ∧ y.toNat = x.toNat + 32) ∨ (inClass capital y ∧ x.toNat = y.toNat + 32)) u v

/-- The same words up to the case of letters. -/
def SameWords (ws vs : List Bytes) : Prop := List.Forall₂ SameLetters ws vs

/-- How a word is written. -/
inductive WordCase where
  | lower
  | upper
  | capped
  deriving DecidableEq

/-- `w` written as the case says. -/
def Cased : WordCase → Bytes → Bytes → Prop
  | .lower, w, t => SameLetters w t ∧ ∀ x ∈ t, ¬ inClass capital x
  | .upper, w, t => SameLetters w t ∧ ∀ x ∈ t, ¬ inClass small x
  | .capped, w, t => SameLetters w t ∧ (∀ x ∈ t.head?, ¬ inClass small x) ∧ ∀ x ∈ t.tail, ¬ inClass capital x

/-- A text that consists of the words, the first one and the others in the given cases, with `sep` between them. -/
def WrittenAs (first others : WordCase) (sep : Bytes) : List Bytes → Bytes → Prop
  | [], t => t = []
  | w :: ws, t => ∃ t0 ts, Cased first w t0 ∧ List.Forall₂ (Cased others) ws ts ∧ t = t0 ++ ts.flatMap (sep ++ ·)

/-- The documented values of `rename_all` (core/src/lib.rs:27-35): the case of the first word, that of the others, and what is
between words. -/
def caseTable : List (Bytes × WordCase × WordCase × Bytes) :=
  [(b!"UpperCamelCase", .capped, .capped, b!""), (b!"lowerCamelCase", .lower, .capped, b!""),
   (b!"snake_case", .lower, .lower, b!"_"), (b!"kebab-case", .lower, .lower, b!"-"),
   (b!"SHOUTY_SNAKE_CASE", .upper, .upper, b!"_"), (b!"SHOUTY-KEBAB-CASE", .upper, .upper, b!"-"),
   (b!"Title Case", .capped, .capped, b!" "), (b!"Train-Case", .capped, .capped, b!"-")]

/-- Words that start with a digit belong to the word before, if there is nothing between words. -/
def gluedTo (w : Bytes) : List Bytes → List Bytes
  | [] => [w]
  | v :: vs => if v.head?.any (fun x => decide (0x30 ≤ x.toNat ∧ x.toNat ≤ 0x39)) then gluedTo (w ++ v) vs else w :: gluedTo v vs

def glued : List Bytes → List Bytes
  | [] => []
  | w :: ws => gluedTo w ws

/-- A word of a name in the usual case of Rust for variants: a capital letter, a small one, small letters and digits. -/
def CamelWord (w : Bytes) : Prop :=
  ∃ x y r, w = x :: y :: r ∧ inClass capital x ∧ inClass small y ∧ ∀ z ∈ r, inClass (small ++ digit) z

/-- Such a name. -/
def CamelName (s : Bytes) : Prop := ∃ ws : List Bytes, ws ≠ [] ∧ (∀ w ∈ ws, CamelWord w) ∧ s = ws.flatten

end Measured.Spec
