import Verif.Model.Name
import Verif.Model.Derive

/-!
# Model: the case conversions of the `heck` crate (version 0.5.0, Cargo.lock:459)

Used by `RenameAll::apply` (derive/src/value/attr.rs:111-128) and for the names of generated constants
(derive/src/label_group/to_tokens.rs:23, derive/src/metric_group/to_tokens.rs:56). The source of `heck` is not in the
repository: this is its `transform` function with the eight ways to call it. Only ASCII is modelled: the Unicode tables behind
`char::is_alphanumeric`, `is_uppercase`, `to_uppercase` are not, other bytes count as separators here.
-/

namespace Measured.Heck
open Measured.Derive

/-- `char::is_alphanumeric` -/
def isAlnum (b : Byte) : Bool := isLower b || isUpper b || isDigit b

/-- `char::to_lowercase` -/
def toLower (b : Byte) : Byte := if isUpper b then UInt8.ofNat (b.toNat + 32) else b

/-- `char::to_uppercase` -/
def toUpper (b : Byte) : Byte := if isLower b then UInt8.ofNat (b.toNat - 32) else b

/-- `lowercase` of heck. -/
def lowercase (w : Bytes) : Bytes := w.map toLower

/-- `uppercase` of heck. -/
def uppercase (w : Bytes) : Bytes := w.map toUpper

/-- `capitalize` of heck: the first character in upper case, the others in lower case. -/
def capitalize : Bytes → Bytes
  | [] => []
  | c :: w => toUpper c :: lowercase w

/-- `s.split(|c| !c.is_alphanumeric())`: also empty pieces. -/
def split : Bytes → List Bytes
  | [] => [[]]
  | c :: s =>
    if isAlnum c then
      match split s with
      | [] => [[c]]
      | w :: ws => (c :: w) :: ws
    else [] :: split s

/-- `WordMode` of heck. -/
inductive WordMode where
  | boundary
  | lowercase
  | uppercase
  deriving DecidableEq

/-- The loop over the characters of a piece: `cur` is `word[init..i]`. Gives the words in order. -/
def scan : WordMode → Bytes → Bytes → List Bytes
  | _, _, [] => []
  | _, cur, [c] => [cur ++ [c]]
  | mode, cur, c :: next :: rest =>
    let nextMode := if isLower c then .lowercase else if isUpper c then .uppercase else mode
    if nextMode = .lowercase ∧ isUpper next then (cur ++ [c]) :: scan .boundary [] (next :: rest)
    else if mode = .uppercase ∧ isUpper c ∧ isLower next then cur :: scan .boundary [c] (next :: rest)
    else scan nextMode (cur ++ [c]) (next :: rest)

/-- The words that `transform` finds. -/
def words (s : Bytes) : List Bytes := (split s).flatMap (scan .boundary [])

/-- `transform`: `with_word` for every word (the first one, the others), `boundary` between words. -/
def transform (first others : Bytes → Bytes) (boundary : Bytes) (s : Bytes) : Bytes :=
  match words s with
  | [] => []
  | w :: ws => first w ++ ws.flatMap fun w => boundary ++ others w

/-- `RenameAll::apply`. derive/src/value/attr.rs:111-128 -/
def apply : RenameAll → Bytes → Bytes
  | .upperCamel => transform capitalize capitalize []
  | .lowerCamel => transform lowercase capitalize []
  | .snake => transform lowercase lowercase b!"_"
  | .kebab => transform lowercase lowercase b!"-"
  | .shoutySnake => transform uppercase uppercase b!"_"
  | .shoutyKebab => transform uppercase uppercase b!"-"
  | .title => transform capitalize capitalize b!" "
  | .train => transform capitalize capitalize b!"-"

/-- `format_ident!("{}", name_string.to_shouty_snake_case())`, which panics if the text is not an identifier: empty or
with a digit in front. derive/src/label_group/to_tokens.rs:23, derive/src/metric_group/to_tokens.rs:56 -/
def constIdent (name : Bytes) : Option Bytes :=
  match apply .shoutySnake name with
  | [] => none
  | c :: t => if isDigit c then none else some (c :: t)

end Measured.Heck
