import Verif.Spec.Inline
import Verif.Spec.Url
/-!
# Specification: inline links and images of CommonMark
-/

namespace Verif.Spec
open Verif

/-- CommonMark 6.3: read a link text up to the bracket that closes it.  Brackets can be nested (the first argument is the
number of open ones); a backslash in front of ASCII punctuation escapes it.  Code spans and raw HTML, which bind more
tightly than brackets, are not taken into account.  The result is the text and what follows the closing bracket. -/
def readBracket : Nat → Bytes → Option (Bytes × Bytes)
  | _, [] => none
  | d, [b] => if b = 93 ∧ d = 0 then some ([], []) else none
  | d, b :: c :: rest =>
    if b == 92 && isPunct c then (readBracket d rest).map fun r => (b :: c :: r.1, r.2)
    else if b = 93 ∧ d = 0 then some ([], c :: rest)
    else (readBracket (if b = 91 then d + 1 else if b = 93 then d - 1 else d) (c :: rest)).map fun r => (b :: r.1, r.2)

/-- CommonMark 6.3: an inline link at the start of a string: `[text](destination "title")`.  The result is the text as it
is written, the destination as it is written, the title (empty if there is none) and what follows. -/
def readInlineLink : Bytes → Option (Bytes × Bytes × Bytes × Bytes)
  | 91 :: s =>
    match readBracket 0 s with
    | some (text, 40 :: s) =>
      match readDestination 0 false s with
      | (dest, 41 :: rest) => some (text, dest, [], rest)
      | (dest, 32 :: s) =>
        match readTitle s with
        | some (title, 41 :: rest) => some (text, dest, title, rest)
        | _ => none
      | _ => none
    | _ => none
  | _ => none

/-- Text that can stand between brackets: its own brackets are escaped or balanced, and its last character is not a backslash
that would escape what follows. -/
inductive Enclosed : Bytes → Prop
  | nil : Enclosed []
  | escaped {c s} : isPunct c = true → Enclosed s → Enclosed (92 :: c :: s)
  | plain {b s} : b ≠ 91 → b ≠ 93 → b ≠ 92 → Enclosed s → Enclosed (b :: s)
  | backslash {c s} : isPunct c = false → Enclosed (c :: s) → Enclosed (92 :: c :: s)
  | brackets {s t} : Enclosed s → Enclosed t → Enclosed (91 :: (s ++ 93 :: t))

/-- A destination without control characters, spaces, angle brackets and brackets, which does not end with a backslash. -/
def PlainDestination (d : Bytes) : Prop :=
  (∀ b ∈ d, 32 < b ∧ b ≠ 127 ∧ b ∉ b!"()<>") ∧ d.getLast? ≠ some 92

/-- Line feeds as spaces. -/
def newlinesAsSpaces (s : Bytes) : Bytes := s.map fun b => if b = 10 then 32 else b

end Verif.Spec
