import Verif.Basic.Bytes
/-!
# Specification: block starts of CommonMark, on one line

Each predicate says that a parser may read the line as the start of the block.  The predicates are
generous: they allow any number of leading spaces (CommonMark: at most three), so that "is never
one of these" is a stronger claim.
-/

namespace Verif.Spec
open Verif

/-- The line without its leading spaces. -/
def dropSpaces (line : Bytes) : Bytes := line.dropWhile (· == 32)

/-- Is this the end of the line (also by a carriage return), a space or a tab? -/
def endOrBlank : Bytes → Bool
  | [] => true
  | b :: _ => b == 32 || b == 9 || b == 13

/-- CommonMark 4.2: one to six `#`, then a space, a tab or the end of the line. -/
def isAtxHeading (line : Bytes) : Bool :=
  let s := dropSpaces line
  let n := (s.takeWhile (· == 35)).length
  1 ≤ n && n ≤ 6 && endOrBlank (s.dropWhile (· == 35))

/-- CommonMark 5.1: block quote marker `>`. -/
def isBlockQuote (line : Bytes) : Bool :=
  match dropSpaces line with
  | [] => false
  | b :: _ => b == 62

/-- CommonMark 5.2: bullet list marker `-`, `+` or `*`, then a space, a tab or the end of the line. -/
def isBulletItem (line : Bytes) : Bool :=
  match dropSpaces line with
  | [] => false
  | b :: rest => (b == 45 || b == 43 || b == 42) && endOrBlank rest

/-- An ASCII digit. -/
def isDigit (b : UInt8) : Bool := 48 ≤ b && b ≤ 57

/-- CommonMark 5.2: ordered list marker, digits and `.` or `)`, then a space, a tab or the end of the
line (CommonMark: at most nine digits; here any number). -/
def isOrderedItem (line : Bytes) : Bool :=
  let s := dropSpaces line
  1 ≤ (s.takeWhile isDigit).length &&
  match s.dropWhile isDigit with
  | [] => false
  | b :: rest => (b == 46 || b == 41) && endOrBlank rest

/-- CommonMark 4.1: at least three matching `-`, `_` or `*`, and otherwise only spaces and tabs. -/
def isThematicBreak (line : Bytes) : Bool :=
  let s := line.filter fun b => b != 32 && b != 9
  match s with
  | [] => false
  | c :: _ => 3 ≤ s.length && s.all (· == c) && (c == 45 || c == 95 || c == 42)

/-- CommonMark 4.3: a sequence of `=` or a sequence of `-`, then spaces or tabs. -/
def isSetextUnderline (line : Bytes) : Bool :=
  match dropSpaces line with
  | [] => false
  | c :: rest => (c == 61 || c == 45) && (rest.dropWhile (· == c)).all fun b => b == 32 || b == 9

/-- CommonMark 4.5: at least three backticks or at least three tildes. -/
def isFence (line : Bytes) : Bool :=
  let s := dropSpaces line
  3 ≤ (s.takeWhile (· == 96)).length || 3 ≤ (s.takeWhile (· == 126)).length

/-- A line with nothing but spaces and tabs. -/
def isBlankLine (line : Bytes) : Bool := line.all fun b => b == 32 || b == 9

/-- The lines of a text. -/
def lines (s : Bytes) : List Bytes := splitOn 10 s

/-- ASCII punctuation: the characters a backslash can escape (CommonMark 2.4). -/
def isPunct (b : UInt8) : Bool :=
  (33 ≤ b && b ≤ 47) || (58 ≤ b && b ≤ 64) || (91 ≤ b && b ≤ 96) || (123 ≤ b && b ≤ 126)

/-- CommonMark 2.4 backslash escapes: how a parser reads inline text.  Every character comes with
a flag that says whether it was escaped, and so can not have a Markdown meaning. -/
def readEscapes : Bytes → List (Bool × UInt8)
  | [] => []
  | [b] => [(false, b)]
  | b :: c :: rest =>
    if b == 92 && isPunct c then (true, c) :: readEscapes rest
    else (false, b) :: readEscapes (c :: rest)

end Verif.Spec
