import Verif.Spec.Lines
/-!
# Specification: block constructs of CommonMark, over lines
-/

namespace Verif.Spec
open Verif

/-- The line without up to three leading spaces. -/
def dropIndent3 (line : Bytes) : Bytes := line.drop (min 3 (line.takeWhile (· == 32)).length)

/-- CommonMark 4.5: is the line a closing fence for an opening fence of `n` characters `c`?  It may be
indented by up to three spaces, has at least `n` times `c`, then only spaces and tabs. -/
def closesFence (c : UInt8) (n : Nat) (line : Bytes) : Bool :=
  let l := dropIndent3 line
  n ≤ (l.takeWhile (· == c)).length && (l.dropWhile (· == c)).all fun b => b == 32 || b == 9

/-- A byte string without spaces and tabs at both ends. -/
def trimBlank (s : Bytes) : Bytes :=
  ((s.dropWhile fun b => b == 32 || b == 9).reverse.dropWhile fun b => b == 32 || b == 9).reverse

/-- What a CommonMark parser reads at a fence. -/
structure Fenced where
  /-- the info string -/
  info : Bytes
  /-- the lines of the code -/
  code : List Bytes
  /-- there is a closing fence -/
  closed : Bool
  /-- the lines after the closing fence -/
  rest : List Bytes
  deriving DecidableEq, Repr

/-- CommonMark 4.5: read a fenced code block whose opening fence is not indented.  The info string of a
backtick fence contains no backtick; without a closing fence the block goes on to the end. -/
def readFenced : List Bytes → Option Fenced
  | [] => none
  | [] :: _ => none
  | (c :: line) :: ls =>
    let n := ((c :: line).takeWhile (· == c)).length
    let info := trimBlank ((c :: line).dropWhile (· == c))
    if (c = 96 ∨ c = 126) ∧ 3 ≤ n ∧ ¬ (c = 96 ∧ 96 ∈ info) then
      some { info := info
             code := ls.takeWhile fun l => !closesFence c n l
             closed := ls.any fun l => closesFence c n l
             rest := (ls.dropWhile fun l => !closesFence c n l).drop 1 }
    else none

/-- CommonMark 4.2: drop the closing sequence of an ATX heading, which is a run of `#` at the end that is preceded
by a space or tab or is everything there is. -/
def dropClosing (s : Bytes) : Bytes :=
  match s.reverse.dropWhile (· == 35) with
  | [] => []
  | b :: rev => if b = 32 ∨ b = 9 then trimBlank (b :: rev).reverse else s

/-- CommonMark 4.2: read an ATX heading: its level and its content. -/
def readAtx (line : Bytes) : Option (Nat × Bytes) :=
  let l := dropIndent3 line
  let n := (l.takeWhile (· == 35)).length
  let rest := l.dropWhile (· == 35)
  if 1 ≤ n ∧ n ≤ 6 ∧ endOrBlank rest then some (n, dropClosing (trimBlank rest)) else none

end Verif.Spec
