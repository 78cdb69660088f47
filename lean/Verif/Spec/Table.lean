import Verif.Spec.Pointwise
/-!
# Specification: tables of GitHub Flavored Markdown and of HTML

GFM 4.10: a table has a header row, a delimiter row and any number of body rows; the cells of a row are separated by
pipes, and spaces around the content of a cell do not count.  A pipe behind a backslash does not separate.

HTML 4.9.12.1: the algorithm that gives every cell its place in the grid.
-/

namespace Verif.Spec
open Verif

/-! ## GFM -/

/-- The string cut at the pipes that are not behind a backslash.  `acc` is the current piece, reversed. -/
def cutPipes : Bytes → Bytes → List Bytes
  | acc, [] => [acc.reverse]
  | acc, [b] => if b = 124 then [acc.reverse, []] else [(b :: acc).reverse]
  | acc, b :: c :: rest =>
    if b = 92 then cutPipes (c :: b :: acc) rest
    else if b = 124 then acc.reverse :: cutPipes [] (c :: rest)
    else cutPipes (b :: acc) (c :: rest)

/-- The string without the spaces around it. -/
def stripSpaces (s : Bytes) : Bytes := ((s.dropWhile (· == 32)).reverse.dropWhile (· == 32)).reverse

/-- The cells of a row that starts and ends with a pipe. -/
def rowCells (line : Bytes) : List Bytes := (((cutPipes [] line).drop 1).dropLast).map stripSpaces

/-- A content without a separating pipe, and without a backslash that would escape what follows. -/
def pipeSafe : Bytes → Bool
  | [] => true
  | [b] => b != 92 && b != 124
  | b :: c :: rest => if b = 92 then pipeSafe rest else b != 124 && pipeSafe (c :: rest)

/-- Rendered content in which every pipe and every backslash comes from a text: they are behind the
marker byte 7, which is the case for the texts of a document, and not for code, addresses and titles. -/
inductive MarkedText : Bytes → Prop
  | nil : MarkedText []
  | plain {b s} : b ≠ 7 → b ≠ 92 → b ≠ 124 → MarkedText s → MarkedText (b :: s)
  | marked {c s} : 32 < c → c < 128 → MarkedText s → MarkedText (7 :: c :: s)

/-- The cells are written between pipes, each with any number of spaces around it.  A row without cells is empty. -/
def WrittenRow (cells : List Bytes) (line : Bytes) : Prop :=
  ∃ pads : List (Nat × Nat), pads.length = cells.length ∧
    line = (if cells = [] then [] else [124]) ++
      ((cells.zip pads).flatMap fun (c, l, r) => List.replicate l 32 ++ c ++ List.replicate r 32 ++ [124])

/-- GFM: the content of a cell of the delimiter row: hyphens, optionally with a colon before or after them. -/
def delimiterCell (left right : Bool) (n : Nat) : Bytes :=
  (if left then [58] else []) ++ List.replicate (n + 1) 45 ++ (if right then [58] else [])

/-- The delimiter row with the given columns: is there a colon before, a colon after the hyphens, and the number of
hyphens minus one. -/
def delimiterRow (cols : List (Bool × Bool × Nat)) : Bytes :=
  (if cols = [] then [] else [124]) ++ cols.flatMap fun (l, r, n) => delimiterCell l r n ++ [124]

/-- The text of a table: blank line, header, delimiter row, body, blank line, caption, blank line. -/
def tableText (head delimiter : Bytes) (body : List Bytes) (caption : Option Bytes) : Bytes :=
  [10, 10] ++ head ++ [10] ++ delimiter ++ [10] ++ body.flatMap (· ++ [10]) ++
  (match caption with | some c => [10, 10] ++ c | none => []) ++ [10, 10]

/-- `long` is `short` with empty cells added behind it. -/
def FilledUp (short long : List Bytes) : Prop := ∃ k, long = short ++ List.replicate k []

/-! ## HTML -/

/-- A cell of an HTML table. -/
structure SpanCell where
  content : Bytes
  rowspan : Nat
  colspan : Nat

/-- Cell number `i` of row number `r`. -/
def cellAt (rows : List (List SpanCell)) (r i : Nat) : Option SpanCell := (rows[r]?).bind (·[i]?)

/-- Cell `i` of row `r0`, which is in column `col r0 i`, covers the position `(r, c)`. -/
def Covers (rows : List (List SpanCell)) (col : Nat → Nat → Nat) (r0 i r c : Nat) : Prop :=
  ∃ cell, cellAt rows r0 i = some cell ∧ r0 ≤ r ∧ r < r0 + cell.rowspan ∧ col r0 i ≤ c ∧ c < col r0 i + cell.colspan

/-- The position `(r, c)` is covered by a cell of an earlier row. -/
def CoveredAbove (rows : List (List SpanCell)) (col : Nat → Nat → Nat) (r c : Nat) : Prop :=
  ∃ r0 i, r0 < r ∧ Covers rows col r0 i r c

/-- The first column behind the cell before cell `i` of row `r`. -/
def startColumn (rows : List (List SpanCell)) (col : Nat → Nat → Nat) (r : Nat) : Nat → Nat
  | 0 => 0
  | i + 1 => col r i + ((cellAt rows r i).map (·.colspan)).getD 0

/-- `col r i` is the column of cell `i` of row `r`: the first one behind the previous cell of the row that is not
covered by a cell of an earlier row. -/
def Layout (rows : List (List SpanCell)) (col : Nat → Nat → Nat) : Prop :=
  ∀ r i, (cellAt rows r i).isSome →
    startColumn rows col r i ≤ col r i ∧ ¬ CoveredAbove rows col r (col r i) ∧
    ∀ c, startColumn rows col r i ≤ c → c < col r i → CoveredAbove rows col r c

/-- No position is covered by two cells (HTML: a table model error). -/
def NoOverlap (rows : List (List SpanCell)) (col : Nat → Nat → Nat) : Prop :=
  ∀ r i c, Covers rows col r i r c → ¬ CoveredAbove rows col r c

/-- `grid r c` shows the table: the content of a cell is at its place, `merged content` at the other positions the cell
covers, nothing at positions that are not covered. -/
def ShowsGrid (rows : List (List SpanCell)) (col : Nat → Nat → Nat) (merged : Bytes → Bytes) (grid : Nat → Nat → Bytes) : Prop :=
  (∀ r i cell, cellAt rows r i = some cell → grid r (col r i) = cell.content) ∧
  (∀ r0 i r c cell, r < rows.length → cellAt rows r0 i = some cell → Covers rows col r0 i r c →
    ¬ (r = r0 ∧ c = col r0 i) → grid r c = merged cell.content) ∧
  (∀ r c, r < rows.length → (∀ r0 i, ¬ Covers rows col r0 i r c) → grid r c = [])

end Verif.Spec
