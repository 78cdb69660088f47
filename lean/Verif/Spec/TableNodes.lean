import Verif.Spec.Render
import Verif.Spec.Pointwise
/-!
# Specification: the rows and cells of an HTML table
-/

namespace Verif.Spec
open Verif

/-- The nodes inside of a node, in document order. -/
def inside (n : Node) : List Node := nodesL n.children

/-- The rows of a table, in document order. -/
def rowsOf (table : Node) : List Node := (inside table).filter (·.name = b!"tr")

/-- The cells of a row, in document order. -/
def cellsIn (row : Node) : List Node := (inside row).filter fun c => c.name = b!"th" ∨ c.name = b!"td"

/-- The first caption of a table. -/
def captionOf (table : Node) : Option Node := (inside table).find? (·.name = b!"caption")

/-- The visible characters inside of a node. -/
def charsOf (n : Node) : List Bytes := (texts n).flatMap visibleChars

/-- The visible characters in the cells of some rows. -/
def cellChars (rows : List Node) : List Bytes := rows.flatMap fun r => (cellsIn r).flatMap charsOf

/-- The visible characters of the first caption of a table. -/
def captionChars (table : Node) : List Bytes := (captionOf table).elim [] charsOf

/-- Header cells are directly inside of rows. -/
def HeaderCellsInRows (table : Node) : Prop := ∀ x ∈ nodes table, (∃ c ∈ x.children, c.name = b!"th") → x.name = b!"tr"

/-- A table as the HTML parser builds it, if it has no second caption: the text is in the cells of the rows and in the caption, and header
cells are directly inside of rows. -/
structure Tidy (table : Node) : Prop where
  headers : HeaderCellsInRows table
  content : (charsOf table).Perm (cellChars (rowsOf table) ++ captionChars table)

/-- A table that is read from top to bottom: there is no text in the caption, and no row comes before the header. -/
structure TopDown (table : Node) : Prop where
  headers : HeaderCellsInRows table
  content : charsOf table = cellChars (rowsOf table)
  /-- no row before the first `thead` -/
  thead : ∀ A x B, inside table = A ++ x :: B → x.name = b!"thead" → (∀ a ∈ A, a.name ≠ b!"thead") → ∀ a ∈ A, a.name ≠ b!"tr"
  /-- the first `thead` has a row, or the first header cell is in the first row -/
  th : (∃ A x B, inside table = A ++ x :: B ∧ x.name = b!"thead" ∧ (∀ a ∈ A, a.name ≠ b!"thead") ∧ rowsOf x ≠ []) ∨
    ∀ A x B, inside table = A ++ x :: B → x.name = b!"th" → (∀ a ∈ A, a.name ≠ b!"th") → (A.filter (·.name = b!"tr")).length ≤ 1

/-! ## The Markdown table for an HTML table -/

/-- The first node with a name inside of a node. -/
def firstInside (name : Bytes) (n : Node) : Option Node := (inside n).find? (·.name = name)

/-- `h` is the header row of a table: the first row of the first `thead`; if there is none, the row that the first header cell is in. -/
def HeaderRow (table : Node) (h : Option Node) : Prop :=
  match (firstInside b!"thead" table).bind (firstInside b!"tr") with
  | some row => h = some row
  | none =>
    match firstInside b!"th" table with
    | none => h = none
    | some th => ∃ row, h = some row ∧ row ∈ rowsOf table ∧ th ∈ row.children

/-- `others` are the rows of a table other than `h`, in their order. -/
def OtherRows (table : Node) (h : Option Node) (others : List Node) : Prop :=
  match h with
  | none => others = rowsOf table
  | some row => ∃ A B, rowsOf table = A ++ row :: B ∧ others = A ++ B

/-- The Markdown cells show the cells of an HTML row one by one; there may be empty cells behind them. -/
def CellsShow (row : Node) (cells : List Bytes) : Prop :=
  ∃ contents empty, cells = contents ++ List.replicate empty [] ∧
    Pointwise (fun c content => Shows (visibleChars content) (charsOf c)) (cellsIn row) contents

/-- The value of the attribute `align` of cell number `i` of a row. -/
def alignOf (row : Option Node) (i : Nat) : Option Bytes := (row.bind fun r => (cellsIn r)[i]?).bind (·.attr? b!"align")

/-- The output shows some characters, in some order. -/
def ShowsSomehow (out cs : List Bytes) : Prop := ∃ ds, cs.Perm ds ∧ Shows out ds

end Verif.Spec
