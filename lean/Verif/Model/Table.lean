import Verif.Model.Commonmark
/-!
# Model of `/repo/plugin/table`

The cells of a row are given by the bytes that rendering their node produced and the values of their two span
attributes.  A missing cell (Go `nil`) is the empty byte string.  Go `int`s that cannot be negative are natural numbers; the widths
and spans are assumed not to exhaust the memory.
-/

namespace Verif.Table
open Verif Escape Commonmark

/-- `/repo/plugin/table/table.go:14-21` `SpanCellBehavior`; the empty string is `empty`. -/
inductive SpanBehavior | empty | mirror
  deriving DecidableEq, Repr

/-- `/repo/plugin/table/table.go:43-50` `NewlineBehavior`; the empty string is `skip`. -/
inductive NewlineBehavior | skip | preserve
  deriving DecidableEq, Repr

/-- `/repo/plugin/table/table.go:74-83` `CellPaddingBehavior`. -/
inductive Padding | aligned | minimal | none
  deriving DecidableEq, Repr

/-- `/repo/plugin/table/table.go:140-150` `tablePlugin` without the mutex and the error;
`/repo/plugin/table/table.go:165-177`: the default values. -/
structure Config where
  span : SpanBehavior := .empty
  newline : NewlineBehavior := .skip
  skipEmptyRows : Bool := false
  promoteFirstRow : Bool := false
  presentation : Bool := false
  padding : Padding := .aligned

/-! ## utils.go -/

/-- `/repo/plugin/table/utils.go:14` `defaultCellWidth`. -/
def defaultCellWidth : Nat := 1

/-- `/repo/plugin/table/utils.go:20-30`: the inner loop of `calculateMaxCounts`, for one row. -/
def maxCountsRow : List Nat → List Bytes → List Nat
  | counts, [] => counts
  | [], cell :: cells => max defaultCellWidth (runeCount cell) :: maxCountsRow [] cells
  | n :: counts, cell :: cells => max n (runeCount cell) :: maxCountsRow counts cells

/-- `/repo/plugin/table/utils.go:16-33` `calculateMaxCounts`. -/
def calculateMaxCounts (rows : List (List Bytes)) : List Nat := rows.foldl maxCountsRow []

/-- `/repo/plugin/table/utils.go:35-45` `fillUpRows`. -/
def fillUpRows (rows : List (List Bytes)) (maxColumnCount : Nat) : List (List Bytes) :=
  rows.map fun cells => cells ++ List.replicate (maxColumnCount - cells.length) []

/-- `/repo/plugin/table/utils.go:47-61` `getNumberAttributeOr` with the fallback 1; `none` if the attribute is missing. -/
def spanAttr (attr : Option Bytes) : Nat :=
  match attr with
  | none => 1
  | some val => match atoi val with
    | none => 1
    | some num => if num < 1 then 1 else num.toNat

/-- `/repo/plugin/table/utils.go:63-67` `modification`. -/
structure Mod where
  y : Nat
  x : Nat
  data : Bytes
  deriving DecidableEq, Repr

/-- `/repo/plugin/table/utils.go:69-102` `calculateModifications`. -/
def calculateModifications (row col rowSpan colSpan : Nat) (data : Bytes) : List Mod :=
  if colSpan ≤ 1 ∧ rowSpan ≤ 1 then []
  else
    ((List.range colSpan).drop 1).map (fun dx => { y := row, x := col + dx, data := data }) ++
    ((List.range rowSpan).drop 1).flatMap fun dy =>
      (List.range colSpan).map fun dx => { y := row + dy, x := col + dx, data := data }

/-- `/repo/plugin/table/utils.go:133-148` `growSlice`: afterwards there are at least `len` elements (`len` is the
Go argument `index` plus one). -/
def growSlice {α : Type} (contents : List α) (len : Nat) (placeholder : α) : List α :=
  contents ++ List.replicate (len - contents.length) placeholder

/-- `slices.Insert` of one element; the index is at most the length. Called at `/repo/plugin/table/utils.go:126`. -/
def insertAt {α : Type} (l : List α) (i : Nat) (a : α) : List α := l.take i ++ a :: l.drop i

/-- `/repo/plugin/table/utils.go:118-126`: one modification. -/
def applyMod (contents : List (List Bytes)) (m : Mod) : List (List Bytes) :=
  (growSlice contents (m.y + 1) []).modify m.y fun row => insertAt (growSlice row m.x []) m.x m.data

/-- `/repo/plugin/table/utils.go:116-130` `applyModifications`. -/
def applyModifications (contents : List (List Bytes)) (mods : List Mod) : List (List Bytes) :=
  mods.foldl applyMod contents

/-- `/repo/plugin/table/utils.go:104-114` `applyGroupedModifications`. -/
def applyGroupedModifications (contents : List (List Bytes)) (grouped : List (List Mod)) : List (List Bytes) :=
  grouped.reverse.foldl applyModifications contents

/-- `/repo/plugin/table/utils.go:150-157` `isEmptyRow`. -/
def isEmptyRow (cells : List Bytes) : Bool := cells.all (·.isEmpty)

/-- `/repo/plugin/table/utils.go:158-178` `removeEmptyRows`. -/
def removeEmptyRows (rows : List (List Bytes)) : List (List Bytes) :=
  match rows with
  | [] => []
  | first :: rest =>
    let rest := rest.filter fun cells => !isEmptyRow cells
    if rest = [] ∧ isEmptyRow first = true then [] else first :: rest

/-- `/repo/plugin/table/utils.go:180-187` `removeFirstRowIfEmpty`. -/
def removeFirstRowIfEmpty (rows : List (List Bytes)) : List (List Bytes) :=
  match rows with
  | [] => []
  | first :: rest => if isEmptyRow first then rest else first :: rest

/-! ## 2_collect.go -/

/-- A `<th>` or `<td>` node: what `ctx.RenderNodes` writes for it, and the values of the attributes `rowspan` and
`colspan` if it has them. See `/repo/plugin/table/2_collect.go:164-196`. -/
structure RawCell where
  rendered : Bytes
  rowspan : Option Bytes := none
  colspan : Option Bytes := none

/-- `/repo/plugin/table/2_collect.go:126-132` `getContentForMergedCell`. -/
def mergedContent (cfg : Config) (content : Bytes) : Bytes :=
  if cfg.span = .mirror then content else []

/-- `/repo/plugin/table/2_collect.go:174-182`: the content of a cell.  `unEscape` is `ctx.UnEscapeContent`. -/
def cellContent (unEscape : Bytes → Bytes) (rendered : Bytes) : Bytes :=
  unEscape (replaceAll [MARK, 124] [BS, 124] (trimSpace rendered))

/-- `/repo/plugin/table/2_collect.go:164-196` `collectCellsInRow`. -/
def collectCellsInRow (cfg : Config) (unEscape : Bytes → Bytes) (rowIndex : Nat) (cells : List RawCell) :
    List Bytes × List Mod :=
  (cells.map fun c => cellContent unEscape c.rendered,
   cells.zipIdx.flatMap fun (c, index) =>
    calculateModifications rowIndex index (spanAttr c.rowspan) (spanAttr c.colspan)
      (mergedContent cfg (cellContent unEscape c.rendered)))

/-- `/repo/plugin/table/2_collect.go:201-220`: the contents of all rows and the grouped modifications, before the
modifications are applied.  Without a header row there is an empty first row. -/
def collectBoth (cfg : Config) (unEscape : Bytes → Bytes) (header : Option (List RawCell)) (normal : List (List RawCell)) :
    List (List Bytes × List Mod) :=
  (match header with
    | some cells => collectCellsInRow cfg unEscape 0 cells
    | none => ([], [])) ::
  normal.zipIdx.map fun (cells, index) => collectCellsInRow cfg unEscape (index + 1) cells

/-- `/repo/plugin/table/2_collect.go:197-234` `collectRows`.  (Without a header row Go has no group of modifications
for the empty first row, the model an empty group: the same.) -/
def collectRows (cfg : Config) (unEscape : Bytes → Bytes) (header : Option (List RawCell)) (normal : List (List RawCell)) :
    List (List Bytes) :=
  let both := collectBoth cfg unEscape header normal
  let rows := applyGroupedModifications (both.map (·.1)) (both.map (·.2))
  let rows := if cfg.skipEmptyRows then removeEmptyRows rows else rows
  if cfg.promoteFirstRow then removeFirstRowIfEmpty rows else rows

/-- `/repo/plugin/table/2_collect.go:93-114` of `collectTableContent`: the rows of the table, `none` if the
table cannot be rendered as one. -/
def tableRows (cfg : Config) (unEscape : Bytes → Bytes) (header : Option (List RawCell)) (normal : List (List RawCell)) :
    Option (List (List Bytes)) :=
  let rows := collectRows cfg unEscape header normal
  if rows = [] then none
  else if cfg.newline = .preserve then some (rows.map fun cells => cells.map (replaceAll [NL] b!"<br />"))
  else if rows.any fun cells => cells.any fun cell => cell.contains NL then none
  else some rows

/-- `/repo/plugin/table/2_collect.go:236-251` `collectCaption`: `bytes.TrimSpace` returns `nil` if nothing is left;
`rendered` is `none` if there is no caption node. -/
def caption (rendered : Option Bytes) : Option Bytes :=
  match rendered with
  | none => none
  | some r => if trimSpace r = [] then none else some (trimSpace r)

/-! ## 3_render.go -/

/-- `/repo/plugin/table/3_render.go:55-61` `getAlignmentFor`. -/
def alignmentFor (alignments : List Bytes) (index : Nat) : Bytes := alignments.getD index []

/-- `/repo/plugin/table/3_render.go:70-86`: one column of the header underline, with the pipe after it. -/
def underlineCell (padding : Padding) (align : Bytes) (maxLength : Nat) : Bytes :=
  (if align = b!"left" ∨ align = b!"center" then b!":" else b!"-") ++
  (if padding = .aligned then List.replicate maxLength 45 else b!"-") ++
  (if align = b!"right" ∨ align = b!"center" then b!":" else b!"-")

/-- `/repo/plugin/table/3_render.go:62-89` `writeHeaderUnderline`. -/
def headerUnderline (padding : Padding) (alignments : List Bytes) (counts : List Nat) : Bytes :=
  counts.zipIdx.flatMap fun (maxLength, i) =>
    (if i = 0 then b!"|" else []) ++ underlineCell padding (alignmentFor alignments i) maxLength ++ b!"|"

/-- `/repo/plugin/table/3_render.go:98-113`: one cell of a row. -/
def rowCell (padding : Padding) (count : Nat) (cell : Bytes) : Bytes :=
  (if padding = .aligned ∨ padding = .minimal then [SP] else []) ++ cell ++
  (if padding = .aligned then List.replicate (count - runeCount cell) SP else []) ++
  (if padding = .aligned ∨ padding = .minimal then [SP] else [])

/-- `/repo/plugin/table/3_render.go:91-117` `writeRow`. -/
def row (padding : Padding) (counts : List Nat) (cells : List Bytes) : Bytes :=
  cells.zipIdx.flatMap fun (cell, i) =>
    (if i = 0 then b!"|" else []) ++ rowCell padding (counts.getD i 0) cell ++ b!"|"

/-- `/repo/plugin/table/3_render.go:11-53` `renderTable`, what it writes once there is a table. -/
def render (padding : Padding) (alignments : List Bytes) (rows : List (List Bytes)) (cap : Option Bytes) : Bytes :=
  let counts := calculateMaxCounts rows
  let rows := fillUpRows rows counts.length
  b!"\n\n" ++ row padding counts (rows.headD []) ++ b!"\n" ++ headerUnderline padding alignments counts ++ b!"\n" ++
  (rows.drop 1).flatMap (fun cells => row padding counts cells ++ b!"\n") ++
  (match cap with | some c => b!"\n\n" ++ c | none => []) ++ b!"\n\n"

/-- `/repo/plugin/table/3_render.go:11-53` `renderTable` for a table whose nodes are not problematic; `none` is
`RenderTryNext`. -/
def table (cfg : Config) (unEscape : Bytes → Bytes) (alignments : List Bytes) (header : Option (List RawCell))
    (normal : List (List RawCell)) (cap : Option Bytes) : Option Bytes :=
  (tableRows cfg unEscape header normal).map fun rows => render cfg.padding alignments rows (caption cap)

end Verif.Table
