import Verif.Proofs.TableGrid
/-!
# Property C57: the cells of a table are where HTML puts them

`spanRows un header normal` are the rows of the table as the specification sees them: the content, the row span and the
column span of every cell.  Without a header the first row is empty, because the code writes an empty header then.
`Spec.Layout` is the placement of the cells that HTML prescribes.
-/

namespace Verif.Props
open Verif Verif.Table

/-- **C57**, partial.  If no two cells overlap, and every cell that spans several rows or columns has
nothing but ordinary cells before it (it is in the column of its index), then every cell is written at the place where HTML puts it,
the other positions it covers hold the content or nothing, as configured, and all remaining positions are empty.

Missing: tables in which a spanning cell is shifted by another one; `c57_counterexample_columns` and
`c57_counterexample_rows` show that the code misplaces cells then.  The removal of empty rows and the
promotion of the first row are in `c68_skip_empty` and `c68_promotion`. -/
theorem c57_grid_partial (cfg : Config) (un : Bytes → Bytes) (header : Option (List RawCell)) (normal : List (List RawCell))
    (col : Nat → Nat → Nat) (hskip : cfg.skipEmptyRows = false) (hprom : cfg.promoteFirstRow = false)
    (hl : Spec.Layout (spanRows un header normal) col) (hn : Spec.NoOverlap (spanRows un header normal) col)
    (hs : ∀ r i c, Spec.cellAt (spanRows un header normal) r i = some c → (1 < c.rowspan ∨ 1 < c.colspan) → col r i = i) :
    Spec.ShowsGrid (spanRows un header normal) col (fun content => if cfg.span = .mirror then content else [])
      fun r c => ((collectRows cfg un header normal).getD r []).getD c [] := by
  have h := shows_grid (merged := mergedContent cfg) hl (spanRows_pos un header normal) hn hs
  have he : ∀ r c, ((collectRows cfg un header normal).getD r []).getD c [] =
      ((allMods (mergedContent cfg) (spanRows un header normal) r).foldl ins
        (((spanRows un header normal).getD r []).map (·.content))).getD c [] := by
    intro r c
    rw [collectRows_getD cfg un header normal hskip hprom]
  simp only [he]
  exact h

/-- **C57**, special case: without spans every row has exactly its cells, whatever the options for spans are. -/
theorem c57_no_spans (cfg : Config) (un : Bytes → Bytes) (header : Option (List RawCell)) (normal : List (List RawCell))
    (hskip : cfg.skipEmptyRows = false) (hprom : cfg.promoteFirstRow = false)
    (hs : ∀ r ∈ header.getD [] :: normal, ∀ c ∈ r, spanAttr c.rowspan = 1 ∧ spanAttr c.colspan = 1) :
    collectRows cfg un header normal = (header.getD [] :: normal).map fun r => r.map fun c => cellContent un c.rendered := by
  have hm : ∀ (j : Nat) (cells : List RawCell), (∀ c ∈ cells, spanAttr c.rowspan = 1 ∧ spanAttr c.colspan = 1) →
      (rowMods (mergedContent cfg) j (cells.map (toSpan un))) = [] := by
    intro j cells h
    rw [List.eq_nil_iff_forall_not_mem]
    intro m hm
    obtain ⟨i, c, hc, hm⟩ := mem_rowMods.1 hm
    simp only [List.getElem?_map, Option.map_eq_some_iff] at hc
    obtain ⟨raw, hr, rfl⟩ := hc
    have := h raw (List.mem_of_getElem? hr)
    simp [toSpan, this, calculateModifications] at hm
  have hg : ∀ (g : List (List Mod)) contents, (∀ l ∈ g, l = []) → applyGroupedModifications contents g = contents := by
    intro g contents h
    rw [applyGroupedModifications]
    have : ∀ (g : List (List Mod)) contents, (∀ l ∈ g, l = []) → g.foldl applyModifications contents = contents := by
      intro g
      induction g with
      | nil => intro c _; rfl
      | cons a g ih =>
        intro c h
        rw [List.foldl_cons, h a (by simp), ih _ (fun l hl => h l (by simp [hl]))]
        rfl
    exact this _ _ fun l hl => h l (List.mem_reverse.1 hl)
  simp only [collectRows, hskip, hprom, Bool.false_eq_true, if_false]
  rw [hg]
  · rw [collectBoth_eq]
    have : ∀ (l : List (List Spec.SpanCell)) k, ((l.zipIdx k).map fun ((cells, j) : List Spec.SpanCell × Nat) =>
        (cells.map Spec.SpanCell.content, rowMods (mergedContent cfg) j cells)).map (·.1) = l.map (·.map Spec.SpanCell.content) := by
      intro l
      induction l with
      | nil => intro k; rfl
      | cons a l ih => intro k; rw [List.zipIdx_cons, List.map_cons, List.map_cons, ih]; rfl
    rw [this, spanRows]
    simp [toSpan, Function.comp_def]
  · intro l hl
    rw [collectBoth_eq, spanRows] at hl
    simp only [List.mem_map] at hl
    obtain ⟨_, ⟨⟨cells, j⟩, hz, rfl⟩, rfl⟩ := hl
    have := List.mem_zipIdx_iff_getElem?.1 hz
    simp only [List.getElem?_map, Option.map_eq_some_iff] at this
    obtain ⟨raw, hr, rfl⟩ := this
    exact hm _ _ fun c hc => hs raw (List.mem_of_getElem? hr) c hc

/-- **C57**, counterexample: two cells `A` and `B` with two columns each.  HTML puts `B` in column 2; it is written in
column 3. -/
theorem c57_counterexample_columns :
    let cells : List RawCell := [⟨b!"A", none, some b!"2"⟩, ⟨b!"B", none, some b!"2"⟩]
    let col : Nat → Nat → Nat := fun _ i => 2 * i
    Spec.Layout (spanRows id (some cells) []) col ∧ Spec.NoOverlap (spanRows id (some cells) []) col ∧
    ((collectRows {} id (some cells) []).getD 0 []).getD (col 0 1) [] ≠ b!"B" ∧
    collectRows {} id (some cells) [] = [[b!"A", [], [], b!"B"]] :=
  ⟨layout_of_check (by decide), noOverlap_of_check (by decide), by decide, by decide⟩

/-- **C57**, counterexample with row spans only: `A` and `C` span two rows.

    A B        HTML:  A B     written:  A B
    C D               · C D             · C D
    E F               E · F             · E F

`E` belongs in column 0 and `F` in column 2; `E` is written in column 1. -/
theorem c57_counterexample_rows :
    let header : List RawCell := [⟨b!"A", some b!"2", none⟩, ⟨b!"B", none, none⟩]
    let normal : List (List RawCell) :=
      [[⟨b!"C", some b!"2", none⟩, ⟨b!"D", none, none⟩], [⟨b!"E", none, none⟩, ⟨b!"F", none, none⟩]]
    let col : Nat → Nat → Nat := fun r i => ([[0, 1], [1, 2], [0, 2]].getD r []).getD i 0
    Spec.Layout (spanRows id (some header) normal) col ∧ Spec.NoOverlap (spanRows id (some header) normal) col ∧
    ((collectRows {} id (some header) normal).getD 2 []).getD (col 2 0) [] ≠ b!"E" ∧
    collectRows {} id (some header) normal = [[b!"A", b!"B"], [[], b!"C", b!"D"], [[], b!"E", b!"F"]] :=
  ⟨layout_of_check (by decide), noOverlap_of_check (by decide), by decide, by decide⟩

/-- A table that satisfies the hypotheses of `c57_grid_partial`: `A` spans two rows and two columns, `C` two rows.

    A A B
    A A C
    D E C -/
example :
    let header : List RawCell := [⟨b!"A", some b!"2", some b!"2"⟩, ⟨b!"B", none, none⟩]
    let normal : List (List RawCell) := [[⟨b!"C", none, none⟩], [⟨b!"D", none, none⟩, ⟨b!"E", none, none⟩, ⟨b!"F", some b!"2", none⟩],
      [⟨b!"G", none, none⟩]]
    let col : Nat → Nat → Nat := fun r i => ([[0, 2], [2], [0, 1, 2], [0]].getD r []).getD i 0
    Spec.Layout (spanRows id (some header) normal) col ∧ Spec.NoOverlap (spanRows id (some header) normal) col ∧
    (∀ r i c, Spec.cellAt (spanRows id (some header) normal) r i = some c → (1 < c.rowspan ∨ 1 < c.colspan) → col r i = i) ∧
    collectRows { span := .mirror } id (some header) normal =
      [[b!"A", b!"A", b!"B"], [b!"A", b!"A", b!"C"], [b!"D", b!"E", b!"F"], [b!"G", [], b!"F"]] :=
  ⟨layout_of_check (by decide), noOverlap_of_check (by decide), inPlace_of_check (by decide), by decide⟩

/-- **C57**, a row span beyond the end of the table: HTML clips it, the code adds rows.  Here the table has one row and
three are written. -/
theorem c57_counterexample_overlong :
    collectRows {} id (some [⟨b!"A", some b!"3", none⟩, ⟨b!"B", none, none⟩]) [] = [[b!"A", b!"B"], [[]], [[]]] := by
  decide

/-! ## C68: empty rows and header promotion -/

/-- **C68.**  With the option to skip empty rows, the rows are those that would be written without it, without the empty
ones.  The first row is the header, which is kept, unless there is no content at all: then there is no table. -/
theorem c68_skip_empty (cfg : Config) (un : Bytes → Bytes) (header : Option (List RawCell)) (normal : List (List RawCell)) 
    (hprom : cfg.promoteFirstRow = false) :
    ∃ first rest, collectRows { cfg with skipEmptyRows := false } un header normal = first :: rest ∧
      let filled := rest.filter fun cells => cells.any (· ≠ [])
      collectRows { cfg with skipEmptyRows := true } un header normal =
        if (∀ c ∈ first, c = []) ∧ filled = [] then [] else first :: filled := by
  have hne := collectRows_ne_nil { cfg with skipEmptyRows := false } un header normal rfl hprom
  obtain ⟨first, rest, h⟩ : ∃ a b, collectRows { cfg with skipEmptyRows := false } un header normal = a :: b := by
    cases h : collectRows { cfg with skipEmptyRows := false } un header normal with
    | nil => exact absurd h hne
    | cons a b => exact ⟨a, b, rfl⟩
  refine ⟨first, rest, h, ?_⟩
  have he : ∀ cells : List Bytes, (!isEmptyRow cells) = cells.any (· ≠ []) := by
    intro cells
    rw [isEmptyRow, List.not_all_eq_any_not]
    congr 1
    funext c
    cases c <;> rfl
  have hf : (isEmptyRow first = true) ↔ ∀ c ∈ first, c = [] := by
    simp [isEmptyRow]
  have : collectRows { cfg with skipEmptyRows := true } un header normal =
      removeEmptyRows (collectRows { cfg with skipEmptyRows := false } un header normal) := by
    simp [collectRows, hprom, collectBoth, collectCellsInRow, mergedContent]
  rw [this, h, removeEmptyRows]
  simp only [he]
  by_cases h1 : rest.filter (fun cells => cells.any (· ≠ [])) = []
  · by_cases h2 : isEmptyRow first = true
    · rw [if_pos ⟨h1, h2⟩, if_pos ⟨hf.1 h2, h1⟩]
    · rw [if_neg (fun h => h2 h.2), if_neg (fun h => h2 (hf.2 h.1))]
  · rw [if_neg (fun h => h1 h.1), if_neg (fun h => h1 h.2)]

/-- **C68**, header promotion: without a header row, and with the option, the first row that the table has is the header of
the written table.  With a header row of which a cell has content, the option changes nothing. -/
theorem c68_promotion (cfg : Config) (un : Bytes → Bytes) (normal : List (List RawCell))
    (hskip : cfg.skipEmptyRows = false) :
    collectRows { cfg with promoteFirstRow := false } un none normal =
      [] :: collectRows { cfg with promoteFirstRow := true } un none normal ∧
    ∀ header first rest, collectRows { cfg with promoteFirstRow := false } un (some header) normal = first :: rest →
      (∃ c ∈ first, c ≠ []) → collectRows { cfg with promoteFirstRow := true } un (some header) normal = first :: rest := by
  have key : ∀ header, collectRows { cfg with promoteFirstRow := true } un header normal =
      removeFirstRowIfEmpty (collectRows { cfg with promoteFirstRow := false } un header normal) := by
    intro header
    simp [collectRows, hskip, collectBoth, collectCellsInRow, mergedContent]
  refine ⟨?_, ?_⟩
  · have hne := collectRows_ne_nil { cfg with promoteFirstRow := false } un none normal hskip rfl
    rw [key]
    have h0 := collectRows_first { cfg with promoteFirstRow := false } un normal hskip rfl
    cases h : collectRows { cfg with promoteFirstRow := false } un none normal with
    | nil => exact absurd h hne
    | cons a b =>
      rw [h] at h0
      simp only [List.getD_cons_zero] at h0
      subst h0
      rfl
  · intro header first rest h ⟨c, hc, hne⟩
    rw [key, h, removeFirstRowIfEmpty, if_neg]
    simp only [isEmptyRow, List.all_eq_true, List.isEmpty_iff]
    exact fun h => hne (h c hc)

/-- Rows without content and promotion, on a table without a header. -/
example :
    let normal : List (List RawCell) := [[⟨b!"A", none, none⟩], [⟨b!" ", none, none⟩, ⟨[], none, none⟩], [⟨b!"B", none, none⟩]]
    collectRows { skipEmptyRows := true } id none normal = [[], [b!"A"], [b!"B"]] ∧
    collectRows { promoteFirstRow := true } id none normal = [[b!"A"], [[], []], [b!"B"]] ∧
    collectRows { skipEmptyRows := true, promoteFirstRow := true } id none normal = [[b!"A"], [b!"B"]] := by
  decide

end Verif.Props
