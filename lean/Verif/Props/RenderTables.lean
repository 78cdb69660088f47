import Verif.Props.Render
/-!
# Whole conversions: pages with tables
-/

namespace Verif.Props
open Verif Verif.Spec Verif.Render

/-! ## C76: which rows a table has -/

/-- **C76**: the rows of the Markdown table are the rows of the HTML table, each once (if header cells are directly inside of rows, as the
HTML parser guarantees).  The header is one of them. -/
theorem c76_rows_once {table : Node} (ht : table.name = b!"table") (hh : HeaderCellsInRows table) :
    (((selectHeader table).toList ++ selectRows table (selectHeader table)).map (·.2)).Perm (rowsOf table) := by
  rw [← TableNodes.rowsAt_snd]
  exact (TableNodes.rows_perm hh (by rw [ht]; decide)).map _

/-- **C76**: the order of the rows stays, if no row comes before the header. -/
theorem c76_rows_in_order {table : Node} (ht : table.name = b!"table") (hh : TopDown table) :
    ((selectHeader table).toList ++ selectRows table (selectHeader table)).map (·.2) = rowsOf table := by
  rw [← TableNodes.rowsAt_snd, TableNodes.rows_topDown hh (by rw [ht]; decide)]

/-- **C76**: the other rows stay in their order in any case, and a cell is a cell of its row. -/
theorem c76_other_rows {table : Node} (ht : table.name = b!"table") (header : Option (Path × Node)) :
    ((selectRows table header).map (·.2)).Sublist (rowsOf table) ∧ ∀ row, ((cellsOf row).map (·.2)) = cellsIn row.2 := by
  refine ⟨?_, TableNodes.cellsOf_snd⟩
  rw [← TableNodes.rowsAt_snd, TableNodes.selectRows_eq (by rw [ht]; decide)]
  exact List.filter_sublist.map _

/-- **C76**: which row is the header: the first row inside of the first `thead`. -/
theorem c76_header_thead {table : Node} {A B C D : List Node} {thead row : Node} (h1 : inside table = A ++ thead :: B) (h2 : thead.name = b!"thead")
    (h3 : ∀ x ∈ A, x.name ≠ b!"thead") (h4 : inside thead = C ++ row :: D) (h5 : row.name = b!"tr") (h6 : ∀ x ∈ C, x.name ≠ b!"tr") :
    (selectHeader table).map (·.2) = some row := by
  have first : ∀ (name : Bytes) (z : Path × Node) (A : List Node) (x : Node) (B : List Node), inside z.2 = A ++ x :: B → x.name = name →
      (∀ y ∈ A, y.name ≠ name) → (findFirst name z).map (·.2) = some x := by
    intro name z A x B e hx hA
    have := List.find?_map (f := fun y : Path × Node => y.2) (p := fun n : Node => decide (n.name = name)) (l := below z.1 z.2)
    rw [TableNodes.below_snd.1 z.2 z.1, e, List.find?_append, List.find?_eq_none.2 (by simpa using hA), List.find?_cons] at this
    simp only [hx, decide_true, Option.none_or] at this
    exact this.symm
  have f1 := first b!"thead" ([], table) A thead B h1 h2 h3
  rw [Option.map_eq_some_iff] at f1
  obtain ⟨z, e1, rfl⟩ := f1
  have f2 := first b!"tr" z C row D h4 h5 h6
  rw [Option.map_eq_some_iff] at f2
  obtain ⟨w, e2, rfl⟩ := f2
  rw [selectHeader, e1, Option.bind_some, e2]
  rfl

theorem thead_none {table : Node} (h : ∀ x ∈ inside table, x.name = b!"thead" → rowsOf x = []) :
    (findFirst b!"thead" ([], table)).bind (findFirst b!"tr") = none := by
  cases e : findFirst b!"thead" ([], table) with
  | none => rfl
  | some z =>
    have hm := List.mem_of_find?_eq_some e
    have hn := List.find?_some e
    have := h z.2 (by rw [← TableNodes.below_snd.1 table []]; exact List.mem_map_of_mem hm) (by simpa using hn)
    rw [Option.bind_some, findFirst, List.find?_eq_none]
    intro y hy
    rw [rowsOf, ← TableNodes.below_snd.1 z.2 z.1, List.filter_eq_nil_iff] at this
    exact this y.2 (List.mem_map_of_mem hy)

/-- **C76**: which row is the header, if no row is inside of a `thead`: the row that the first header cell is in. -/
theorem c76_header_th {table : Node} (ht : table.name = b!"table") (hh : HeaderCellsInRows table)
    (h : ∀ x ∈ inside table, x.name = b!"thead" → rowsOf x = []) {A B : List Node} {th : Node} (h1 : inside table = A ++ th :: B)
    (h2 : th.name = b!"th") (h3 : ∀ x ∈ A, x.name ≠ b!"th") :
    ∃ row, (selectHeader table).map (·.2) = some row ∧ row.name = b!"tr" ∧ th ∈ row.children := by
  have hf := List.find?_map (f := fun y : Path × Node => y.2) (p := fun n : Node => decide (n.name = b!"th")) (l := below [] table)
  rw [TableNodes.below_snd.1 table [], h1, List.find?_append, List.find?_eq_none.2 (by simpa using h3), List.find?_cons] at hf
  simp only [h2, decide_true, Option.none_or] at hf
  have hf := hf.symm
  rw [Option.map_eq_some_iff] at hf
  obtain ⟨z, e, rfl⟩ := hf
  obtain ⟨A', B', e1, -, -⟩ := TableNodes.find_split e
  have hs : selectHeader table = (([], table) :: below [] table).find? fun y => y.1 = z.1.dropLast := by
    rw [selectHeader, thead_none h]
    simp only
    rw [findFirst, show (below ([], table).1 ([], table).2).find? (fun y => decide (y.2.name = b!"th")) = some z from e, Option.bind_some]
  rcases TableNodes.parent_before.1 table [] A' z B' e1 with ⟨g1, g2⟩ | ⟨y, hy, g1, g2⟩
  · have := hh table (by rw [TableNodes.nodes_eq]; simp) ⟨z.2, g2, h2⟩
    rw [ht] at this
    exact absurd this (by decide)
  · have hy' : y ∈ below [] table := by rw [e1]; simp [hy]
    have hyp : y.1 ≠ [] := by
      obtain ⟨j, r, e⟩ := TableNodes.path_prefix.1 table [] y hy'
      rw [e]; simp
    refine ⟨y.2, ?_, ?_, g2⟩
    · have hne : ¬ (([] : Path) = y.1) := fun e => hyp e.symm
      rw [hs, ← g1, List.find?_cons]
      simp only [hne, decide_false]
      rw [TableNodes.find_nodup (TableNodes.paths_nodup.1 table []) hy']
      rfl
    · refine hh y.2 ?_ ⟨z.2, g2, h2⟩
      rw [TableNodes.nodes_eq, ← TableNodes.below_snd.1 table []]
      exact List.mem_cons_of_mem _ (List.mem_map_of_mem hy')

/-- **C76**: without a `thead` that has a row and without a header cell there is no header row (the first line of the Markdown table is empty). -/
theorem c76_no_header {table : Node} (h : ∀ x ∈ inside table, x.name = b!"thead" → rowsOf x = []) (hth : ∀ x ∈ inside table, x.name ≠ b!"th") :
    selectHeader table = none := by
  rw [selectHeader, thead_none h]
  simp only
  have : findFirst b!"th" ([], table) = none := by
    rw [findFirst, List.find?_eq_none]
    intro y hy
    have := hth y.2 (by rw [← TableNodes.below_snd.1 table []]; exact List.mem_map_of_mem hy)
    simpa using this
  rw [this]
  rfl

/-- The header is in the second row. -/
example : selectHeader (.elem b!"table" [] [.elem b!"tbody" [] [.elem b!"tr" [] [.elem b!"td" [] []], .elem b!"tr" [] [.elem b!"th" [] []]]]) =
    some ([0, 1], .elem b!"tr" [] [.elem b!"th" [] []]) := rfl

/-! ## Deciding the conditions for one page -/

theorem first_split {P : Node → Bool} : ∀ {l A : List Node} {x : Node} {B : List Node}, l = A ++ x :: B → P x = true → (∀ a ∈ A, P a = false) →
    A = l.takeWhile fun a => !P a := by
  intro l A x B e hx hA
  subst e
  rw [List.takeWhile_append_of_pos (by simpa using hA), List.takeWhile_cons, hx]
  simp

theorem topDown_of {t : Node} (h1 : HeaderCellsInRows t) (h2 : charsOf t = cellChars (rowsOf t))
    (h3 : (inside t).any (fun x => x.name = b!"thead") = true → ∀ a ∈ (inside t).takeWhile (fun a => !decide (a.name = b!"thead")), a.name ≠ b!"tr")
    (h4 : (((inside t).takeWhile fun a => !decide (a.name = b!"th")).filter (·.name = b!"tr")).length ≤ 1) : TopDown t where
  headers := h1
  content := h2
  thead := by
    intro A x B e hx hA
    have := first_split (P := fun a => decide (a.name = b!"thead")) e (by simpa using hx) (by simpa using hA)
    rw [this]
    refine h3 ?_
    rw [e]; simp [hx]
  th := by
    right
    intro A x B e hx hA
    have := first_split (P := fun a => decide (a.name = b!"th")) e (by simpa using hx) (by simpa using hA)
    rw [this]
    exact h4

/-! ## A page with a table -/

/-- All four stock plugins, with the default options. -/
def fullEnv : Env := { demoEnv .smart with strike := some b!"~~", table := some {} }

/-- `<p><del>old</del> new</p><table><thead><tr><th>A</th><th align="right">B</th></tr></thead><tbody><tr><td>1|2</td><td><b>3</b></td></tr></tbody></table>` -/
def tablePage : Node := .elem b!"body" [] [
  .elem b!"p" [] [.elem b!"del" [] [.text b!"old"], .text b!" new"],
  .elem b!"table" [] [
    .elem b!"thead" [] [.elem b!"tr" [] [.elem b!"th" [] [.text b!"A"], .elem b!"th" [(b!"align", b!"right")] [.text b!"B"]]],
    .elem b!"tbody" [] [.elem b!"tr" [] [.elem b!"td" [] [.text b!"1|2"], .elem b!"td" [] [.elem b!"b" [] [.text b!"3"]]]]]]

theorem tablePage_ok : Page tablePage where
  texts := by
    intro i hi d hd
    have : ∀ i ∈ items [] tablePage, ∀ d ∈ i.what.text?, Utf8 d := by unfold Utf8; decide +kernel
    exact this i hi d (by rw [hd]; rfl)
  attrs := by
    intro i hi n a ha
    have : ∀ i ∈ items [] tablePage, ∀ p ∈ (match i.what with | .elem _ a => a | _ => []), Utf8 p.2 := by unfold Utf8; decide +kernel
    have := this i hi
    rw [ha] at this
    exact this
  void := by decide +kernel
  document := by decide +kernel
  root := by decide

/-- The conversion of this page. -/
theorem tablePage_converted : convertNode fullEnv tablePage =
    some b!"~~old~~ new\n\n| A    | B     |\n|------|------:|\n| 1\\|2 | **3** |" := by
  simp only [convertNode, preRender, strikePreRender, DomUtils.handlePreRender, mergeAdjacent_eq]
  decide +kernel

example : PlainStrike fullEnv := by
  intro d h
  have : d = b!"~~" := by simpa [fullEnv, eq_comm] using h
  subst this
  decide

/-- The table is read from top to bottom. -/
theorem tablePage_topDown : Tables TopDown fullEnv tablePage := by
  have h : ∀ t ∈ nodes (preRender fullEnv tablePage), t.name = b!"table" →
      (∀ x ∈ nodes t, (∃ c ∈ x.children, c.name = b!"th") → x.name = b!"tr") ∧ charsOf t = cellChars (rowsOf t) ∧
      ((inside t).any (fun x => x.name = b!"thead") = true → ∀ a ∈ (inside t).takeWhile (fun a => !decide (a.name = b!"thead")), a.name ≠ b!"tr") ∧
      (((inside t).takeWhile fun a => !decide (a.name = b!"th")).filter (·.name = b!"tr")).length ≤ 1 := by
    simp only [preRender, strikePreRender, DomUtils.handlePreRender, mergeAdjacent_eq]
    decide +kernel
  intro _ t ht hn _
  obtain ⟨h1, h2, h3, h4⟩ := h t ht hn
  exact topDown_of h1 h2 h3 h4

/-- So C64 applies to it. -/
example : Shows (visibleChars b!"~~old~~ new\n\n| A    | B     |\n|------|------:|\n| 1\\|2 | **3** |") (pageChars tablePage) :=
  c64_visible_text_partial tablePage_ok (by decide) (by unfold PlainDelimiters; decide)
    (by intro d h; have : d = b!"~~" := by simpa [fullEnv, eq_comm] using h
        subst this; decide) (fun u hu => hu) (Or.inl rfl) tablePage_topDown tablePage_converted

/-! ## Where C64 fails with the table plugin -/

/-- `<table><caption>x</caption><tr><td>y</td></tr></table>` -/
def captionTable : Node := .elem b!"table" [] [.elem b!"caption" [] [.text b!"x"],
  .elem b!"tbody" [] [.elem b!"tr" [] [.elem b!"td" [] [.text b!"y"]]]]

/-- The caption comes after the table: the order of the visible characters changes. -/
theorem c64_counterexample_caption : convertNode fullEnv captionTable = some b!"|   |\n|---|\n| y |\n\nx" ∧
    pageChars captionTable = [b!"x", b!"y"] ∧ ¬ Shows (visibleChars b!"|   |\n|---|\n| y |\n\nx") [b!"x", b!"y"] := by
  refine ⟨?_, by decide, ?_⟩
  · simp only [convertNode, preRender, strikePreRender, DomUtils.handlePreRender, mergeAdjacent_eq]
    decide +kernel
  · rintro ⟨ds, h1, h2⟩
    cases h1 with
    | same _ h1 =>
      cases h1 with
      | same _ h1 =>
        cases h1
        exact absurd h2 (by decide)

/-- But the table is tidy, so that the characters are there. -/
example : Tables Tidy fullEnv captionTable := by
  have h : ∀ t ∈ nodes (preRender fullEnv captionTable), t.name = b!"table" →
      (∀ x ∈ nodes t, (∃ c ∈ x.children, c.name = b!"th") → x.name = b!"tr") ∧ (charsOf t).Perm (cellChars (rowsOf t) ++ captionChars t) := by
    simp only [preRender, strikePreRender, DomUtils.handlePreRender, mergeAdjacent_eq]
    decide +kernel
  intro _ t ht hn _
  exact ⟨(h t ht hn).1, (h t ht hn).2⟩

/-- `<table><caption>x</caption><caption>z</caption><tr><td>y</td></tr></table>` (the HTML parser builds this tree for this source) -/
def captionTable2 : Node := .elem b!"table" [] [.elem b!"caption" [] [.text b!"x"], .elem b!"caption" [] [.text b!"z"],
  .elem b!"tbody" [] [.elem b!"tr" [] [.elem b!"td" [] [.text b!"y"]]]]

/-- A second caption is lost. -/
theorem c64_counterexample_caption2 : convertNode fullEnv captionTable2 = some b!"|   |\n|---|\n| y |\n\nx" ∧
    pageChars captionTable2 = [b!"x", b!"z", b!"y"] ∧ b!"z" ∉ visibleChars b!"|   |\n|---|\n| y |\n\nx" := by
  refine ⟨?_, by decide, by decide⟩
  simp only [convertNode, preRender, strikePreRender, DomUtils.handlePreRender, mergeAdjacent_eq]
  decide +kernel

/-! ## C77: tables that cannot be Markdown tables -/

/-- **C77**: a table with an element inside that cannot be in a Markdown table, or around which there is a link, emphasis or strikethrough, or
with the role "presentation" (unless the option says otherwise), is rendered as if the plugin were not there, except that rows are paragraphs. -/
theorem c77_fallback {E : Env} {cfg : Table.Config} (hc : E.table = some cfg) {link stuck : Bool} {a : List (Bytes × Bytes)} {cs : List Node}
    (h : (∃ x ∈ inside (.elem b!"table" a cs), x.name ∈ tableBreakers) ∨ stuck = true ∨
      (Node.attrOr b!"role" [] (.elem b!"table" a cs) = b!"presentation" ∧ cfg.presentation = false)) :
    renderNode E link stuck (.elem b!"table" a cs) = (renderL E link stuck cs).map (fallback E b!"table") := by
  have hb : cannotBeTable cfg stuck (.elem b!"table" a cs) = true := by
    rw [cannotBeTable]
    rcases h with ⟨x, hx, hn⟩ | h | ⟨h1, h2⟩
    · cases e : hasProblematicChild (.elem b!"table" a cs) with
      | true => simp
      | false => exact absurd hn ((problematic_iff _).1 e x hx)
    · simp [h]
    · rw [h1, h2]; simp
  rw [renderNode]
  have hp : (stuck || isProblematicParent b!"table") = stuck := by
    have : isProblematicParent b!"table" = false := by decide
    rw [this, Bool.or_false]
  simp only [hp]
  rw [if_neg (by decide), if_neg (by decide), if_neg (by decide), if_neg (by decide), if_neg (by decide), if_neg (by decide), if_neg (by decide),
    if_neg (by decide), if_neg (by decide), if_neg (by decide), if_neg (by decide), if_pos trivial, hc]
  simp only
  rw [renderTable, if_pos hb]
  rfl

/-- **C77**: the rows of such a table are paragraphs. -/
theorem c77_row {E : Env} (hc : E.table.isSome = true) {link stuck : Bool} {a : List (Bytes × Bytes)} {cs : List Node} :
    renderNode E link stuck (.elem b!"tr" a cs) = (renderL E link stuck cs).map fun x => b!"\n\n" ++ x ++ b!"\n\n" := by
  rw [renderNode]
  have hp : (stuck || isProblematicParent b!"tr") = stuck := by
    have : isProblematicParent b!"tr" = false := by decide
    rw [this, Bool.or_false]
  simp only [hp]
  rw [if_neg (by decide), if_neg (by decide), if_neg (by decide), if_neg (by decide), if_neg (by decide), if_neg (by decide), if_neg (by decide),
    if_neg (by decide), if_neg (by decide), if_neg (by decide), if_neg (by decide), if_neg (by decide), if_pos ⟨trivial, hc⟩]

end Verif.Props
