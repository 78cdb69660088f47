import Verif.Proofs.TableCells
import Verif.Props.Escape
/-!
# Properties C53-C56, C67: the text of a table

`table cfg un al header normal cap` is what the table plugin writes for a table; `header` and `normal` are the
rows, `un` is the function that un-escapes content, `al` are the alignments.  Wherever `un` and the rendered
contents of the cells are not restricted, they are arbitrary.
-/

namespace Verif.Props
open Verif Verif.Table Verif.Escape

/-- A table for the examples: a header with two cells, a row with one, a row with a column span. -/
def sampleTable : Option Bytes :=
  table {} id [b!"left", b!"right"] (some [⟨b!"A", none, none⟩, ⟨b!"B", none, none⟩])
    [[⟨b!"1", none, none⟩], [⟨b!"xyz", none, some b!"3"⟩]] (some b!"Cap")

example : sampleTable = some b!"\n\n| A   | B |   |\n|:----|--:|---|\n| 1   |   |   |\n| xyz |   |   |\n\n\nCap\n\n" := by
  decide

/-- **C53.**  Every table that is written consists of a header row, a delimiter row and body rows which all have the same
number `n` of cells.  The cells are those of the rows of the table, in the same order; empty cells are added to
shorter rows, and some row has `n` cells already. -/
theorem c53_rectangular {cfg : Config} {un : Bytes → Bytes} {al : List Bytes} {header : Option (List RawCell)}
    {normal : List (List RawCell)} {cap : Option Bytes} {out : Bytes} (h : table cfg un al header normal cap = some out) :
    ∃ (n : Nat) (rows : List (List Bytes)) (head : List Bytes) (body : List (List Bytes)) (headLine : Bytes)
      (cols : List (Bool × Bool × Nat)) (bodyLines : List Bytes),
      tableRows cfg un header normal = some rows ∧ Spec.Pointwise Spec.FilledUp rows (head :: body) ∧
      out = Spec.tableText headLine (Spec.delimiterRow cols) bodyLines (caption cap) ∧
      Spec.WrittenRow head headLine ∧ Spec.Pointwise Spec.WrittenRow body bodyLines ∧
      head.length = n ∧ cols.length = n ∧ (∀ r ∈ body, r.length = n) ∧ ∃ r ∈ rows, r.length = n := by
  simp only [table, Option.map_eq_some_iff] at h
  obtain ⟨rows, hrows, rfl⟩ := h
  obtain ⟨first, rest, rfl⟩ : ∃ a b, rows = a :: b := by
    cases rows with
    | nil => exact absurd rfl (tableRows_ne hrows)
    | cons a b => exact ⟨a, b, rfl⟩
  have hlen := counts_length (first :: rest)
  refine ⟨(calculateMaxCounts (first :: rest)).length, first :: rest,
    (fillUpRows (first :: rest) (calculateMaxCounts (first :: rest)).length).headD [],
    (fillUpRows (first :: rest) (calculateMaxCounts (first :: rest)).length).drop 1,
    row cfg.padding (calculateMaxCounts (first :: rest))
      ((fillUpRows (first :: rest) (calculateMaxCounts (first :: rest)).length).headD []),
    delimCols cfg.padding al (calculateMaxCounts (first :: rest)),
    ((fillUpRows (first :: rest) (calculateMaxCounts (first :: rest)).length).drop 1).map
      (row cfg.padding (calculateMaxCounts (first :: rest))), hrows, ?_, ?_, ?_, ?_, ?_, ?_, ?_, ?_⟩
  · exact pointwise_map (R := Spec.FilledUp)
      (fun cells => cells ++ List.replicate ((calculateMaxCounts (first :: rest)).length - cells.length) []) (first :: rest)
      fun a _ => ⟨_, rfl⟩
  · rw [render_eq, headerUnderline_eq _ _ _ (counts_pos _)]
  · have hm := fillUpRows_mem (r := first ++ List.replicate ((calculateMaxCounts (first :: rest)).length - first.length) []) hlen
      (by simp [fillUpRows])
    exact row_written _ _ _ (Nat.le_of_eq hm.1)
  · refine pointwise_map _ _ fun r hr => ?_
    exact row_written _ _ _ (Nat.le_of_eq (fillUpRows_mem hlen (List.mem_of_mem_drop hr)).1)
  · exact (fillUpRows_mem (r := first ++ List.replicate ((calculateMaxCounts (first :: rest)).length - first.length) []) hlen
      (by simp [fillUpRows])).1
  · simp [delimCols]
  · intro r hr
    exact (fillUpRows_mem hlen (List.mem_of_mem_drop hr)).1
  · rcases foldl_counts_attained (first :: rest) [] with h | ⟨row, hr, h⟩
    · refine ⟨first, by simp, ?_⟩
      have := hlen first (by simp)
      rw [calculateMaxCounts] at this ⊢
      simp only [List.length_nil] at h
      omega
    · exact ⟨row, hr, h.symm⟩

/-- **C53**, as GFM reads it: if no cell contains a separating pipe, then the header row, the delimiter row and every
body row of the written table have the same number of cells, when they are read by the rules of GFM. -/
theorem c53_gfm {cfg : Config} {un : Bytes → Bytes} {al : List Bytes} {header : Option (List RawCell)}
    {normal : List (List RawCell)} {cap : Option Bytes} {rows : List (List Bytes)}
    (h : tableRows cfg un header normal = some rows) (hne : ∃ r ∈ rows, r ≠ [])
    (hsafe : ∀ r ∈ rows, ∀ c ∈ r, Spec.pipeSafe c = true) :
    ∃ n headLine delimiter bodyLines, 0 < n ∧
      table cfg un al header normal cap = some (Spec.tableText headLine delimiter bodyLines (caption cap)) ∧
      bodyLines.length + 1 = rows.length ∧
      ∀ line ∈ headLine :: delimiter :: bodyLines, (Spec.rowCells line).length = n := by
  obtain ⟨n, rows', head, body, headLine, cols, bodyLines, h1, h2, h3, h4, h5, h6, h7, h8, h9⟩ :=
    c53_rectangular (cap := cap) (al := al) (show table cfg un al header normal cap = some _ by rw [table, h]; rfl)
  rw [h] at h1
  cases h1
  have hn : 0 < n := by
    obtain ⟨r, hr, hr'⟩ := hne
    have h0 : ∀ (rows long : List (List Bytes)), Spec.Pointwise Spec.FilledUp rows long → ∀ r ∈ rows,
        ∃ l ∈ long, r.length ≤ l.length := by
      intro rows long hp
      induction hp with
      | nil => simp
      | cons hab _ ih =>
        intro r hr
        rcases List.mem_cons.1 hr with rfl | hr
        · obtain ⟨k, rfl⟩ := hab
          exact ⟨_, List.mem_cons_self, by simp⟩
        · obtain ⟨l, hl, hle⟩ := ih r hr
          exact ⟨l, by simp [hl], hle⟩
    obtain ⟨l, hl, hle⟩ := h0 _ _ h2 r hr
    have hpos := List.length_pos_iff.2 hr'
    rcases List.mem_cons.1 hl with rfl | hl
    · omega
    · have := h8 l hl; omega
  have hsafe' : ∀ r ∈ head :: body, ∀ c ∈ r, Spec.pipeSafe c = true := by
    have h0 : ∀ (rows long : List (List Bytes)), Spec.Pointwise Spec.FilledUp rows long →
        (∀ r ∈ rows, ∀ c ∈ r, Spec.pipeSafe c = true) → ∀ r ∈ long, ∀ c ∈ r, Spec.pipeSafe c = true := by
      intro rows long hp
      induction hp with
      | nil => simp
      | cons hab _ ih =>
        intro hs r hr c hc
        rcases List.mem_cons.1 hr with rfl | hr
        · obtain ⟨k, rfl⟩ := hab
          rcases List.mem_append.1 hc with hc | hc
          · exact hs _ (by simp) c hc
          · rw [(List.mem_replicate.1 hc).2]; rfl
        · exact ih (fun r hr => hs r (by simp [hr])) r hr c hc
    exact h0 _ _ h2 hsafe
  refine ⟨n, headLine, _, bodyLines, hn, by rw [table, h, ← h3]; rfl, ?_, ?_⟩
  · have hlen : ∀ {α β : Type} {R : α → β → Prop} {a b}, Spec.Pointwise R a b → a.length = b.length := by
      intro α β R a b hp
      induction hp with
      | nil => rfl
      | cons _ _ ih => simp [ih]
    have := hlen h2
    have := hlen h5
    simp_all
  · have hcell : ∀ cells line, Spec.WrittenRow cells line → cells.length = n → (∀ c ∈ cells, Spec.pipeSafe c = true) →
        (Spec.rowCells line).length = n := by
      intro cells line hw hl hs
      rw [rowCells_written hw (by rintro rfl; simp at hl; omega) hs]
      simpa using hl
    intro line hline
    rcases List.mem_cons.1 hline with rfl | hline
    · exact hcell head _ h4 h6 (hsafe' _ (by simp))
    rcases List.mem_cons.1 hline with rfl | hline
    · rw [rowCells_delimiter _ (by rintro rfl; simp at h7; omega)]
      simpa using h7
    · have h0 : ∀ (body : List (List Bytes)) (lines : List Bytes), Spec.Pointwise Spec.WrittenRow body lines →
          ∀ line ∈ lines, ∃ cells ∈ body, Spec.WrittenRow cells line := by
        intro body lines hp
        induction hp with
        | nil => simp
        | cons hab _ ih =>
          intro line hl
          rcases List.mem_cons.1 hl with rfl | hl
          · exact ⟨_, by simp, hab⟩
          · obtain ⟨c, hc, hw⟩ := ih line hl
            exact ⟨c, by simp [hc], hw⟩
      obtain ⟨cells, hc, hw⟩ := h0 _ _ h5 line hline
      exact hcell cells _ hw (h8 _ hc) (hsafe' _ (by simp [hc]))

example : (Spec.rowCells b!"| a \\| b | c |").length = 2 ∧ Spec.pipeSafe b!"a \\| b" = true ∧ Spec.pipeSafe b!"a|b" = false := by
  decide

/-! ## C54 -/

/-- **C54.**  No cell of a table that is written contains a newline: every row of the table is one line of the
text that the table plugin writes. -/
theorem c54_one_line {cfg : Config} {un : Bytes → Bytes} {al : List Bytes} {header : Option (List RawCell)}
    {normal : List (List RawCell)} {cap : Option Bytes} {out : Bytes} (h : table cfg un al header normal cap = some out) :
    ∃ (head : List Bytes) (body : List (List Bytes)) (headLine delimiter : Bytes) (bodyLines : List Bytes),
      out = Spec.tableText headLine delimiter bodyLines (caption cap) ∧
      Spec.WrittenRow head headLine ∧ Spec.Pointwise Spec.WrittenRow body bodyLines ∧
      (∀ cells ∈ head :: body, ∀ c ∈ cells, NL ∉ c) ∧ ∀ line ∈ headLine :: delimiter :: bodyLines, NL ∉ line := by
  obtain ⟨n, rows, head, body, headLine, cols, bodyLines, h1, h2, h3, h4, h5, h6, h7, h8, h9⟩ := c53_rectangular h
  have hcells : ∀ cells ∈ head :: body, ∀ c ∈ cells, NL ∉ c := by
    have hr := tableRows_no_newline h1
    generalize head :: body = long at h2
    clear h1 h3 h4 h5 h6 h8 h9
    induction h2 with
    | nil => simp
    | cons hab _ ih =>
      intro cells hc c hcc
      rcases List.mem_cons.1 hc with rfl | hc
      · obtain ⟨k, rfl⟩ := hab
        rcases List.mem_append.1 hcc with hcc | hcc
        · exact hr _ (by simp) c hcc
        · rw [(List.mem_replicate.1 hcc).2]; simp
      · exact ih (fun r h => hr r (by simp [h])) cells hc c hcc
  refine ⟨head, body, headLine, _, bodyLines, h3, h4, h5, hcells, ?_⟩
  intro line hl
  rcases List.mem_cons.1 hl with rfl | hl
  · exact written_no_newline h4 (hcells _ (by simp))
  rcases List.mem_cons.1 hl with rfl | hl
  · unfold Spec.delimiterRow
    intro hm
    rcases List.mem_append.1 hm with hm | hm
    · split at hm
      · simp at hm
      · exact absurd hm (by decide)
    · obtain ⟨⟨l, r, n⟩, _, hm⟩ := List.mem_flatMap.1 hm
      simp only [Spec.delimiterCell, List.mem_append, List.mem_replicate, List.mem_singleton] at hm
      rcases hm with ((hm | hm) | hm) | hm
      · split at hm <;> simp at hm
      · exact absurd hm.2 (by decide)
      · split at hm <;> simp at hm
      · exact absurd hm (by decide)
  · have hb : ∀ cells ∈ body, ∀ c ∈ cells, NL ∉ c := fun cells hc => hcells cells (by simp [hc])
    clear h2 h3 h8 hcells
    induction h5 with
    | nil => simp at hl
    | cons hab _ ih =>
      rcases List.mem_cons.1 hl with rfl | hl
      · exact written_no_newline hab (hb _ (by simp))
      · exact ih (by simp [hl]) (by simp [hl]) hl (fun cells hc => hb cells (by simp [hc]))

/-- **C54** does not survive the rest of the conversion: with the newline behaviour "preserve" a `<pre>` in a cell leaves
characters U+F002 that become newlines at the end, so that the row is torn apart. -/
theorem c54_counterexample :
    (table { newline := .preserve } id [] (some [⟨Commonmark.blockCode 96 [] b!"a\nb", none, none⟩]) [] none).map
        (Commonmark.postRender .disabled []) =
      some b!"| ```<br />a\nb<br />``` |\n|-----------------------|" := by
  decide +kernel

/-! ## C55 -/

/-- **C55**, for cells without separating pipes: reading a written row by the rules of GFM gives back the cells (up to
spaces around the content, which GFM does not count). -/
theorem c55_row_partial (p : Padding) (counts : List Nat) (cells : List Bytes) (hl : cells.length ≤ counts.length) (hne : cells ≠ [])
    (h : ∀ c ∈ cells, Spec.pipeSafe c = true) : Spec.rowCells (row p counts cells) = cells.map Spec.stripSpaces :=
  rowCells_written (row_written p counts cells hl) hne h

example : Spec.rowCells (row .aligned [5, 2] [b!"a\\|b", b!"c"]) = [b!"a\\|b", b!"c"] := by decide

/-- **C55**, the content: text cannot contain a separating pipe.  More generally this holds for all rendered
content in which pipes and backslashes come from texts. -/
theorem c55_marked_partial {dig : Nat → Bool} {hs : List Handler} (hst : IsStock dig hs) {s : Bytes} (h : Spec.MarkedText s) :
    Spec.pipeSafe (cellContent (unEscapeContent .smart hs) s) = true :=
  cellContent_safe hst.good.ok (hst.good.mem _ (by simp [commonmarkHandlers])) h

/-- **C55**, for a cell with any text. -/
theorem c55_text_partial {dig : Nat → Bool} {hs : List Handler} (hst : IsStock dig hs) (t : Bytes) (hM : 7 ∉ t) :
    Spec.pipeSafe (cellContent (unEscapeContent .smart hs) (escapeContent .smart isCommonmarkChar t)) = true :=
  c55_marked_partial hst (markedText_text t hM)

example : cellContent (unEscapeContent .smart stock) (escapeContent .smart isCommonmarkChar b!" a|b\\|c\\ ") = b!"a\\|b\\\\\\|c\\\\" := by
  decide

/-- **C55** fails for code: a pipe in an inline code splits the cell. -/
theorem c55_counterexample :
    Spec.rowCells (row .aligned [5] [cellContent (unEscapeContent .smart stock) (Commonmark.inlineCode b!"a|b")]) =
      [b!"`a", b!"b`"] := by
  decide +kernel

/-! ## C56 -/

/-- **C56.**  In the aligned mode all lines of a table have the same number of characters. -/
theorem c56_aligned {cfg : Config} {un : Bytes → Bytes} {al : List Bytes} {header : Option (List RawCell)}
    {normal : List (List RawCell)} {cap : Option Bytes} {out : Bytes} (hp : cfg.padding = .aligned)
    (h : table cfg un al header normal cap = some out) :
    ∃ (w : Nat) (headLine delimiter : Bytes) (bodyLines : List Bytes),
      out = Spec.tableText headLine delimiter bodyLines (caption cap) ∧
      (∃ rows, tableRows cfg un header normal = some rows ∧ bodyLines.length + 1 = rows.length) ∧
      (∀ line ∈ headLine :: delimiter :: bodyLines, NL ∉ line) ∧
      ∀ line ∈ headLine :: delimiter :: bodyLines, runeCount line = w := by
  have hh := h
  simp only [table, Option.map_eq_some_iff] at h
  obtain ⟨rows, hrows, rfl⟩ := h
  obtain ⟨first, rest, rfl⟩ : ∃ a b, rows = a :: b := by
    cases rows with
    | nil => exact absurd rfl (tableRows_ne hrows)
    | cons a b => exact ⟨a, b, rfl⟩
  have hlen := counts_length (first :: rest)
  have hnl := tableRows_no_newline hrows
  rw [hp, render_eq]
  have hrow : ∀ r ∈ fillUpRows (first :: rest) (calculateMaxCounts (first :: rest)).length,
      runeCount (row .aligned (calculateMaxCounts (first :: rest)) r) =
        (if calculateMaxCounts (first :: rest) = [] then 0 else 1) + ((calculateMaxCounts (first :: rest)).map (· + 3)).sum := by
    intro r hr
    obtain ⟨h1, row, hm, rfl⟩ := fillUpRows_mem hlen hr
    rw [row_eq _ _ _ (Nat.le_of_eq h1)]
    have hw := row_width _ _ h1 (by
      intro i
      have h2 := (foldl_counts_le (first :: rest) [] i).2 row hm
      by_cases hi : i < row.length
      · simpa [List.getD_eq_getElem?_getD, List.getElem?_append_left hi, calculateMaxCounts] using h2
      · simp only [List.getD_eq_getElem?_getD]
        rw [List.getElem?_append_right (by omega)]
        have : ((List.replicate ((calculateMaxCounts (first :: rest)).length - row.length) ([] : Bytes))[i - row.length]?.getD []) = [] := by
          rw [List.getElem?_replicate]; split <;> rfl
        rw [this]
        simp [runeCount, runeCountGo])
    by_cases hc : calculateMaxCounts (first :: rest) = []
    · rw [hc] at h1 ⊢
      simp only [List.length_nil, List.length_eq_zero_iff] at h1
      have := hw
      simp only [hc, List.length_nil] at h1 this
      simp [(List.append_eq_nil_iff.1 h1).1, runeCount, runeCountGo]
    · have hne : row ++ List.replicate ((calculateMaxCounts (first :: rest)).length - row.length) [] ≠ [] := by
        intro h0; rw [h0] at h1; exact hc (List.length_eq_zero_iff.1 h1.symm)
      rw [if_neg hne, if_neg hc, List.singleton_append, runeCount_cons _ _ (by decide), hw]
  have hmem : ∀ r ∈ fillUpRows (first :: rest) (calculateMaxCounts (first :: rest)).length, NL ∉ row .aligned (calculateMaxCounts (first :: rest)) r := by
    intro r hr
    obtain ⟨h1, row, hm, rfl⟩ := fillUpRows_mem hlen hr
    refine written_no_newline (row_written _ _ _ (Nat.le_of_eq h1)) ?_
    intro c hc
    rcases List.mem_append.1 hc with hc | hc
    · exact hnl row hm c hc
    · rw [(List.mem_replicate.1 hc).2]; simp
  refine ⟨(if calculateMaxCounts (first :: rest) = [] then 0 else 1) + ((calculateMaxCounts (first :: rest)).map (· + 3)).sum,
    _, _, _, rfl, ⟨_, hrows, by simp [fillUpRows]⟩, ?_, ?_⟩
  · intro line hl
    rcases List.mem_cons.1 hl with rfl | hl
    · exact hmem _ (by simp [fillUpRows])
    rcases List.mem_cons.1 hl with rfl | hl
    · rw [headerUnderline, zipIdx_first (fun n i => underlineCell .aligned (alignmentFor al i) n)]
      intro hm
      rcases List.mem_append.1 hm with hm | hm
      · split at hm
        · simp at hm
        · exact absurd hm (by decide)
      · obtain ⟨⟨n, i⟩, _, hm⟩ := List.mem_flatMap.1 hm
        simp only [underlineCell, if_true, List.mem_append, List.mem_replicate, List.mem_singleton] at hm
        rcases hm with ((hm | hm) | hm) | hm
        · split at hm <;> exact absurd hm (by decide)
        · exact absurd hm.2 (by decide)
        · split at hm <;> exact absurd hm (by decide)
        · exact absurd hm (by decide)
    · obtain ⟨r, hr, rfl⟩ := List.mem_map.1 hl
      exact hmem r (List.mem_of_mem_drop hr)
  · intro line hl
    rcases List.mem_cons.1 hl with rfl | hl
    · exact hrow _ (by simp [fillUpRows])
    rcases List.mem_cons.1 hl with rfl | hl
    · rw [headerUnderline, zipIdx_first (fun n i => underlineCell .aligned (alignmentFor al i) n)]
      have := underline_width al (calculateMaxCounts (first :: rest)) 0
      split
      · rename_i h0; simp [h0, runeCount, runeCountGo]
      · rw [List.singleton_append, runeCount_cons _ _ (by decide)]
        rw [this]
    · obtain ⟨r, hr, rfl⟩ := List.mem_map.1 hl
      exact hrow r (List.mem_of_mem_drop hr)

example : (table {} id [] (some [⟨[195, 164, 195, 182], none, none⟩]) [[⟨b!"abc", none, none⟩]] none) =
    some (b!"\n\n| " ++ [195, 164, 195, 182] ++ b!"  |\n|-----|\n| abc |\n\n\n") := by decide

/-! ## C67 -/

/-- **C67.**  The delimiter row marks column `i` by the alignment of cell `i` of the first row: a colon on the left for
"left" and "center", a colon on the right for "right" and "center", none for other values or if there is no such cell. -/
theorem c67_alignment {cfg : Config} {un : Bytes → Bytes} {al : List Bytes} {header : Option (List RawCell)}
    {normal : List (List RawCell)} {cap : Option Bytes} {out : Bytes} (h : table cfg un al header normal cap = some out) :
    ∃ (headLine : Bytes) (cols : List (Bool × Bool × Nat)) (bodyLines : List Bytes),
      out = Spec.tableText headLine (Spec.delimiterRow cols) bodyLines (caption cap) ∧
      ∀ (i : Nat) l r n, cols[i]? = some (l, r, n) →
        (l = true ↔ al[i]? = some b!"left" ∨ al[i]? = some b!"center") ∧
        (r = true ↔ al[i]? = some b!"right" ∨ al[i]? = some b!"center") := by
  simp only [table, Option.map_eq_some_iff] at h
  obtain ⟨rows, hrows, rfl⟩ := h
  obtain ⟨first, rest, rfl⟩ : ∃ a b, rows = a :: b := by
    cases rows with
    | nil => exact absurd rfl (tableRows_ne hrows)
    | cons a b => exact ⟨a, b, rfl⟩
  rw [render_eq, headerUnderline_eq _ _ _ (counts_pos _)]
  refine ⟨_, _, _, rfl, ?_⟩
  intro i l r n hi
  simp only [delimCols, List.getElem?_map, List.getElem?_zipIdx, Option.map_map] at hi
  have hget : ∀ x : Bytes, x ≠ [] → (alignmentFor al i = x ↔ al[i]? = some x) := by
    intro x hx
    rw [alignmentFor, List.getD_eq_getElem?_getD]
    cases al[i]? <;> simp [Ne.symm hx]
  rw [Option.map_eq_some_iff] at hi
  obtain ⟨m, _, hm⟩ := hi
  simp only [Function.comp_apply, delimCol, Prod.mk.injEq, Nat.zero_add] at hm
  obtain ⟨rfl, rfl, -⟩ := hm
  simp only [decide_eq_true_eq]
  exact ⟨or_congr (hget _ (by decide)) (hget _ (by decide)), or_congr (hget _ (by decide)) (hget _ (by decide))⟩

/-! ## C72: the caption -/

/-- **C72**: a table with a caption is the table without it, followed by the caption without the white space around it as a
paragraph of its own; a blank caption adds nothing. -/
theorem c72_caption (cfg : Config) (un : Bytes → Bytes) (al : List Bytes) (header : Option (List RawCell))
    (normal : List (List RawCell)) (cap : Bytes) :
    (Spec.AllWhitespace cap → table cfg un al header normal (some cap) = table cfg un al header normal none) ∧
    (¬ Spec.AllWhitespace cap → table cfg un al header normal (some cap) =
      (table cfg un al header normal none).map (· ++ trimSpace cap ++ b!"\n\n")) := by
  constructor
  · intro h
    have := (trimSpace_nil_iff cap).2 h
    simp [table, caption, this]
  · intro h
    have : trimSpace cap ≠ [] := fun h' => h ((trimSpace_nil_iff cap).1 h')
    simp [table, caption, this, render, Function.comp_def]

example : ¬ Spec.AllWhitespace b!" a \n" := by rw [← trimSpace_nil_iff]; decide

end Verif.Props
