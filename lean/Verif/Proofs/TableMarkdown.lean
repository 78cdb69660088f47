import Verif.Proofs.CharsMain
import Verif.Props.TableGrid
import Verif.Props.Table
/-!
# From the nodes of a table to the Markdown table
-/
set_option linter.unusedSimpArgs false

namespace Verif.TableMarkdown
open Verif Verif.Spec Verif.Table Verif.Render Verif.Chars

/-- The cells of a row, if `ren` are the contents of the nodes. -/
def rawOf (ren : Path → Bytes) (r : Path × Node) : List RawCell :=
  (cellsOf r).map fun c => ⟨ren c.1, c.2.attr? b!"rowspan", c.2.attr? b!"colspan"⟩

theorem renderTable_eq (cfg : Table.Config) (un : Bytes → Bytes) (stuck : Bool) (t : Node) (at_ : Path → Option Bytes) (ren : Path → Bytes)
    (hc : cannotBeTable cfg stuck t = false) (hat : ∀ z ∈ below [] t, at_ z.1 = some (ren z.1)) :
    renderTable cfg un stuck t at_ = some (Table.table cfg un (collectAlignments (selectHeader t) (selectRows t (selectHeader t)))
      ((selectHeader t).map (rawOf ren)) ((selectRows t (selectHeader t)).map (rawOf ren)) ((findFirst b!"caption" ([], t)).map fun c => ren c.1)) := by
  rw [renderTable, hc]
  have hcells : ∀ r, (r = ([], t) ∨ r ∈ below [] t) → rawCells at_ (cellsOf r) = some (rawOf ren r) := by
    intro r hr
    rw [rawCells]
    refine mapM_some ?_
    intro c hc
    rw [hat c (cells_below hr hc)]
    rfl
  have hhead : ((selectHeader t).mapM fun h => rawCells at_ (cellsOf h)) = some ((selectHeader t).map (rawOf ren)) := by
    cases e : selectHeader t with
    | none => rfl
    | some h =>
      rw [Option.mapM_some, hcells h (header_below e)]
      rfl
  have hrows : ((selectRows t (selectHeader t)).mapM fun r => rawCells at_ (cellsOf r)) =
      some ((selectRows t (selectHeader t)).map (rawOf ren)) :=
    mapM_some fun r hr => hcells r (row_below hr)
  have hcap : ((findFirst b!"caption" ([], t)).mapM fun c => at_ c.1) = some ((findFirst b!"caption" ([], t)).map fun c => ren c.1) := by
    cases e : findFirst b!"caption" ([], t) with
    | none => rfl
    | some c =>
      rw [Option.mapM_some, hat c (List.mem_of_find?_eq_some e)]
      rfl
  simp only [hhead, hrows, hcap, Option.bind_some, Option.map_some, Bool.false_eq_true, if_false]

/-- What is written for a cell. -/
def written (cfg : Table.Config) (un : Bytes → Bytes) (rendered : Bytes) : Bytes :=
  if cfg.newline = .preserve then replaceAll [NL] b!"<br />" (cellContent un rendered) else cellContent un rendered

/-- A table without spans and without the options that remove rows. -/
theorem table_layout {cfg : Table.Config} {un : Bytes → Bytes} (al : List Bytes) (header : Option (List RawCell)) (normal : List (List RawCell))
    (cap : Option Bytes) (hskip : cfg.skipEmptyRows = false) (hprom : cfg.promoteFirstRow = false)
    (hs : ∀ r ∈ header.getD [] :: normal, ∀ c ∈ r, spanAttr c.rowspan = 1 ∧ spanAttr c.colspan = 1)
    (hnl : cfg.newline = .preserve ∨ ∀ r ∈ header.getD [] :: normal, ∀ c ∈ r, NL ∉ cellContent un c.rendered) :
    ∃ (n : Nat) (cols : List (Bool × Bool × Nat)),
      let fill := fun r : List RawCell => (r.map fun c => written cfg un c.rendered) ++ List.replicate (n - r.length) []
      ∃ (headLine : Bytes) (bodyLines : List Bytes),
      table cfg un al header normal cap = some (tableText headLine (delimiterRow cols) bodyLines (caption cap)) ∧
      WrittenRow (fill (header.getD [])) headLine ∧ Pointwise WrittenRow (normal.map fill) bodyLines ∧ cols.length = n ∧
      (∀ r ∈ header.getD [] :: normal, r.length ≤ n) ∧
      (∀ (i : Nat) l r k, cols[i]? = some (l, r, k) →
        (l = true ↔ al[i]? = some b!"left" ∨ al[i]? = some b!"center") ∧
        (r = true ↔ al[i]? = some b!"right" ∨ al[i]? = some b!"center")) := by
  have hrows : tableRows cfg un header normal = some ((header.getD [] :: normal).map fun r => r.map fun c => written cfg un c.rendered) := by
    rw [tableRows, Props.c57_no_spans cfg un header normal hskip hprom hs]
    simp only [List.map_cons, reduceCtorEq, if_false]
    by_cases hp : cfg.newline = .preserve
    · simp only [hp, if_true, written, List.map_map, Function.comp_def]
    · rw [if_neg hp]
      have hnl := hnl.resolve_left hp
      rw [if_neg]
      · simp only [written, hp, if_false]
      · intro hany
        rw [List.any_eq_true] at hany
        obtain ⟨cells, hm, hany⟩ := hany
        rw [List.any_eq_true] at hany
        obtain ⟨cell, hcm, hcn⟩ := hany
        rw [← List.map_cons (f := fun r : List RawCell => r.map fun c => cellContent un c.rendered), List.mem_map] at hm
        obtain ⟨r, hr, rfl⟩ := hm
        obtain ⟨c, hcr, rfl⟩ := List.mem_map.1 hcm
        exact hnl r hr c hcr (by simpa using hcn)
  have htab : table cfg un al header normal cap = some (render cfg.padding al ((header.getD [] :: normal).map fun r => r.map fun c => written cfg un c.rendered) (caption cap)) := by
    rw [table, hrows]; rfl
  generalize hc0 : (calculateMaxCounts ((header.getD [] :: normal).map fun r => r.map fun c => written cfg un c.rendered)) = counts at *
  have hlen := counts_length ((header.getD [] :: normal).map fun r => r.map fun c => written cfg un c.rendered)
  rw [hc0] at hlen
  have hle : ∀ r ∈ header.getD [] :: normal, r.length ≤ counts.length := by
    intro r hr
    have := hlen _ (List.mem_map_of_mem hr)
    simpa using this
  refine ⟨counts.length, delimCols cfg.padding al counts, ?_⟩
  intro fill
  have hfl : ∀ r ∈ header.getD [] :: normal, (fill r).length ≤ counts.length := by
    intro r hr
    have := hle r hr
    simp only [fill, List.length_append, List.length_map, List.length_replicate]
    omega
  have hfe : fillUpRows ((header.getD [] :: normal).map fun r => r.map fun c => written cfg un c.rendered) counts.length = (header.getD [] :: normal).map fill := by
    simp [fillUpRows, fill, Function.comp_def]
  refine ⟨row cfg.padding counts (fill (header.getD [])), (normal.map fill).map (row cfg.padding counts), ?_, ?_, ?_, ?_, hle, ?_⟩
  · rw [htab, List.map_cons, render_eq, ← List.map_cons (f := fun r : List RawCell => r.map fun c => written cfg un c.rendered), hc0,
      headerUnderline_eq _ _ _ (by rw [← hc0]; exact counts_pos _), hfe]
    rfl
  · exact row_written _ _ _ (hfl _ (by simp))
  · refine pointwise_map _ _ fun r hr => ?_
    obtain ⟨r', hr', rfl⟩ := List.mem_map.1 hr
    exact row_written _ _ _ (hfl _ (by simp [hr']))
  · simp [delimCols]
  · intro i l r n hi
    simp only [delimCols, List.getElem?_map, List.getElem?_zipIdx, Option.map_map] at hi
    have hget : ∀ x : Bytes, x ≠ [] → (alignmentFor al i = x ↔ al[i]? = some x) := by
      intro x hx
      rw [alignmentFor, List.getD_eq_getElem?_getD]
      cases al[i]? <;> simp [Ne.symm hx]
    rw [Option.map_eq_some_iff] at hi
    obtain ⟨m, _, hm⟩ := hi
    simp only [Function.comp_apply, delimCol, Prod.mk.injEq, Nat.zero_add] at hm
    obtain ⟨rfl, rfl, -⟩ := hm
    simp only [decide_eq_true_eq]
    exact ⟨or_congr (hget _ (by decide)) (hget _ (by decide)), or_congr (hget _ (by decide)) (hget _ (by decide))⟩

theorem findFirst_snd (name : Bytes) (z : Path × Node) : (findFirst name z).map (·.2) = firstInside name z.2 := by
  rw [findFirst, firstInside, ← TableNodes.below_snd.1 z.2 z.1, List.find?_map]
  rfl

theorem thead_tr (t : Node) : ((findFirst b!"thead" ([], t)).bind (findFirst b!"tr")).map (·.2) = (firstInside b!"thead" t).bind (firstInside b!"tr") := by
  rw [← findFirst_snd b!"thead" ([], t)]
  cases findFirst b!"thead" ([], t) with
  | none => rfl
  | some z => exact findFirst_snd b!"tr" z

theorem header_spec {t : Node} (ht : t.name = b!"table") (hh : HeaderCellsInRows t) : HeaderRow t ((selectHeader t).map (·.2)) := by
  rw [HeaderRow, ← thead_tr]
  cases e : (findFirst b!"thead" ([], t)).bind (findFirst b!"tr") with
  | some r => rw [selectHeader, e]; rfl
  | none =>
    have e2 : selectHeader t = (findFirst b!"th" ([], t)).bind fun th => (([], t) :: below [] t).find? fun y => y.1 = th.1.dropLast := by
      rw [selectHeader, e]
    simp only [Option.map_none]
    have hf := findFirst_snd b!"th" ([], t)
    simp only at hf
    rw [← hf]
    cases eth : findFirst b!"th" ([], t) with
    | none => rw [e2, eth]; rfl
    | some th =>
      simp only [Option.map_some]
      rw [eth, Option.bind_some] at e2
      obtain ⟨A, B, e1, hth, -⟩ := TableNodes.find_split eth
      rcases TableNodes.parent_before.1 t [] A th B e1 with ⟨g1, g2⟩ | ⟨y, hy, g1, g2⟩
      · have := hh t (by rw [TableNodes.nodes_eq]; simp) ⟨th.2, g2, by simpa using hth⟩
        rw [ht] at this
        exact absurd this (by decide)
      · have hy' : y ∈ below [] t := by rw [show below [] t = _ from e1]; simp [hy]
        have hyp : y.1 ≠ [] := by
          obtain ⟨j, r, e⟩ := TableNodes.path_prefix.1 t [] y hy'
          rw [e]; simp
        have hne : ¬ (([] : Path) = y.1) := fun e => hyp e.symm
        rw [← g1, List.find?_cons] at e2
        simp only [hne, decide_false] at e2
        rw [TableNodes.find_nodup (TableNodes.paths_nodup.1 t []) hy'] at e2
        refine ⟨y.2, by rw [e2]; rfl, ?_, g2⟩
        have hyi : y.2 ∈ inside t := by rw [← TableNodes.below_snd.1 t []]; exact List.mem_map_of_mem hy'
        rw [rowsOf, List.mem_filter]
        refine ⟨hyi, ?_⟩
        have := hh y.2 (by rw [TableNodes.nodes_eq]; simp [hyi]) ⟨th.2, g2, by simpa using hth⟩
        simpa using this

theorem others_spec {t : Node} (ht : t.name = b!"table") (hh : HeaderCellsInRows t) :
    OtherRows t ((selectHeader t).map (·.2)) ((selectRows t (selectHeader t)).map (·.2)) := by
  have htr : t.name ≠ b!"tr" := by rw [ht]; decide
  rw [TableNodes.selectRows_eq htr]
  cases e : selectHeader t with
  | none =>
    simp only [Option.map_none, OtherRows, ← TableNodes.rowsAt_snd]
    congr 1
    rw [List.filter_eq_self]
    intro y _
    simp
  | some h =>
    have hm := TableNodes.header_row hh htr e
    obtain ⟨A, B, es⟩ := List.append_of_mem hm
    have hnd := TableNodes.rowsAt_nodup t
    rw [es] at hnd
    simp only [List.map_append, List.map_cons] at hnd
    have hA : ∀ y ∈ A, y.1 ≠ h.1 := by
      intro y hy he
      exact (List.nodup_append.1 hnd).2.2 y.1 (List.mem_map_of_mem hy) h.1 (by simp) he
    have hB : ∀ y ∈ B, y.1 ≠ h.1 := by
      intro y hy he
      have := (List.nodup_cons.1 (List.nodup_append.1 hnd).2.1).1
      exact this (by rw [← he]; exact List.mem_map_of_mem hy)
    simp only [Option.map_some, OtherRows, ← TableNodes.rowsAt_snd]
    refine ⟨A.map (·.2), B.map (·.2), by rw [es]; simp, ?_⟩
    rw [es, List.filter_append, List.filter_cons, if_neg (by simp), ← List.map_append]
    congr 1
    rw [List.filter_eq_self.2, List.filter_eq_self.2]
    · intro y hy; have := hB y hy; simp only [ne_eq, Option.some.injEq, decide_not, Bool.not_eq_eq_eq_not, Bool.not_true, decide_eq_false_iff_not]; exact fun e => this e.symm
    · intro y hy; have := hA y hy; simp only [ne_eq, Option.some.injEq, decide_not, Bool.not_eq_eq_eq_not, Bool.not_true, decide_eq_false_iff_not]; exact fun e => this e.symm

end Verif.TableMarkdown
