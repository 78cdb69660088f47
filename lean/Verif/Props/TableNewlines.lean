import Verif.Props.Table
import Verif.Props.TableGrid
/-!
# Property C54: newlines in the cells of a table
-/

namespace Verif.Props
open Verif Verif.Table

/-- The content of a cell on one line: `<br />` for each newline. -/
def brLines (content : Bytes) : Bytes := content.flatMap fun b => if b = 10 then b!"<br />" else [b]

theorem brLines_id {s : Bytes} (h : 10 ∉ s) : brLines s = s := by
  rw [brLines]
  induction s with
  | nil => rfl
  | cons b s ih =>
    simp only [List.mem_cons, not_or] at h
    rw [List.flatMap_cons, ih h.2, if_neg (Ne.symm h.1)]
    rfl

/-- **C54**, the options for newlines, for a table without spans and with the default options for rows.  `contents` are the contents
of its cells, row by row.  With "skip" there is no Markdown table if a content has a newline.  With "preserve" there is one, and its cells
are the contents with `<br />` for each newline, filled up with empty cells.  If there is no newline, both options write the same. -/
theorem c54_newlines (cfg : Config) (un : Bytes → Bytes) (al : List Bytes) (header : Option (List RawCell)) (normal : List (List RawCell))
    (cap : Option Bytes) (hskip : cfg.skipEmptyRows = false) (hprom : cfg.promoteFirstRow = false)
    (hspan : ∀ row ∈ header.getD [] :: normal, ∀ c ∈ row, c.rowspan = none ∧ c.colspan = none)
    (contents : List (List Bytes)) (hc : contents = (header.getD [] :: normal).map fun r => r.map fun c => cellContent un c.rendered) :
    ((∃ r ∈ contents, ∃ c ∈ r, 10 ∈ c) → table { cfg with newline := .skip } un al header normal cap = none) ∧
    (∃ head body headLine delimiter bodyLines,
      table { cfg with newline := .preserve } un al header normal cap = some (Spec.tableText headLine delimiter bodyLines (caption cap)) ∧
      Spec.Pointwise Spec.FilledUp (contents.map fun r => r.map brLines) (head :: body) ∧
      Spec.WrittenRow head headLine ∧ Spec.Pointwise Spec.WrittenRow body bodyLines) ∧
    ((∀ r ∈ contents, ∀ c ∈ r, 10 ∉ c) →
      table { cfg with newline := .skip } un al header normal cap = table { cfg with newline := .preserve } un al header normal cap) := by
  have hs : ∀ r ∈ header.getD [] :: normal, ∀ c ∈ r, spanAttr c.rowspan = 1 ∧ spanAttr c.colspan = 1 := by
    intro r hr c hcr
    rw [(hspan r hr c hcr).1, (hspan r hr c hcr).2]
    exact ⟨rfl, rfl⟩
  have e1 : collectRows { cfg with newline := .skip } un header normal = contents :=
    (c57_no_spans { cfg with newline := .skip } un header normal hskip hprom hs).trans hc.symm
  have e2 : collectRows { cfg with newline := .preserve } un header normal = contents :=
    (c57_no_spans { cfg with newline := .preserve } un header normal hskip hprom hs).trans hc.symm
  have hne : contents ≠ [] := by rw [hc]; simp
  have hone : replaceAll [NL] b!"<br />" = brLines := by
    funext s
    exact replaceAll_one NL _ s
  have t2 : tableRows { cfg with newline := .preserve } un header normal = some (contents.map fun r => r.map brLines) := by
    rw [tableRows, e2, if_neg hne, if_pos rfl, hone]
  refine ⟨?_, ?_, ?_⟩
  · rintro ⟨r, hr, c, hcr, hn⟩
    have : tableRows { cfg with newline := .skip } un header normal = none := by
      rw [tableRows, e1, if_neg hne, if_neg (by simp), if_pos]
      simp only [List.any_eq_true, List.contains_iff_mem]
      exact ⟨r, hr, c, hcr, hn⟩
    rw [table, this]
    rfl
  · have h : (table { cfg with newline := .preserve } un al header normal cap).isSome = true := by rw [table, t2]; rfl
    obtain ⟨out, ho⟩ := Option.isSome_iff_exists.1 h
    obtain ⟨n, rows, head, body, headLine, cols, bodyLines, h1, h2, h3, h4, h5, -⟩ := c53_rectangular ho
    rw [t2, Option.some.injEq] at h1
    rw [← h1] at h2
    exact ⟨head, body, headLine, Spec.delimiterRow cols, bodyLines, by rw [ho, h3], h2, h4, h5⟩
  · intro hno
    have e : (contents.map fun r => r.map brLines) = contents := by
      conv => rhs; rw [← List.map_id contents]
      refine List.map_congr_left fun r hr => ?_
      conv => rhs; rw [id, ← List.map_id r]
      exact List.map_congr_left fun c hcr => brLines_id (hno r hr c hcr)
    have : tableRows { cfg with newline := .skip } un header normal = some contents := by
      rw [tableRows, e1, if_neg hne, if_neg (by simp), if_neg]
      simp only [List.any_eq_true, List.contains_iff_mem, not_exists, not_and]
      exact hno
    rw [table, table, this, t2, e]

/-- A header `a⏎b` and a cell `c`. -/
example : table {} id [] (some [⟨b!"a\nb", none, none⟩]) [[⟨b!"c", none, none⟩]] none = none ∧
    table { newline := .preserve } id [] (some [⟨b!"a\nb", none, none⟩]) [[⟨b!"c", none, none⟩]] none =
      some b!"\n\n| a<br />b |\n|----------|\n| c        |\n\n\n" := by
  decide +kernel

end Verif.Props
