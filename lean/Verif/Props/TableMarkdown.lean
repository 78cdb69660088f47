import Verif.Proofs.TableMarkdown
import Verif.Props.RenderTables
/-!
# Property C76: from the HTML table to the Markdown table
-/
set_option linter.unusedSimpArgs false

namespace Verif.Props
open Verif Verif.Spec Verif.Render Verif.Chars Verif.TableMarkdown

theorem pointwise_of {α β γ : Type} {R : β → γ → Prop} (f : α → β) (g : α → γ) : ∀ l : List α, (∀ x ∈ l, R (f x) (g x)) → Pointwise R (l.map f) (l.map g)
  | [], _ => .nil
  | x :: l, h => .cons (h x (by simp)) (pointwise_of f g l fun y hy => h y (by simp [hy]))

theorem mem_replaceAll {old : Bytes} (hne : old ≠ []) (new : Bytes) (b : UInt8) : ∀ s, b ∈ replaceAll old new s → b ∈ s ∨ b ∈ new := by
  refine replaceAll_induct hne ?_ ?_ ?_
  · intro h; simp at h
  · intro s ih h
    rw [replaceAll_match _ _ _ hne, List.mem_append] at h
    rcases h with h | h
    · exact Or.inr h
    · exact (ih h).imp (fun h => List.mem_append_right _ h) id
  · intro c s hn ih h
    rw [replaceAll_nomatch hn, List.mem_cons] at h
    rcases h with rfl | h
    · exact Or.inl (by simp)
    · exact (ih h).imp (fun h => List.mem_cons_of_mem _ h) id

theorem cellContent_newline {mode : Escape.Mode} {hs : List Escape.Handler} {x : Bytes} (h : 10 ∉ trimSpace x) :
    10 ∉ Table.cellContent (Escape.unEscapeContent mode hs) x := by
  intro hm
  rw [Table.cellContent] at hm
  rcases unEscapeContent_mem _ _ _ _ hm with hm | hm
  · rcases mem_replaceAll (by decide) _ _ _ hm with hm | hm
    · exact h hm
    · revert hm; decide
  · exact absurd hm (by decide)

/-- **C76**, from the table of the page to the lines of the Markdown table.  Let `t` be a table of the page (as it is when rendering starts),
without spans, without anything that Markdown tables cannot contain, and not inside of a link, emphasis or strikethrough; with the default
options for rows.  If the content of every cell is one line (or newlines are preserved), then the table is written as a Markdown table, the first line has
the cells of the header row (or empty cells), the delimiter row has the alignments, and the lines below are the other rows, in their order.  Each Markdown cell
shows all visible characters of its HTML cell; shorter rows have empty cells at the end.  The caption follows. -/
theorem c76_markdown_table {E : Env} {doc : Node} (hp : Page doc) (hv : Config.validate E.cfg = none) (hd : PlainDelimiters E.cfg)
    (hs : PlainStrike E) (ha : ∀ u, Utf8 u → Utf8 (E.assemble u))
    (hm : E.mode = .smart ∨ ∀ i ∈ items [] doc, ∀ d, i.what = .text d → 35 ∉ d)
    {cfg : Table.Config} (hc : E.table = some cfg) (hskip : cfg.skipEmptyRows = false) (hprom : cfg.promoteFirstRow = false)
    {t : Node} (htm : t ∈ nodes (preRender E doc)) (ht : t.name = b!"table") (hh : HeaderCellsInRows t)
    (hbreak : ∀ x ∈ inside t, x.name ∉ tableBreakers)
    (hrole : t.attrOr b!"role" [] = b!"presentation" → cfg.presentation = true)
    (hspan : ∀ r ∈ rowsOf t, ∀ c ∈ cellsIn r, c.attr? b!"rowspan" = none ∧ c.attr? b!"colspan" = none)
    (link : Bool) (hline : cfg.newline = .preserve ∨ ∀ r ∈ rowsOf t, ∀ c ∈ cellsIn r, ∀ stuck x, renderNode E link stuck c = some x → 10 ∉ trimSpace x) :
    ∃ (h : Option Node) (others : List Node), HeaderRow t h ∧ OtherRows t h others ∧
    ∃ (n : Nat) (headCells : List Bytes) (headLine : Bytes) (cols : List (Bool × Bool × Nat)) (bodyCells : List (List Bytes)) (bodyLines : List Bytes)
      (cap : Option Bytes),
      renderNode E link false t = some (tableText headLine (delimiterRow cols) bodyLines cap) ∧
      WrittenRow headCells headLine ∧ Pointwise WrittenRow bodyCells bodyLines ∧
      (match h with | some row => CellsShow row headCells | none => ∀ c ∈ headCells, c = []) ∧ Pointwise CellsShow others bodyCells ∧
      headCells.length = n ∧ cols.length = n ∧ (∀ cells ∈ bodyCells, cells.length = n) ∧
      (∀ (i : Nat) l r k, cols[i]? = some (l, r, k) →
        (l = true ↔ alignOf (h.or others.head?) i = some b!"left" ∨ alignOf (h.or others.head?) i = some b!"center") ∧
        (r = true ↔ alignOf (h.or others.head?) i = some b!"right" ∨ alignOf (h.or others.head?) i = some b!"center")) ∧
      (match captionOf t with | some c => Shows (visibleChars (cap.getD [])) (charsOf c) | none => cap = none) := by
  have key : ∀ f : Bool, (f = true → ∀ i ∈ items [] doc, ∀ d, i.what = .text d → 35 ∉ d) → (E.mode = .smart ∨ f = true) →
      ∀ z ∈ below [] t, ∀ cs, t.children = cs → ∀ st, ∃ x st', renderAt E link st z.1 cs = some x ∧ renderNode E link st' z.2 = some x ∧
        Utf8 x ∧ Shows (visibleChars x) (charsOf z.2) := by
    intro f hf hm z hz cs hcs st
    obtain ⟨h1, -, -⟩ := preRender_ok E hp hf
    obtain ⟨t', hok⟩ := ok_nodes.1 _ _ h1 t htm
    have hzb : z ∈ belowL [] 0 cs := by rw [← hcs, ← TableNodes.below_eq]; exact hz
    obtain ⟨st', e5⟩ := TableNodes.render_at (E := E) (link := link) (cs := cs) hzb st
    have hzi : z.2 ∈ inside t := by rw [← TableNodes.below_snd.1 t []]; exact List.mem_map_of_mem hz
    obtain ⟨t'', ht''⟩ := ok_nodes.1 _ _ hok z.2 (by rw [TableNodes.nodes_eq]; simp [hzi])
    have htrans : ∀ x ∈ nodes z.2, x ∈ inside t := fun x hx => nodes_trans.2 _ z.2 hzi x hx
    have hclaim := (render_claim (envOk hv hd hs ha) rel_shows hm).1 z.2 z.2 (by rw [TableNodes.nodes_eq]; simp) t'' true link st' ht''
      (fit_harmless.1 z.2 (by
        intro x hx
        have := hbreak x (htrans x hx)
        simp only [tableBreakers, List.mem_cons, not_or, List.not_mem_nil] at this
        simp [isBad, DomUtils.isHeading, this]) true)
      (fun x hx hn _ => absurd (by rw [hn]; decide) (hbreak x (htrans x hx)))
    obtain ⟨x, e, hx, -⟩ := hclaim
    refine ⟨x, st', by rw [e5, e], e, hx.1, ?_⟩
    rw [charsOf, Dom.texts_txts]
    exact hx.2
  have key : ∀ z ∈ below [] t, ∀ cs, t.children = cs → ∀ st, ∃ x st', renderAt E link st z.1 cs = some x ∧ renderNode E link st' z.2 = some x ∧
        Utf8 x ∧ Shows (visibleChars x) (charsOf z.2) := by
    rcases hm with hm | hm
    · exact key false (by simp) (Or.inl hm)
    · exact key true (fun _ => hm) (Or.inr rfl)
  obtain ⟨a, cs, rfl⟩ : ∃ a cs, t = .elem b!"table" a cs := by
    cases t with
    | elem n a cs => exact ⟨a, cs, by rw [show n = b!"table" from ht]⟩
    | text d => exact absurd (show (Node.text d).name = b!"table" from ht) (by rw [Node.name]; decide)
    | comment d => exact absurd (show (Node.comment d).name = b!"table" from ht) (by rw [Node.name]; decide)
    | doctype d => exact absurd (show (Node.doctype d).name = b!"table" from ht) (by rw [Node.name]; decide)
    | document d => exact absurd (show (Node.document d).name = b!"table" from ht) (by rw [Node.name]; decide)
  generalize hT : Node.elem b!"table" a cs = t at *
  have hcs : t.children = cs := by rw [← hT]; rfl
  have key := fun z hz => key z hz cs hcs false
  let at_ : Path → Option Bytes := fun p => renderAt E link false p cs
  let ren : Path → Bytes := fun q => (at_ q).getD []
  have hren : ∀ z ∈ below [] t, at_ z.1 = some (ren z.1) ∧ Utf8 (ren z.1) ∧ Shows (visibleChars (ren z.1)) (charsOf z.2) ∧
      ∃ st', renderNode E link st' z.2 = some (ren z.1) := by
    intro z hz
    obtain ⟨x, st', e, e', h1, h2⟩ := key z hz
    have : ren z.1 = x := by show (at_ z.1).getD [] = x; rw [show at_ z.1 = some x from e]; rfl
    rw [this]
    exact ⟨e, h1, h2, st', e'⟩
  have hcan : cannotBeTable cfg false t = false := by
    rw [cannotBeTable, (problematic_iff t).2 hbreak]
    cases e : cfg.presentation with
    | true => simp
    | false =>
      have : t.attrOr b!"role" [] ≠ b!"presentation" := fun h => by simpa [e] using hrole h
      simp [this]
  let un := Escape.unEscapeContent E.mode (handlers E)
  have hun : ∀ s, Utf8 s → Keeps s (un s) := fun s hs => keeps_unEscape E.mode (handlers E) hs
  have hrender : renderNode E link false t = Table.table cfg un (collectAlignments (selectHeader t) (selectRows t (selectHeader t)))
      ((selectHeader t).map (rawOf ren)) ((selectRows t (selectHeader t)).map (rawOf ren)) ((findFirst b!"caption" ([], t)).map fun c => ren c.1) ∨
      Table.table cfg un (collectAlignments (selectHeader t) (selectRows t (selectHeader t)))
      ((selectHeader t).map (rawOf ren)) ((selectRows t (selectHeader t)).map (rawOf ren)) ((findFirst b!"caption" ([], t)).map fun c => ren c.1) = none := by
    have hp : (false || isProblematicParent b!"table") = false := by decide
    have e1 := renderTable_eq cfg un false t at_ ren hcan fun z hz => (hren z hz).1
    rw [← hT, renderNode]
    simp only [hp]
    rw [if_neg (by decide), if_neg (by decide), if_neg (by decide), if_neg (by decide), if_neg (by decide), if_neg (by decide), if_neg (by decide),
      if_neg (by decide), if_neg (by decide), if_neg (by decide), if_neg (by decide), if_pos trivial, hc]
    simp only
    rw [hT, show (renderTable cfg (Escape.unEscapeContent E.mode (handlers E)) false t fun p => renderAt E link false p cs) = _ from e1]
    cases Table.table cfg un (collectAlignments (selectHeader t) (selectRows t (selectHeader t)))
      ((selectHeader t).map (rawOf ren)) ((selectRows t (selectHeader t)).map (rawOf ren)) ((findFirst b!"caption" ([], t)).map fun c => ren c.1) with
    | none => exact Or.inr rfl
    | some out => exact Or.inl rfl
  have hin : ∀ r, (r = ([], t) ∨ r ∈ below [] t) → ∀ c ∈ rawOf ren r, ∃ z ∈ below [] t, z ∈ cellsOf r ∧
      c = ⟨ren z.1, z.2.attr? b!"rowspan", z.2.attr? b!"colspan"⟩ := by
    intro r hr c hcm
    obtain ⟨z, hz, rfl⟩ := List.mem_map.1 hcm
    exact ⟨z, cells_below hr hz, hz, rfl⟩
  have hin2 : ∀ r ∈ ((selectHeader t).map (rawOf ren)).getD [] :: (selectRows t (selectHeader t)).map (rawOf ren), ∀ c ∈ r,
      ∃ z ∈ below [] t, (∃ r ∈ rowsOf t, z.2 ∈ cellsIn r) ∧ c = ⟨ren z.1, z.2.attr? b!"rowspan", z.2.attr? b!"colspan"⟩ := by
    have hrowOf : ∀ r : Path × Node, r ∈ TableNodes.rowsAt t → ∀ z ∈ cellsOf r, ∃ r ∈ rowsOf t, z.2 ∈ cellsIn r := by
      intro r hr z hz
      refine ⟨r.2, by rw [← TableNodes.rowsAt_snd]; exact List.mem_map_of_mem hr, ?_⟩
      rw [← TableNodes.cellsOf_snd]
      exact List.mem_map_of_mem hz
    intro r hr c hcm
    rcases List.mem_cons.1 hr with rfl | hr
    · cases e : selectHeader t with
      | none => rw [e] at hcm; simp at hcm
      | some h =>
        rw [e] at hcm
        obtain ⟨z, h1, h3, h2⟩ := hin h (header_below e) c hcm
        exact ⟨z, h1, hrowOf h (TableNodes.header_row hh (by rw [ht]; decide) e) z h3, h2⟩
    · obtain ⟨r', hr', rfl⟩ := List.mem_map.1 hr
      obtain ⟨z, h1, h3, h2⟩ := hin r' (row_below hr') c hcm
      rw [TableNodes.selectRows_eq (by rw [ht]; decide)] at hr'
      exact ⟨z, h1, hrowOf r' (List.mem_filter.1 hr').1 z h3, h2⟩
  obtain ⟨n, cols, headLine, bodyLines, htab, hw1, hw2, hcl, hle, hal⟩ := table_layout (cfg := cfg) (un := un)
    (collectAlignments (selectHeader t) (selectRows t (selectHeader t))) ((selectHeader t).map (rawOf ren))
    ((selectRows t (selectHeader t)).map (rawOf ren)) ((findFirst b!"caption" ([], t)).map fun c => ren c.1) hskip hprom
    (by
      intro r hr c hcm
      obtain ⟨z, hz, ⟨r', hr', hzr⟩, rfl⟩ := hin2 r hr c hcm
      have := hspan r' hr' z.2 hzr
      simp [this, Table.spanAttr])
    (by
      refine hline.imp id fun hl => ?_
      intro r hr c hcm
      obtain ⟨z, hz, ⟨r', hr', hzr⟩, rfl⟩ := hin2 r hr c hcm
      obtain ⟨-, -, -, st', e⟩ := hren z hz
      exact cellContent_newline (hl r' hr' z.2 hzr st' _ e))
  have hshow : ∀ z ∈ below [] t, Shows (visibleChars (written cfg un (ren z.1))) (charsOf z.2) := by
    intro z hz
    obtain ⟨-, hu, hsh, -⟩ := hren z hz
    have k1 := cellContent_keeps hun hu
    rw [written]
    split
    · have k2 := keeps_replaceAll (old := [NL]) (new := b!"<br />") (by decide) (utf8_byte (by decide)) ⟨utf8_of_ascii (by decide), by decide⟩ _ k1.1
      exact Shows.mono hsh (k1.2.trans k2.2)
    · exact Shows.mono hsh k1.2
  have hcellsShow : ∀ r, (r = ([], t) ∨ r ∈ below [] t) →
      CellsShow r.2 (((rawOf ren r).map fun c => written cfg un c.rendered) ++ List.replicate (n - (rawOf ren r).length) []) := by
    intro r hr
    refine ⟨_, _, rfl, ?_⟩
    rw [← TableNodes.cellsOf_snd, rawOf, List.map_map]
    exact pointwise_of _ _ _ fun z hz => hshow z (cells_below hr hz)
  refine ⟨(selectHeader t).map (·.2), (selectRows t (selectHeader t)).map (·.2), header_spec ht hh, others_spec ht hh, n, _, headLine, cols, _,
    bodyLines, _, (hrender.resolve_right (by rw [htab]; simp)).trans htab, hw1, hw2, ?_, ?_, ?_, hcl, ?_, ?_, ?_⟩
  · cases e : selectHeader t with
    | none =>
      intro c hc
      simp at hc
      exact hc.2
    | some h => exact hcellsShow h (header_below e)
  · rw [List.map_map]
    exact pointwise_of _ _ _ fun r hr => hcellsShow r (row_below hr)
  · have := hle _ (List.mem_cons_self ..)
    simp only [List.length_append, List.length_map, List.length_replicate]
    omega
  · intro cells hcm
    obtain ⟨r, hr, rfl⟩ := List.mem_map.1 hcm
    have := hle r (by simp [hr])
    simp only [List.length_append, List.length_map, List.length_replicate]
    omega
  · intro i l r k hi
    have := hal i l r k hi
    have e : ∀ v : Bytes, v ≠ [] → ((collectAlignments (selectHeader t) (selectRows t (selectHeader t)))[i]? = some v ↔
        alignOf (((selectHeader t).map (·.2)).or ((selectRows t (selectHeader t)).map (·.2)).head?) i = some v) := by
      intro v hv
      have e3 : ((selectHeader t).map (·.2)).or ((selectRows t (selectHeader t)).map (·.2)).head? =
          ((selectHeader t).or (selectRows t (selectHeader t)).head?).map (·.2) := by
        cases selectHeader t <;> simp
      rw [collectAlignments, e3, alignOf]
      cases (selectHeader t).or (selectRows t (selectHeader t)).head? with
      | none => simp
      | some first =>
        simp only [Option.map_some, Option.bind_some, ← TableNodes.cellsOf_snd, List.getElem?_map]
        cases (cellsOf first)[i]? with
        | none => simp
        | some c =>
          simp only [Option.map_some, Option.bind_some, Node.attrOr, Option.some.injEq]
          cases c.2.attr? b!"align" with
          | none => simp [Ne.symm hv]
          | some w => simp
    rw [← e _ (by decide), ← e _ (by decide), ← e _ (by decide)]
    exact this
  · rw [← TableNodes.captionOf_snd]
    cases e : findFirst b!"caption" ([], t) with
    | none => rfl
    | some z =>
      obtain ⟨-, hu, hsh, -⟩ := hren z (List.mem_of_find?_eq_some e)
      have kt := keeps_trimSpace hu
      simp only [Option.map_some, Table.caption]
      split
      · rename_i h0
        have := kt.2
        rw [h0] at this
        exact Shows.mono hsh this
      · exact Shows.mono hsh kt.2

/-- The table of `tablePage` meets the hypotheses (those about the page are `tablePage_ok` and so on). -/
example : ∃ t ∈ nodes (preRender fullEnv tablePage), t.name = b!"table" ∧ HeaderCellsInRows t ∧ (∀ x ∈ inside t, x.name ∉ tableBreakers) ∧
    t.attrOr b!"role" [] ≠ b!"presentation" ∧
    (∀ r ∈ rowsOf t, ∀ c ∈ cellsIn r, c.attr? b!"rowspan" = none ∧ c.attr? b!"colspan" = none) ∧
    (∀ r ∈ rowsOf t, ∀ c ∈ cellsIn r, ∀ stuck x, renderNode fullEnv false stuck c = some x → 10 ∉ trimSpace x) ∧
    (rowsOf t).length = 2 := by
  have h : ∃ t ∈ nodes (preRender fullEnv tablePage), t.name = b!"table" ∧
      (∀ x ∈ nodes t, (∃ c ∈ x.children, c.name = b!"th") → x.name = b!"tr") ∧ (∀ x ∈ inside t, x.name ∉ tableBreakers) ∧
      t.attrOr b!"role" [] ≠ b!"presentation" ∧
      (∀ r ∈ rowsOf t, ∀ c ∈ cellsIn r, c.attr? b!"rowspan" = none ∧ c.attr? b!"colspan" = none) ∧
      (∀ r ∈ rowsOf t, ∀ c ∈ cellsIn r, ∀ stuck, ∀ x ∈ renderNode fullEnv false stuck c, 10 ∉ trimSpace x) ∧
      (rowsOf t).length = 2 := by
    simp only [preRender, strikePreRender, DomUtils.handlePreRender, mergeAdjacent_eq]
    decide +kernel
  exact h

end Verif.Props
