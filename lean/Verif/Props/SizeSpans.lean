import Verif.Props.Size
import Verif.Props.RenderTables
import Verif.Props.Lists
/-!
# C97: the spans of cells have to be counted
-/

namespace Verif.Props
open Verif Verif.TextUtils Verif.Escape Verif.Commonmark Verif.Spec Verif.Render Verif.DomUtils Verif.Size Verif.Chars

/-- `<table><tr><td colspan="...">a</td></tr></table>` -/
def spanPage (v : Bytes) : Node := .elem b!"table" [] [.elem b!"tr" [] [.elem b!"td" [(b!"colspan", v)] [.text b!"a"]]]

theorem spanPage_merge (m : Bytes → Bool) 
    (h : m b!"table" = false ∧ m b!"tr" = false ∧ m b!"td" = false ∧ m b!"#text" = false) (v : Bytes) :
    mergeAdjacent m (spanPage v) = spanPage v := by
  obtain ⟨h1, h2, h3, h4⟩ := h
  simp [mergeAdjacent, mergeAdjacentF, mergeStep, spanPage, h1, h2, h3, h4, Node.name, Node.children, withChildren]

theorem spanPage_preRender (v : Bytes) : preRender fullEnv (spanPage v) = spanPage v := by
  have e1 : preRenderRemove isRemoved (spanPage v) = spanPage v := by rfl
  have e2 : renameFakeSpans fullEnv.tables (spanPage v) = spanPage v := by rfl
  have e3 : removeRedundant bothBoldOrItalic (spanPage v) = spanPage v := by rfl
  have e3' : removeRedundant bothLink (spanPage v) = spanPage v := by rfl
  have e3'' : removeRedundant bothStrike (spanPage v) = spanPage v := by rfl
  have e4 : removeEmptyCode (spanPage v) = spanPage v := by rfl
  have e5 : swapTags isInlineCode isPre (spanPage v) = spanPage v := by rfl
  have e6 : addSpace isBoldOrItalic isInlineCode (spanPage v) = spanPage v := by rfl
  have e7 : swapTags isBoldOrItalic isLink (spanPage v) = spanPage v := by rfl
  have e8 : swapTags isLink isHeading (spanPage v) = spanPage v := by rfl
  have e9 : leafAlternatives (spanPage v) = spanPage v := by rfl
  have e10 : moveListItems (spanPage v) = spanPage v := by rfl
  have e11 : Collapse.collapse (Collapse.baseFuncs (isBlock fullEnv)) (spanPage v) = spanPage v := by rfl
  have e12 : addListEndComments (spanPage v) = spanPage v := by rfl
  have e13 : fullEnv.cfg.disableListEndComment = false := rfl
  have e14 : fullEnv.strike.isSome = true := rfl
  simp only [preRender, strikePreRender, DomUtils.handlePreRender, e1, e2, e3, e3', e3'', e4, e5, e6, e7, e8, e9, e10, e11, e12, e13, e14, if_true,
    spanPage_merge isBoldOrItalic (by decide), spanPage_merge isInlineCode (by decide), spanPage_merge isStrike (by decide)]
  rfl

theorem spanPage_render (v : Bytes) : renderTable {} (unEscapeContent fullEnv.mode (handlers fullEnv)) false (spanPage v) 
      (fun p => renderAt fullEnv false (false || isProblematicParent b!"table") p [.elem b!"tr" [] [.elem b!"td" [(b!"colspan", v)] [.text b!"a"]]]) =
      some (Table.table {} (unEscapeContent .smart (handlers fullEnv)) [[]] none [[⟨b!"a", none, some v⟩]] none) := by
  rfl

theorem spanAttr_digits {v : Bytes} (hv : Digits v) (hn : decimalValue v < 2 ^ 63) : Table.spanAttr (some v) = max 1 (decimalValue v) := by
  have h := c34_start v hv hn
  rw [startAt, Option.getD_some] at h
  rw [Table.spanAttr.eq_def]
  dsimp only
  cases ha : atoi v with
  | none =>
    rw [ha] at h
    simp only [Option.getD_none] at h
    dsimp only; omega
  | some i =>
    rw [ha] at h
    simp only [Option.getD_some] at h
    subst h
    dsimp only; split <;> omega

theorem apply_spans : ∀ (k j : Nat) (r : List Bytes), r.length = j →
    Table.applyModifications [[], r] ((List.range' j k).map fun x => ⟨1, x, []⟩) = [[], r ++ List.replicate k []]
  | 0, j, r, _ => by simp [Table.applyModifications]
  | k + 1, j, r, h => by
    have ih := apply_spans k (j + 1) (r ++ [[]]) (by simp [h])
    rw [Table.applyModifications] at *
    rw [List.range'_succ, List.map_cons, List.foldl_cons]
    have : Table.applyMod [[], r] ⟨1, j, []⟩ = [[], r ++ [[]]] := by
      subst h
      simp [Table.applyMod, Table.growSlice, Table.insertAt]
    rw [this, ih, List.replicate_succ, List.append_assoc]; rfl

theorem span_mods (n : Nat) : Table.calculateModifications 1 0 1 n [] = (List.range' 1 (n - 1)).map fun x => ⟨1, x, []⟩ := by
  rw [Table.calculateModifications]
  split
  · rename_i h
    have : n - 1 = 0 := by omega
    rw [this]; rfl
  · rw [List.range_eq_range', List.drop_range']
    simp

theorem ascii_vis : ∀ s : Bytes, (∀ b ∈ s, b < 128) → s.count 45 ≤ (visibleChars s).length
  | [], _ => by simp
  | b :: s, h => by
    have ih := ascii_vis s fun x hx => h x (by simp [hx])
    rw [vis_ascii (h b (by simp)) (utf8_of_ascii fun x hx => h x (by simp [hx])), List.count_cons]
    by_cases hb : b = 45
    · subst hb
      have e : vis [45] = true := by decide
      rw [e, if_pos rfl, List.length_cons, if_pos (by decide)]
      omega
    · have : (b == 45) = false := by simpa using hb
      rw [this]
      cases vis [b]
      · simp; omega
      · simp; omega

theorem vis_length (s : Bytes) : (visibleChars s).length ≤ s.length := by
  have h1 : (visibleChars s).length ≤ (chars s).length := List.length_filter_le _ _
  have h2 : ∀ l : List Bytes, (∀ c ∈ l, c ≠ []) → l.length ≤ l.flatten.length := by
    intro l
    induction l with
    | nil => simp
    | cons c l ih =>
      intro h
      have h1 := ih fun x hx => h x (by simp [hx])
      have h2 : 0 < c.length := List.length_pos_iff.2 (h c (by simp))
      rw [List.flatten_cons, List.length_append, List.length_cons]; omega
  have h3 := h2 (chars s) (chars_ne s)
  rw [chars_flatten] at h3
  omega

theorem underline_count (p : Table.Padding) (al : List Bytes) (counts : List Nat) (hc : ∀ n ∈ counts, 1 ≤ n) :
    counts.length ≤ (Table.headerUnderline p al counts).count 45 := by
  rw [Table.headerUnderline]
  have h : ∀ (l : List (Nat × Nat)) (f : Nat × Nat → Bytes), (∀ x ∈ l, 1 ≤ (f x).count 45) → l.length ≤ (l.flatMap f).count 45 := by
    intro l f
    induction l with
    | nil => simp
    | cons x l ih =>
      intro h
      have h1 := ih fun y hy => h y (by simp [hy])
      have h2 := h x (by simp)
      rw [List.flatMap_cons, List.count_append, List.length_cons]; omega
  have := h counts.zipIdx (fun (m, i) => (if i = 0 then b!"|" else []) ++ Table.underlineCell p (Table.alignmentFor al i) m ++ b!"|") (by
    rintro ⟨m, i⟩ hx
    obtain ⟨h1, h2, hci⟩ := List.mem_zipIdx hx
    have hcm : m ∈ counts := by rw [hci]; exact List.getElem_mem _
    have hm := hc m hcm
    have e : 1 ≤ ((if p = .aligned then List.replicate m 45 else b!"-") : Bytes).count 45 := by
      split
      · rw [List.count_replicate_self]; exact hm
      · decide
    simp only [Table.underlineCell, List.count_append]
    omega)
  rw [List.length_zipIdx] at this
  exact this

theorem row_ascii (p : Table.Padding) (counts : List Nat) (cells : List Bytes) (h : ∀ c ∈ cells, ∀ b ∈ c, b < 128) :
    ∀ b ∈ Table.row p counts cells, b < 128 := by
  intro b hb
  rw [Table.row, List.mem_flatMap] at hb
  obtain ⟨⟨c, i⟩, hx, hb⟩ := hb
  obtain ⟨h1, h2, hci⟩ := List.mem_zipIdx hx
  have hc : c ∈ cells := by rw [hci]; exact List.getElem_mem _
  have hsp : ∀ (q : Prop) [Decidable q] (l : Bytes), (∀ x ∈ l, x < 128) → ∀ x ∈ (if q then l else []), x < 128 := by
    intro q _ l hl x hx
    split at hx
    · exact hl x hx
    · cases hx
  simp only [Table.rowCell, List.mem_append] at hb
  rcases hb with (hb | ((hb | hb) | hb) | hb) | hb
  · exact hsp _ _ (by decide) b hb
  · exact hsp _ _ (by decide) b hb
  · exact h c hc b hb
  · exact hsp _ _ (by intro x hx; rw [List.eq_of_mem_replicate hx]; decide) b hb
  · exact hsp _ _ (by decide) b hb
  · revert b; decide

theorem underline_ascii (p : Table.Padding) (al : List Bytes) (counts : List Nat) : ∀ b ∈ Table.headerUnderline p al counts, b < 128 := by
  intro b hb
  rw [Table.headerUnderline, List.mem_flatMap] at hb
  obtain ⟨⟨m, i⟩, -, hb⟩ := hb
  have hif : ∀ (q : Prop) [Decidable q] (l r : Bytes), (∀ x ∈ l, x < 128) → (∀ x ∈ r, x < 128) → ∀ x ∈ (if q then l else r), x < 128 := by
    intro q _ l r hl hr x hx
    split at hx
    · exact hl x hx
    · exact hr x hx
  simp only [Table.underlineCell, List.mem_append] at hb
  rcases hb with (hb | (hb | hb) | hb) | hb
  · exact hif _ _ _ (by decide) (by decide) b hb
  · exact hif _ _ _ (by decide) (by decide) b hb
  · exact hif _ _ _ (by intro x hx; rw [List.eq_of_mem_replicate hx]; decide) (by decide) b hb
  · exact hif _ _ _ (by decide) (by decide) b hb
  · revert b; decide

theorem table_ascii (p : Table.Padding) (al : List Bytes) (rows : List (List Bytes)) (h : ∀ r ∈ rows, ∀ c ∈ r, ∀ b ∈ c, b < 128) :
    ∀ b ∈ Table.render p al rows none, b < 128 := by
  have hf : ∀ n, ∀ r ∈ Table.fillUpRows rows n, ∀ c ∈ r, ∀ b ∈ c, b < 128 := by
    intro n r hr c hc b hb
    rw [Table.fillUpRows, List.mem_map] at hr
    obtain ⟨r0, h0, rfl⟩ := hr
    rcases List.mem_append.1 hc with hc | hc
    · exact h r0 h0 c hc b hb
    · rw [List.eq_of_mem_replicate hc] at hb; cases hb
  intro b hb
  simp only [Table.render, List.mem_append] at hb
  rcases hb with ((((((hb | hb) | hb) | hb) | hb) | hb) | hb) | hb
  · revert b; decide
  · refine row_ascii p _ _ ?_ b hb
    intro c hc
    generalize hg : Table.fillUpRows rows (Table.calculateMaxCounts rows).length = g at hc
    cases g with
    | nil => cases hc
    | cons r g => exact hf _ r (by rw [hg]; simp) c hc
  · revert b; decide
  · exact underline_ascii _ _ _ b hb
  · revert b; decide
  · obtain ⟨r, hr, hb⟩ := List.mem_flatMap.1 hb
    rcases List.mem_append.1 hb with hb | hb
    · exact row_ascii p _ r (hf _ r (List.mem_of_mem_drop hr)) b hb
    · rw [List.mem_singleton.1 hb]; decide
  · cases hb
  · revert b; decide

/-- The rows of the table of `spanPage`. -/
theorem span_rows {v : Bytes} (hv : Digits v) (hn : decimalValue v < 2 ^ 63) :
    Table.tableRows {} (unEscapeContent .smart (handlers fullEnv)) none [[⟨b!"a", none, some v⟩]] =
      some [[], b!"a" :: List.replicate (max 1 (decimalValue v) - 1) []] := by
  have hc : Table.cellContent (unEscapeContent .smart (handlers fullEnv)) b!"a" = b!"a" := by decide
  have h1 : Table.spanAttr none = 1 := by decide
  have hm : Table.mergedContent {} b!"a" = [] := by decide
  have hr : Table.collectRows {} (unEscapeContent .smart (handlers fullEnv)) none [[⟨b!"a", none, some v⟩]] =
      [[], b!"a" :: List.replicate (max 1 (decimalValue v) - 1) []] := by
    simp only [Table.collectRows, Table.collectBoth, Table.collectCellsInRow, List.zipIdx_cons, List.zipIdx_nil, List.map_cons, List.map_nil,
      List.flatMap_cons, List.flatMap_nil, List.append_nil, hc, h1, hm, spanAttr_digits hv hn, Nat.zero_add, span_mods,
      Table.applyGroupedModifications, List.reverse_cons, List.reverse_nil, List.nil_append, List.cons_append, List.foldl_cons, List.foldl_nil]
    rw [apply_spans _ 1 [b!"a"] rfl]
    rfl
  rw [Table.tableRows.eq_def]
  simp only [hr]
  rw [if_neg (by simp), if_neg (by decide), if_neg]
  have : ∀ k, (List.replicate k ([] : Bytes)).any (fun cell => cell.contains NL) = false := by
    intro k
    rw [List.any_eq_false]
    intro x hx
    rw [List.eq_of_mem_replicate hx]; decide
  simp only [List.any_cons, this]
  decide

/-- C97: the number of a span has to be counted: a page of one cell and `colspan="N"` becomes `N` bytes or more, for
every `N` below `2 ^ 63`. So a page of some seventy bytes can become as long as you like. -/
theorem c97_spans (v : Bytes) (hv : Digits v) (hn : decimalValue v < 2 ^ 63) :
    ∃ md, convertNode fullEnv (spanPage v) = some md ∧ decimalValue v ≤ md.length := by
  have hconv : convertNode fullEnv (spanPage v) =
      (Table.table {} (unEscapeContent .smart (handlers fullEnv)) [[]] none [[⟨b!"a", none, some v⟩]] none).bind
        fun out => some (postRender .smart (handlers fullEnv) out) := by
    rw [convertNode, spanPage_preRender]
    have : renderNode fullEnv false false (spanPage v) = (renderTable {} (unEscapeContent fullEnv.mode (handlers fullEnv)) false (spanPage v)
      (fun p => renderAt fullEnv false (false || isProblematicParent b!"table") p [.elem b!"tr" [] [.elem b!"td" [(b!"colspan", v)] [.text b!"a"]]])).bind fun
          | some out => some out
          | none => (renderL fullEnv false (false || isProblematicParent b!"table") [.elem b!"tr" [] [.elem b!"td" [(b!"colspan", v)] [.text b!"a"]]]).map (fallback fullEnv b!"table") := by
      rfl
    rw [this, spanPage_render, Table.table, span_rows hv hn]
    rfl
  rw [Table.table, span_rows hv hn] at hconv
  refine ⟨_, hconv, ?_⟩
  generalize hrows : ([[], b!"a" :: List.replicate (max 1 (decimalValue v) - 1) []] : List (List Bytes)) = rows
  have hasc : ∀ r ∈ rows, ∀ c ∈ r, ∀ b ∈ c, b < 128 := by
    subst hrows
    intro r hr c hc b hb
    simp only [List.mem_cons, List.not_mem_nil, or_false] at hr
    rcases hr with rfl | rfl
    · cases hc
    · rcases List.mem_cons.1 hc with rfl | hc
      · revert b; decide
      · rw [List.eq_of_mem_replicate hc] at hb; cases hb
  have hlen : max 1 (decimalValue v) ≤ (Table.calculateMaxCounts rows).length := by
    have := Table.counts_length rows (b!"a" :: List.replicate (max 1 (decimalValue v) - 1) []) (by subst hrows; simp)
    rw [List.length_cons, List.length_replicate] at this
    omega
  have ha := table_ascii .aligned [[]] rows hasc
  have h1 := underline_count .aligned [[]] _ (Table.counts_pos rows)
  have h2 : (Table.headerUnderline .aligned [[]] (Table.calculateMaxCounts rows)).count 45 ≤ (Table.render .aligned [[]] rows none).count 45 := by
    simp only [Table.render, List.count_append]; omega
  have h3 := ascii_vis _ ha
  have h4 := (keeps_postRender .smart (handlers fullEnv) (utf8_of_ascii ha)).2.length_le
  have h5 := vis_length (postRender .smart (handlers fullEnv) (Table.render .aligned [[]] rows none))
  show decimalValue v ≤ (postRender .smart (handlers fullEnv) (Table.render .aligned [[]] rows none)).length
  omega

/-- The numbers. -/
example : Digits b!"1000000000" ∧ decimalValue b!"1000000000" < 2 ^ 63 := ⟨⟨by decide, by decide⟩, by decide⟩

end Verif.Props
