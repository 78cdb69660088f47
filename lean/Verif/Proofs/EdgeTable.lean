import Verif.Proofs.Edge
import Verif.Proofs.CharsMain
/-!
# The table plugin writes tidy content
-/
set_option linter.unusedSimpArgs false

namespace Verif.Edge
open Verif Verif.Spec Verif.Dom Verif.DomUtils Verif.TextUtils Verif.Escape Verif.Commonmark Verif.Table Verif.Render Verif.Props Verif.Inner
open Verif.Chars (headerCells)

/-- A condition on all cells. -/
def All (P : Bytes → Prop) (rows : List (List Bytes)) : Prop := ∀ r ∈ rows, ∀ c ∈ r, P c

variable {P : Bytes → Prop} {np : Bool}

theorem all_modify (f : List Bytes → List Bytes) (hf : ∀ r, (∀ c ∈ r, P c) → ∀ c ∈ f r, P c) :
    ∀ (rows : List (List Bytes)) (i : Nat), All P rows → All P (rows.modify i f)
  | [], i, h => by cases i <;> simp [List.modify, All, List.modifyTailIdx, List.modifyTailIdx.go]
  | r :: rows, 0, h => by
    rw [List.modify_zero_cons]
    intro x hx
    rcases List.mem_cons.1 hx with rfl | hx
    · exact hf r (h r (by simp))
    · exact h x (by simp [hx])
  | r :: rows, i + 1, h => by
    rw [List.modify_succ_cons]
    intro x hx
    rcases List.mem_cons.1 hx with rfl | hx
    · exact h x (by simp)
    · exact all_modify f hf rows i (fun y hy => h y (by simp [hy])) x hx

theorem all_applyMod (h0 : P []) {contents : List (List Bytes)} (h : All P contents) (m : Mod) (hm : P m.data) : All P (applyMod contents m) := by
  rw [applyMod]
  refine all_modify _ ?_ _ _ ?_
  · intro r hr c hc
    have hr2 : ∀ c ∈ growSlice r m.x [], P c := by
      intro c hc
      rw [growSlice, List.mem_append] at hc
      rcases hc with hc | hc
      · exact hr c hc
      · rw [(List.mem_replicate.1 hc).2]; exact h0
    rw [insertAt, List.mem_append, List.mem_cons] at hc
    rcases hc with hc | rfl | hc
    · exact hr2 c (List.mem_of_mem_take hc)
    · exact hm
    · exact hr2 c (List.mem_of_mem_drop hc)
  · intro r hr c hc
    rw [growSlice, List.mem_append] at hr
    rcases hr with hr | hr
    · exact h r hr c hc
    · rw [(List.mem_replicate.1 hr).2] at hc; simp at hc

theorem all_applyMods (h0 : P []) : ∀ (mods : List Mod) {contents : List (List Bytes)}, All P contents → (∀ m ∈ mods, P m.data) → All P (applyModifications contents mods)
  | [], contents, h, _ => h
  | m :: mods, contents, h, hm => by
    rw [applyModifications, List.foldl_cons]
    exact all_applyMods h0 mods (all_applyMod h0 h m (hm m (by simp))) fun x hx => hm x (by simp [hx])

theorem all_applyAll (h0 : P []) : ∀ (g : List (List Mod)) {contents : List (List Bytes)}, All P contents → (∀ l ∈ g, ∀ m ∈ l, P m.data) →
    All P (g.foldl applyModifications contents)
  | [], contents, h, _ => h
  | l :: g, contents, h, hm => by
    rw [List.foldl_cons]
    exact all_applyAll h0 g (all_applyMods h0 l h (hm l (by simp))) fun x hx => hm x (by simp [hx])

variable {un : Bytes → Bytes}

theorem all_cells (h0 : P []) (cfg : Config) (j : Nat) (cells : List RawCell) (h : ∀ c ∈ cells, P (cellContent un c.rendered)) :
    (∀ c ∈ (collectCellsInRow cfg un j cells).1, P c) ∧ ∀ m ∈ (collectCellsInRow cfg un j cells).2, P m.data := by
  refine ⟨?_, ?_⟩
  · intro c hc
    simp only [collectCellsInRow, List.mem_map] at hc
    obtain ⟨x, hx, rfl⟩ := hc
    exact h x hx
  · intro m hm
    simp only [collectCellsInRow, List.mem_flatMap] at hm
    obtain ⟨⟨x, i⟩, hx, hm⟩ := hm
    have hxm : x ∈ cells := by
      have := List.mem_zipIdx hx
      rw [this.2.2]; exact List.getElem_mem _
    have hd : m.data = mergedContent cfg (cellContent un x.rendered) := by
      simp only [calculateModifications] at hm
      split at hm
      · simp at hm
      · rw [List.mem_append, List.mem_map, List.mem_flatMap] at hm
        rcases hm with ⟨_, _, rfl⟩ | ⟨_, _, hm⟩
        · rfl
        · rw [List.mem_map] at hm
          obtain ⟨_, _, rfl⟩ := hm
          rfl
    rw [hd, mergedContent]
    split
    · exact h x hxm
    · exact h0

theorem all_collectRows (h0 : P []) (cfg : Config) (header : Option (List RawCell)) (normal : List (List RawCell))
    (h : ∀ r ∈ headerCells header :: normal, ∀ c ∈ r, P (cellContent un c.rendered)) : All P (collectRows cfg un header normal) := by
  have hb : ∀ x ∈ collectBoth cfg un header normal, (∀ c ∈ x.1, P c) ∧ ∀ m ∈ x.2, P m.data := by
    intro x hx
    rw [collectBoth.eq_def, List.mem_cons] at hx
    rcases hx with hx | hx
    · cases header with
      | none => rw [hx]; simp
      | some cells => rw [hx]; exact all_cells h0 cfg 0 cells (h cells (by simp [headerCells]))
    · rw [List.mem_map] at hx
      obtain ⟨⟨cells, i⟩, hx, rfl⟩ := hx
      have hm : cells ∈ normal := by
        have := List.mem_zipIdx hx
        rw [this.2.2]; exact List.getElem_mem _
      exact all_cells h0 cfg (i + 1) cells (h cells (by simp [hm]))
  rw [collectRows]
  have h1 : All P (applyGroupedModifications ((collectBoth cfg un header normal).map (·.1)) ((collectBoth cfg un header normal).map (·.2))) := by
    rw [applyGroupedModifications]
    refine all_applyAll h0 _ ?_ ?_
    · intro r hr
      obtain ⟨x, hx, rfl⟩ := List.mem_map.1 hr
      exact (hb x hx).1
    · intro l hl
      rw [List.mem_reverse] at hl
      obtain ⟨x, hx, rfl⟩ := List.mem_map.1 hl
      exact (hb x hx).2
  generalize applyGroupedModifications _ _ = rows at h1
  have h2 : All P (if cfg.skipEmptyRows = true then removeEmptyRows rows else rows) := by
    split
    · cases rows with
      | nil => exact h1
      | cons first rest =>
        rw [removeEmptyRows]
        split
        · intro r hr; simp at hr
        · intro r hr
          rcases List.mem_cons.1 hr with rfl | hr
          · exact h1 r (by simp)
          · exact h1 r (by simp [(List.mem_filter.1 hr).1])
    · exact h1
  generalize (if cfg.skipEmptyRows = true then removeEmptyRows rows else rows) = rows2 at h2
  split
  · cases rows2 with
    | nil => exact h2
    | cons first rest =>
      rw [removeFirstRowIfEmpty]
      split
      · exact fun r hr => h2 r (by simp [hr])
      · exact h2
  · exact h2

theorem tidy_cell (hun : ∀ s, Tidy np s → Tidy np (un s)) {s : Bytes} (h : Tidy np s) : Tidy np (cellContent un s) := by
  rw [cellContent]
  refine hun _ ?_
  have h1 := h.trimSpace
  generalize Verif.trimSpace s = t at h1
  have k : Inner.Keeps [MARK, 124] [BS, 124] := ⟨Chars.utf8_of_ascii (by decide), show Ins [[124]] [[BS], [124]] from Ins.add [BS] (by decide) (Ins.refl [[124]])⟩
  refine h1.keeps (Inner.keeps_replaceAll (by decide) (Chars.utf8_of_ascii (by decide)) k _ h1.1) ?_
  have hm := h1.3
  clear h1 h s
  revert hm
  refine replaceAll_induct (old := [MARK, 124]) (by simp) (P := fun s => MarkersPlaced s → MarkersPlaced (Verif.replaceAll [MARK, 124] [BS, 124] s)) id ?_ ?_ t
  · intro s ih h
    rw [replaceAll_match _ _ _ (by simp)]
    exact Marks.append (Marks.none (by decide)) (ih (Marks.suffix h))
  · intro b s hnp ih h
    rw [replaceAll_nomatch hnp]
    refine (ih h.tail).cons fun h7 => ?_
    obtain ⟨c, y, rfl, h1, h2⟩ := h [] s (by rw [h7]; rfl)
    refine ⟨c, _, replaceAll_nomatch ?_, h1, h2⟩
    intro hp
    rw [List.cons_prefix_cons] at hp
    exact (visible_ne h1).2.2 hp.1.symm

theorem tidy_flatMap {α : Type} (f : α → Bytes) : ∀ l : List α, (∀ x ∈ l, Tidy np (f x)) → Tidy np (l.flatMap f)
  | [], _ => tidy_nil
  | x :: l, h => by
    rw [List.flatMap_cons]
    exact (h x (by simp)).append (tidy_flatMap f l fun y hy => h y (by simp [hy]))

theorem tidy_row (p : Padding) (counts : List Nat) {cells : List Bytes} (h : ∀ c ∈ cells, Tidy np c) : Tidy np (row p counts cells) := by
  rw [row]
  refine tidy_flatMap _ _ ?_
  rintro ⟨c, i⟩ hx
  have hc : Tidy np c := by
    have := List.mem_zipIdx hx
    rw [this.2.2]; exact h _ (List.getElem_mem _)
  have hsp : Tidy np (if p = .aligned ∨ p = .minimal then [SP] else []) := by
    split
    · exact tidy_ascii (by decide) (by decide)
    · exact tidy_nil
  simp only [rowCell]
  refine (Tidy.append ?_ (((hsp.append hc).append ?_).append hsp)).append (tidy_ascii (by decide) (by decide))
  · split
    · exact tidy_ascii (by decide) (by decide)
    · exact tidy_nil
  · split
    · exact tidy_rep (by decide) (by decide) _
    · exact tidy_nil

theorem tidy_underline (p : Padding) (al : List Bytes) (counts : List Nat) : Tidy np (headerUnderline p al counts) := by
  rw [headerUnderline]
  refine tidy_flatMap _ _ ?_
  rintro ⟨n, i⟩ _
  simp only [underlineCell]
  refine (Tidy.append ?_ ((Tidy.append ?_ ?_).append ?_)).append (tidy_ascii (by decide) (by decide))
  · split
    · exact tidy_ascii (by decide) (by decide)
    · exact tidy_nil
  · split <;> exact tidy_ascii (by decide) (by decide)
  · split
    · exact tidy_rep (by decide) (by decide) _
    · exact tidy_ascii (by decide) (by decide)
  · split <;> exact tidy_ascii (by decide) (by decide)

theorem tidy_table (hun : ∀ s, Tidy np s → Tidy np (un s)) (cfg : Config) (al : List Bytes) (header : Option (List RawCell)) (normal : List (List RawCell))
    (cap : Option Bytes) (h : ∀ r ∈ headerCells header :: normal, ∀ c ∈ r, Tidy np c.rendered) (hc : ∀ c ∈ cap, Tidy np c) {out : Bytes}
    (e : table cfg un al header normal cap = some out) : Tidy np out := by
  rw [table, Option.map_eq_some_iff] at e
  obtain ⟨rows, e1, rfl⟩ := e
  have hr : All (Tidy np) rows := by
    have h1 := all_collectRows tidy_nil cfg header normal (un := un) fun r hr c hc => tidy_cell hun (h r hr c hc)
    rw [tableRows] at e1
    generalize collectRows cfg un header normal = rs at h1 e1
    split at e1
    · simp at e1
    split at e1
    · simp only [Option.some.injEq] at e1
      subst e1
      intro r hr c hc
      obtain ⟨r', hr', rfl⟩ := List.mem_map.1 hr
      obtain ⟨c', hc', rfl⟩ := List.mem_map.1 hc
      have h2 := h1 r' hr' c' hc'
      exact h2.keeps (Inner.keeps_replace_one (by decide) (by decide) (plain_ascii (by decide)) h2.1)
        (Marks.replace_one (by decide) (by decide) (Marks.none (by decide)) h2.3)
    split at e1
    · simp at e1
    · simp only [Option.some.injEq] at e1
      subst e1; exact h1
  rw [render.eq_def]
  simp only
  have hf : All (Tidy np) (fillUpRows rows (calculateMaxCounts rows).length) := by
    intro r hr' c hc
    rw [fillUpRows, List.mem_map] at hr'
    obtain ⟨x, hx, rfl⟩ := hr'
    rw [List.mem_append] at hc
    rcases hc with hc | hc
    · exact hr x hx c hc
    · rw [(List.mem_replicate.1 hc).2]; exact tidy_nil
  generalize calculateMaxCounts rows = counts at hf ⊢
  generalize fillUpRows rows counts.length = rows2 at hf ⊢
  have hn : Tidy np b!"\n" := tidy_nl
  refine Tidy.append (Tidy.append ((Tidy.append (Tidy.append (Tidy.append (tidy_nn.append ?_) hn) (tidy_underline _ _ _)) hn).append ?_) ?_) tidy_nn
  · refine tidy_row _ _ ?_
    cases rows2 with
    | nil => simp
    | cons x rows2 => exact hf x (by simp)
  · exact tidy_flatMap _ _ fun x hx => (tidy_row _ _ (hf x (List.mem_of_mem_drop hx))).append hn
  · split
    · rename_i c ec
      rw [caption.eq_def] at ec
      split at ec
      · simp at ec
      · rename_i r0
        split at ec
        · simp at ec
        · simp only [Option.some.injEq] at ec
          subst ec
          exact tidy_nn.append (hc _ rfl).trimSpace
    · exact tidy_nil

/-- A table that is rendered as a table. -/
theorem tidy_renderTable (hun : ∀ s, Tidy np s → Tidy np (un s)) (cfg : Table.Config) (stuck : Bool) {t : Node}
    (at_ : Path → Option Bytes) (hat : hasProblematicChild t = false → ∀ z ∈ below [] t, ∃ o, at_ z.1 = some o ∧ Tidy np o) {out : Bytes}
    (e : renderTable cfg un stuck t at_ = some (some out)) : Tidy np out := by
  rw [renderTable] at e
  split at e
  · simp at e
  · rename_i hc
    have hp : hasProblematicChild t = false := by
      rw [cannotBeTable, Bool.or_eq_true, Bool.or_eq_true] at hc
      cases e : hasProblematicChild t with
      | false => rfl
      | true => exact absurd (Or.inl (Or.inr e)) hc
    have hat := hat hp
    let ren : Path → Bytes := fun q => (at_ q).getD []
    have hren : ∀ z ∈ below [] t, at_ z.1 = some (ren z.1) ∧ Tidy np (ren z.1) := by
      intro z hz
      obtain ⟨o, e, h1⟩ := hat z hz
      have : ren z.1 = o := by show (at_ z.1).getD [] = o; rw [e]; rfl
      rw [this]
      exact ⟨e, h1⟩
    have hcells : ∀ r, (r = ([], t) ∨ r ∈ below [] t) → rawCells at_ (cellsOf r) =
        some ((cellsOf r).map fun c => ⟨ren c.1, c.2.attr? b!"rowspan", c.2.attr? b!"colspan"⟩) := by
      intro r hr
      rw [rawCells]
      refine Chars.mapM_some ?_
      intro c hc
      rw [(hren c (Chars.cells_below hr hc)).1]
      rfl
    have hhead : ((selectHeader t).mapM fun h => rawCells at_ (cellsOf h)) =
        some ((selectHeader t).map fun h => (cellsOf h).map fun c => ⟨ren c.1, c.2.attr? b!"rowspan", c.2.attr? b!"colspan"⟩) := by
      cases e : selectHeader t with
      | none => rfl
      | some h =>
        rw [Option.mapM_some, hcells h (Chars.header_below e)]
        rfl
    have hrows : ((selectRows t (selectHeader t)).mapM fun r => rawCells at_ (cellsOf r)) =
        some ((selectRows t (selectHeader t)).map fun r => (cellsOf r).map fun c => ⟨ren c.1, c.2.attr? b!"rowspan", c.2.attr? b!"colspan"⟩) :=
      Chars.mapM_some fun r hr => hcells r (Chars.row_below hr)
    have hcap : ((findFirst b!"caption" ([], t)).mapM fun c => at_ c.1) = some ((findFirst b!"caption" ([], t)).map fun c => ren c.1) := by
      cases e : findFirst b!"caption" ([], t) with
      | none => rfl
      | some c =>
        rw [Option.mapM_some, (hren c (List.mem_of_find?_eq_some e)).1]
        rfl
    simp only [hhead, hrows, hcap, Option.bind_some, Option.map_some, Option.some.injEq] at e
    have hcellT : ∀ r, (r = ([], t) ∨ r ∈ below [] t) → ∀ c ∈ cellsOf r, Tidy np (ren c.1) := fun r hr c hc => (hren c (Chars.cells_below hr hc)).2
    refine tidy_table hun cfg _ _ _ _ ?_ ?_ e
    · intro r hr c hc
      rcases List.mem_cons.1 hr with rfl | hr
      · cases e : selectHeader t with
        | none => rw [e] at hc; simp [headerCells] at hc
        | some h =>
          rw [e] at hc
          simp only [headerCells, Option.map_some, Option.getD_some, List.mem_map] at hc
          obtain ⟨c', hc', rfl⟩ := hc
          exact hcellT h (Chars.header_below e) c' hc'
      · obtain ⟨r', hr', rfl⟩ := List.mem_map.1 hr
        obtain ⟨c', hc', rfl⟩ := List.mem_map.1 hc
        exact hcellT r' (Chars.row_below hr') c' hc'
    · intro c hc
      cases e : findFirst b!"caption" ([], t) with
      | none => rw [e] at hc; simp at hc
      | some z =>
        rw [e] at hc
        simp only [Option.map_some, Option.mem_def, Option.some.injEq] at hc
        subst hc
        exact (hren z (List.mem_of_find?_eq_some e)).2

end Verif.Edge
