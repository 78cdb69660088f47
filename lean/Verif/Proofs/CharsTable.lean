import Verif.Proofs.CharsParts
import Verif.Proofs.TableCells
import Verif.Model.Table
/-!
# The visible characters in the result of the table plugin
-/
set_option linter.unusedSimpArgs false

namespace Verif.Chars
open Verif Verif.Spec Verif.TextUtils Verif.Escape Verif.Commonmark Verif.Table

/-- The visible characters of the cells of a row. -/
def rowVis (cells : List Bytes) : List Bytes := cells.flatMap visibleChars

/-- The visible characters of the cells of a table. -/
def gridVis (rows : List (List Bytes)) : List Bytes := rows.flatMap rowVis

theorem rowVis_replicate (n : Nat) : rowVis (List.replicate n []) = [] := by
  induction n with
  | zero => rfl
  | succ n ih => rw [List.replicate_succ, rowVis, List.flatMap_cons]; rw [rowVis] at ih; rw [ih]; rfl

theorem gridVis_replicate (n : Nat) : gridVis (List.replicate n []) = [] := by
  induction n with
  | zero => rfl
  | succ n ih => rw [List.replicate_succ, gridVis, List.flatMap_cons]; rw [gridVis] at ih; rw [ih]; rfl

theorem rowVis_append (a b : List Bytes) : rowVis (a ++ b) = rowVis a ++ rowVis b := by simp [rowVis]
theorem gridVis_append (a b : List (List Bytes)) : gridVis (a ++ b) = gridVis a ++ gridVis b := by simp [gridVis]

/-- All cells are UTF-8. -/
def GridOk (rows : List (List Bytes)) : Prop := ∀ r ∈ rows, ∀ c ∈ r, Utf8 c

theorem modify_ok (f : List Bytes → List Bytes) (hf : ∀ r, (∀ c ∈ r, Utf8 c) → (∀ c ∈ f r, Utf8 c) ∧ (rowVis r).Sublist (rowVis (f r))) :
    ∀ (rows : List (List Bytes)) (i : Nat), GridOk rows → GridOk (rows.modify i f) ∧ (gridVis rows).Sublist (gridVis (rows.modify i f))
  | [], i, h => by cases i <;> simp [List.modify, GridOk, List.modifyTailIdx, List.modifyTailIdx.go] <;> exact List.Sublist.refl _
  | r :: rows, 0, h => by
    have := hf r (h r (by simp))
    rw [List.modify_zero_cons]
    refine ⟨?_, ?_⟩
    · intro x hx
      rcases List.mem_cons.1 hx with rfl | hx
      · exact this.1
      · exact h x (by simp [hx])
    · simp only [gridVis, List.flatMap_cons]
      exact this.2.append (List.Sublist.refl _)
  | r :: rows, i + 1, h => by
    have ih := modify_ok f hf rows i fun x hx => h x (by simp [hx])
    rw [List.modify_succ_cons]
    refine ⟨?_, ?_⟩
    · intro x hx
      rcases List.mem_cons.1 hx with rfl | hx
      · exact h x (by simp)
      · exact ih.1 x hx
    · simp only [gridVis, List.flatMap_cons]
      exact (List.Sublist.refl _).append ih.2

theorem applyMod_ok {contents : List (List Bytes)} (h : GridOk contents) (m : Mod) (hm : Utf8 m.data) :
    GridOk (applyMod contents m) ∧ (gridVis contents).Sublist (gridVis (applyMod contents m)) := by
  have hg : GridOk (growSlice contents (m.y + 1) []) := by
    intro r hr c hc
    rw [growSlice, List.mem_append] at hr
    rcases hr with hr | hr
    · exact h r hr c hc
    · rw [(List.mem_replicate.1 hr).2] at hc; simp at hc
  have hv : gridVis (growSlice contents (m.y + 1) []) = gridVis contents := by
    rw [growSlice, gridVis_append, gridVis_replicate, List.append_nil]
  rw [applyMod, ← hv]
  refine modify_ok _ ?_ _ _ hg
  intro r hr
  have hr2 : ∀ c ∈ growSlice r m.x [], Utf8 c := by
    intro c hc
    rw [growSlice, List.mem_append] at hc
    rcases hc with hc | hc
    · exact hr c hc
    · rw [(List.mem_replicate.1 hc).2]; exact utf8_nil
  have hv2 : rowVis (growSlice r m.x []) = rowVis r := by
    rw [growSlice, rowVis_append, rowVis_replicate, List.append_nil]
  rw [insertAt]
  refine ⟨?_, ?_⟩
  · intro c hc
    rw [List.mem_append, List.mem_cons] at hc
    rcases hc with hc | rfl | hc
    · exact hr2 c (List.mem_of_mem_take hc)
    · exact hm
    · exact hr2 c (List.mem_of_mem_drop hc)
  · rw [← hv2]
    conv => lhs; rw [← List.take_append_drop m.x (growSlice r m.x [])]
    rw [rowVis_append, rowVis_append]
    refine (List.Sublist.refl _).append ?_
    rw [rowVis, rowVis, List.flatMap_cons]
    exact List.sublist_append_right _ _

theorem applyMods_ok : ∀ (mods : List Mod) {contents : List (List Bytes)}, GridOk contents → (∀ m ∈ mods, Utf8 m.data) →
    GridOk (applyModifications contents mods) ∧ (gridVis contents).Sublist (gridVis (applyModifications contents mods))
  | [], contents, h, _ => ⟨h, List.Sublist.refl _⟩
  | m :: mods, contents, h, hm => by
    have h1 := applyMod_ok h m (hm m (by simp))
    have h2 := applyMods_ok mods h1.1 fun x hx => hm x (by simp [hx])
    rw [applyModifications, List.foldl_cons]
    exact ⟨h2.1, h1.2.trans h2.2⟩

theorem applyAll_ok : ∀ (g : List (List Mod)) {contents : List (List Bytes)}, GridOk contents → (∀ l ∈ g, ∀ m ∈ l, Utf8 m.data) →
    GridOk (g.foldl applyModifications contents) ∧ (gridVis contents).Sublist (gridVis (g.foldl applyModifications contents))
  | [], contents, h, _ => ⟨h, List.Sublist.refl _⟩
  | l :: g, contents, h, hm => by
    have h1 := applyMods_ok l h (hm l (by simp))
    have h2 := applyAll_ok g h1.1 fun x hx => hm x (by simp [hx])
    rw [List.foldl_cons]
    exact ⟨h2.1, h1.2.trans h2.2⟩

theorem emptyRow_vis {r : List Bytes} (h : isEmptyRow r = true) : rowVis r = [] := by
  rw [isEmptyRow, List.all_eq_true] at h
  rw [rowVis, List.flatMap_eq_nil_iff]
  intro c hc
  have := h c hc
  rw [List.isEmpty_iff] at this
  rw [this]; rfl

theorem gridVis_filter : ∀ rows : List (List Bytes), gridVis (rows.filter fun cells => !isEmptyRow cells) = gridVis rows
  | [] => rfl
  | r :: rows => by
    have ih := gridVis_filter rows
    rw [gridVis] at ih
    rw [List.filter_cons]
    split
    · simp only [gridVis, List.flatMap_cons] at ih ⊢; rw [ih]
    · rename_i hr
      simp only [gridVis, List.flatMap_cons] at ih ⊢; rw [ih, emptyRow_vis (by simpa using hr)]; rfl

theorem removeEmptyRows_ok {rows : List (List Bytes)} (h : GridOk rows) : GridOk (removeEmptyRows rows) ∧ gridVis (removeEmptyRows rows) = gridVis rows := by
  cases rows with
  | nil => exact ⟨h, rfl⟩
  | cons first rest =>
    rw [removeEmptyRows]
    have hf := gridVis_filter rest
    split
    · rename_i he
      rw [he.1] at hf
      refine ⟨fun r hr => absurd hr (by simp), ?_⟩
      rw [gridVis, gridVis, List.flatMap_cons, emptyRow_vis he.2, ← gridVis, ← gridVis, ← hf]; rfl
    · refine ⟨?_, ?_⟩
      · intro r hr
        rcases List.mem_cons.1 hr with rfl | hr
        · exact h r (by simp)
        · exact h r (by simp [(List.mem_filter.1 hr).1])
      · rw [gridVis, gridVis, List.flatMap_cons, List.flatMap_cons, ← gridVis, ← gridVis, hf]

theorem removeFirst_ok {rows : List (List Bytes)} (h : GridOk rows) : GridOk (removeFirstRowIfEmpty rows) ∧ gridVis (removeFirstRowIfEmpty rows) = gridVis rows := by
  cases rows with
  | nil => exact ⟨h, rfl⟩
  | cons first rest =>
    rw [removeFirstRowIfEmpty]
    split
    · rename_i he
      refine ⟨fun r hr => h r (by simp [hr]), ?_⟩
      rw [gridVis, gridVis, List.flatMap_cons, emptyRow_vis he]; rfl
    · exact ⟨h, rfl⟩

/-- What the cells show when they are rendered. -/
def rawVis (rows : List (List RawCell)) : List Bytes := rows.flatMap fun cells => cells.flatMap fun c => visibleChars c.rendered

variable {un : Bytes → Bytes}

theorem cellContent_keeps (hun : ∀ s, Utf8 s → Keeps s (un s)) {s : Bytes} (hs : Utf8 s) : Keeps s (cellContent un s) := by
  rw [cellContent]
  have k1 := keeps_trimSpace hs
  have k2 := keeps_replaceAll (old := [MARK, 124]) (new := [BS, 124]) (by decide) (utf8_of_ascii (by decide)) ⟨utf8_of_ascii (by decide), by decide⟩ _ k1.1
  exact k1.trans (k2.trans (hun _ k2.1))

theorem cells_ok (hun : ∀ s, Utf8 s → Keeps s (un s)) (cfg : Config) (j : Nat) : ∀ (cells : List RawCell), (∀ c ∈ cells, Utf8 c.rendered) →
    (∀ c ∈ (collectCellsInRow cfg un j cells).1, Utf8 c) ∧ (∀ m ∈ (collectCellsInRow cfg un j cells).2, Utf8 m.data) ∧
    (cells.flatMap fun c => visibleChars c.rendered).Sublist (rowVis (collectCellsInRow cfg un j cells).1) := by
  intro cells h
  refine ⟨?_, ?_, ?_⟩
  · intro c hc
    simp only [collectCellsInRow, List.mem_map] at hc
    obtain ⟨x, hx, rfl⟩ := hc
    exact (cellContent_keeps hun (h x hx)).1
  · intro m hm
    simp only [collectCellsInRow, List.mem_flatMap] at hm
    obtain ⟨⟨x, i⟩, hx, hm⟩ := hm
    have hxm : x ∈ cells := by
      have := List.mem_zipIdx hx
      rw [this.2.2]; exact List.getElem_mem _
    have hd : m.data = mergedContent cfg (cellContent un x.rendered) := by
      simp only [calculateModifications] at hm
      split at hm
      · simp at hm
      · rw [List.mem_append, List.mem_map, List.mem_flatMap] at hm
        rcases hm with ⟨_, _, rfl⟩ | ⟨_, _, hm⟩
        · rfl
        · rw [List.mem_map] at hm
          obtain ⟨_, _, rfl⟩ := hm
          rfl
    rw [hd, mergedContent]
    split
    · exact (cellContent_keeps hun (h x hxm)).1
    · exact utf8_nil
  · simp only [collectCellsInRow]
    clear j
    induction cells with
    | nil => exact List.Sublist.refl _
    | cons c cells ih =>
      rw [List.map_cons, rowVis, List.flatMap_cons, List.flatMap_cons]
      exact (cellContent_keeps hun (h c (by simp))).2.append (ih fun x hx => h x (by simp [hx]))

theorem rows_ok (hun : ∀ s, Utf8 s → Keeps s (un s)) (cfg : Config) : ∀ (rows : List (List RawCell)) (j : Nat), (∀ r ∈ rows, ∀ c ∈ r, Utf8 c.rendered) →
    GridOk (((rows.zipIdx j).map fun (cells, index) => collectCellsInRow cfg un (index + 1) cells).map (·.1)) ∧
    (∀ l ∈ ((rows.zipIdx j).map fun (cells, index) => collectCellsInRow cfg un (index + 1) cells).map (·.2), ∀ m ∈ l, Utf8 m.data) ∧
    (rawVis rows).Sublist (gridVis (((rows.zipIdx j).map fun (cells, index) => collectCellsInRow cfg un (index + 1) cells).map (·.1)))
  | [], j, _ => ⟨by simp [GridOk], by simp, List.Sublist.refl _⟩
  | r :: rows, j, h => by
    have h1 := cells_ok hun cfg (j + 1) r (h r (by simp))
    have ih := rows_ok hun cfg rows (j + 1) fun x hx => h x (by simp [hx])
    rw [List.zipIdx_cons, List.map_cons, List.map_cons, List.map_cons]
    refine ⟨?_, ?_, ?_⟩
    · intro x hx
      rcases List.mem_cons.1 hx with rfl | hx
      · exact h1.1
      · exact ih.1 x hx
    · intro x hx
      rcases List.mem_cons.1 hx with rfl | hx
      · exact h1.2.1
      · exact ih.2.1 x hx
    · rw [rawVis, List.flatMap_cons, gridVis, List.flatMap_cons]
      exact h1.2.2.append ih.2.2

/-- The cells of the header row, or none. -/
def headerCells (header : Option (List RawCell)) : List RawCell := header.getD []

theorem collectRows_ok (hun : ∀ s, Utf8 s → Keeps s (un s)) (cfg : Config) (header : Option (List RawCell)) (normal : List (List RawCell))
    (h : ∀ r ∈ headerCells header :: normal, ∀ c ∈ r, Utf8 c.rendered) :
    GridOk (collectRows cfg un header normal) ∧ (rawVis (headerCells header :: normal)).Sublist (gridVis (collectRows cfg un header normal)) := by
  have h1 := rows_ok hun cfg normal 0 fun r hr => h r (by simp [hr])
  have hh : ∃ first : List Bytes × List Mod, collectBoth cfg un header normal =
        first :: normal.zipIdx.map (fun (cells, index) => collectCellsInRow cfg un (index + 1) cells) ∧
      (∀ c ∈ first.1, Utf8 c) ∧ (∀ m ∈ first.2, Utf8 m.data) ∧ ((headerCells header).flatMap fun c => visibleChars c.rendered).Sublist (rowVis first.1) := by
    cases header with
    | none => exact ⟨([], []), rfl, by simp, by simp, List.Sublist.refl _⟩
    | some cells => exact ⟨_, rfl, cells_ok hun cfg 0 cells (h cells (by simp [headerCells]))⟩
  obtain ⟨first, e, f1, f2, f3⟩ := hh
  rw [collectRows]
  simp only [e, List.map_cons]
  have hg : GridOk (first.1 :: (normal.zipIdx.map (fun (cells, index) => collectCellsInRow cfg un (index + 1) cells)).map (·.1)) := by
    intro x hx
    rcases List.mem_cons.1 hx with rfl | hx
    · exact f1
    · exact h1.1 x hx
  have hm : ∀ l ∈ (first.2 :: (normal.zipIdx.map (fun (cells, index) => collectCellsInRow cfg un (index + 1) cells)).map (·.2)).reverse, ∀ m ∈ l, Utf8 m.data := by
    intro x hx
    rw [List.mem_reverse] at hx
    rcases List.mem_cons.1 hx with rfl | hx
    · exact f2
    · exact h1.2.1 x hx
  have hs : (rawVis (headerCells header :: normal)).Sublist
      (gridVis (first.1 :: (normal.zipIdx.map (fun (cells, index) => collectCellsInRow cfg un (index + 1) cells)).map (·.1))) := by
    rw [rawVis, List.flatMap_cons, gridVis, List.flatMap_cons]
    exact f3.append h1.2.2
  have h2 := applyAll_ok _ hg hm
  rw [applyGroupedModifications]
  generalize List.foldl applyModifications _ _ = rows at h2 ⊢
  have h3 : GridOk (if cfg.skipEmptyRows then removeEmptyRows rows else rows) ∧ gridVis (if cfg.skipEmptyRows then removeEmptyRows rows else rows) = gridVis rows := by
    split
    · exact removeEmptyRows_ok h2.1
    · exact ⟨h2.1, rfl⟩
  generalize (if cfg.skipEmptyRows then removeEmptyRows rows else rows) = rows2 at h3 ⊢
  split
  · have h4 := removeFirst_ok h3.1
    exact ⟨h4.1, by rw [h4.2, h3.2]; exact hs.trans h2.2⟩
  · exact ⟨h3.1, by rw [h3.2]; exact hs.trans h2.2⟩

theorem gridVis_map (f : Bytes → Bytes) (hf : ∀ c, Utf8 c → Keeps c (f c)) : ∀ rows, GridOk rows →
    GridOk (rows.map fun cells => cells.map f) ∧ (gridVis rows).Sublist (gridVis (rows.map fun cells => cells.map f))
  | [], _ => ⟨by simp [GridOk], List.Sublist.refl _⟩
  | r :: rows, h => by
    have ih := gridVis_map f hf rows fun x hx => h x (by simp [hx])
    rw [List.map_cons]
    refine ⟨?_, ?_⟩
    · intro x hx
      rcases List.mem_cons.1 hx with rfl | hx
      · intro c hc
        rw [List.mem_map] at hc
        obtain ⟨d, hd, rfl⟩ := hc
        exact (hf d (h r (by simp) d hd)).1
      · exact ih.1 x hx
    · rw [gridVis, gridVis, List.flatMap_cons, List.flatMap_cons]
      refine List.Sublist.append ?_ ih.2
      have hr := h r (by simp)
      clear ih h
      induction r with
      | nil => exact List.Sublist.refl _
      | cons c r ih =>
        rw [List.map_cons, rowVis, rowVis, List.flatMap_cons, List.flatMap_cons]
        exact (hf c (hr c (by simp))).2.append (ih fun x hx => hr x (by simp [hx]))

theorem tableRows_ok (hun : ∀ s, Utf8 s → Keeps s (un s)) (cfg : Config) (header : Option (List RawCell)) (normal : List (List RawCell))
    (h : ∀ r ∈ headerCells header :: normal, ∀ c ∈ r, Utf8 c.rendered) {rows : List (List Bytes)} (e : tableRows cfg un header normal = some rows) :
    GridOk rows ∧ (rawVis (headerCells header :: normal)).Sublist (gridVis rows) := by
  have h1 := collectRows_ok hun cfg header normal h
  rw [tableRows] at e
  generalize collectRows cfg un header normal = rs at h1 e
  split at e
  · simp at e
  split at e
  · simp only [Option.some.injEq] at e
    have hk : ∀ c, Utf8 c → Keeps c (replaceAll [NL] b!"<br />" c) := fun c hc =>
      keeps_replaceAll (by decide) (utf8_byte (by decide)) ⟨utf8_of_ascii (by decide), by decide⟩ c hc
    have h2 := gridVis_map _ hk rs h1.1
    rw [← e]
    exact ⟨h2.1, h1.2.trans h2.2⟩
  split at e
  · simp at e
  · simp only [Option.some.injEq] at e
    rw [← e]; exact h1

/-! ## Writing -/

/-- Pieces one after the other. -/
theorem pieces_ok {α : Type} (f : α → Bytes) (v : α → List Bytes) : ∀ l : List α, (∀ x ∈ l, Utf8 (f x) ∧ (v x).Sublist (visibleChars (f x)) ∧ EndsOk (f x)) →
    Utf8 (l.flatMap f) ∧ (l.flatMap v).Sublist (visibleChars (l.flatMap f)) ∧ EndsOk (l.flatMap f)
  | [], _ => ⟨utf8_nil, List.Sublist.refl _, ends_blank rfl⟩
  | x :: l, h => by
    have h1 := h x (by simp)
    have ih := pieces_ok f v l fun y hy => h y (by simp [hy])
    rw [List.flatMap_cons, List.flatMap_cons]
    refine ⟨utf8_append h1.1 ih.1, ?_, h1.2.2.append ih.2.2 h1.1 ih.1⟩
    rw [vis_append ih.1]
    exact h1.2.1.append ih.2.1

theorem zipIdx_flatMap_fst {α : Type} (v : α → List Bytes) : ∀ (l : List α) (j : Nat), ((l.zipIdx j).flatMap fun x => v x.1) = l.flatMap v
  | [], _ => rfl
  | x :: l, j => by rw [List.zipIdx_cons, List.flatMap_cons, List.flatMap_cons, zipIdx_flatMap_fst v l]

theorem row_ok (p : Padding) (counts : List Nat) {cells : List Bytes} (h : ∀ c ∈ cells, Utf8 c) :
    Utf8 (row p counts cells) ∧ (rowVis cells).Sublist (visibleChars (row p counts cells)) ∧ EndsOk (row p counts cells) := by
  rw [row, rowVis, ← zipIdx_flatMap_fst visibleChars cells 0]
  refine pieces_ok _ (fun x : Bytes × Nat => visibleChars x.1) _ ?_
  rintro ⟨c, i⟩ hx
  have hc : Utf8 c := by
    have := List.mem_zipIdx hx
    rw [this.2.2]; exact h _ (List.getElem_mem _)
  have hp : Utf8 (if i = 0 then b!"|" else []) := by split <;> exact utf8_of_ascii (by decide)
  have hsp : Utf8 (if p = .aligned ∨ p = .minimal then [SP] else []) := by split <;> exact utf8_of_ascii (by decide)
  have hfill : Utf8 (if p = .aligned then List.replicate (counts.getD i 0 - runeCount c) SP else []) := by
    split
    · exact utf8_rep (by decide) _
    · exact utf8_nil
  have hb : Utf8 b!"|" := utf8_of_ascii (by decide)
  simp only [rowCell]
  have k := ((((((Keeps.refl hc).after _ hsp).before _ hfill).before _ hsp).after _ hp).before _ hb)
  refine ⟨k.1, k.2, ?_⟩
  rw [← List.append_nil (_ ++ b!"|")]
  refine ends_byte ?_ (by decide) (by decide) (by decide) utf8_nil rfl
  exact ((((Keeps.refl hc).after _ hsp).before _ hfill).before _ hsp).after _ hp |>.1

theorem underline_ok (p : Padding) (al : List Bytes) (counts : List Nat) :
    Utf8 (headerUnderline p al counts) ∧ EndsOk (headerUnderline p al counts) := by
  rw [headerUnderline]
  have := pieces_ok (fun x : Nat × Nat => (if x.2 = 0 then b!"|" else []) ++ underlineCell p (alignmentFor al x.2) x.1 ++ b!"|") (fun _ => []) counts.zipIdx ?_
  · exact ⟨this.1, this.2.2⟩
  rintro ⟨n, i⟩ _
  have hp : Utf8 (if i = 0 then b!"|" else []) := by split <;> exact utf8_of_ascii (by decide)
  have hu : Utf8 (underlineCell p (alignmentFor al i) n) := by
    rw [underlineCell]
    refine utf8_append (utf8_append ?_ ?_) ?_
    · split <;> exact utf8_of_ascii (by decide)
    · split
      · exact utf8_rep (by decide) _
      · exact utf8_of_ascii (by decide)
    · split <;> exact utf8_of_ascii (by decide)
  refine ⟨utf8_append (utf8_append hp hu) (utf8_of_ascii (by decide)), List.nil_sublist _, ?_⟩
  rw [← List.append_nil (_ ++ b!"|")]
  exact ends_byte (utf8_append hp hu) (by decide) (by decide) (by decide) utf8_nil rfl

theorem fillUp_ok {rows : List (List Bytes)} (h : GridOk rows) (n : Nat) : GridOk (fillUpRows rows n) ∧ gridVis (fillUpRows rows n) = gridVis rows := by
  refine ⟨?_, ?_⟩
  · intro r hr c hc
    rw [fillUpRows, List.mem_map] at hr
    obtain ⟨x, hx, rfl⟩ := hr
    rw [List.mem_append] at hc
    rcases hc with hc | hc
    · exact h x hx c hc
    · rw [(List.mem_replicate.1 hc).2]; exact utf8_nil
  · clear h
    rw [fillUpRows, gridVis, gridVis]
    induction rows with
    | nil => rfl
    | cons r rows ih =>
      rw [List.map_cons, List.flatMap_cons, List.flatMap_cons, rowVis_append, rowVis_replicate, List.append_nil, ih]

theorem EndsOk.trim {s : Bytes} (h : EndsOk s) : EndsOk (trimSpace s) := by
  obtain ⟨l, r, hl, hr, e, -⟩ := trimSpace_spec s
  intro q w hlv
  have h1 : LastVis (l ++ trimSpace s ++ r) (l ++ q) [35] (w ++ r) := (hlv.prepend (utf8_ws hl)).extend (utf8_ws hr) (vis_ws hr)
  rw [← e] at h1
  obtain ⟨p, m, e2, hm⟩ := h _ _ h1
  rcases List.eq_nil_or_concat q with rfl | ⟨q', b, rfl⟩
  · rw [List.append_nil] at e2
    have := whitespace_bytes hl m (by rw [e2]; simp)
    exfalso
    rcases hm with rfl | rfl <;> revert this <;> decide
  · rw [List.concat_eq_append, ← List.append_assoc] at e2
    have := List.append_inj' e2 rfl
    simp only [List.cons.injEq, and_true] at this
    exact ⟨q', b, by simp, by rw [this.2]; exact hm⟩

theorem table_ok (hun : ∀ s, Utf8 s → Keeps s (un s)) (cfg : Config) (al : List Bytes) (header : Option (List RawCell)) (normal : List (List RawCell))
    (cap : Option Bytes) (h : ∀ r ∈ headerCells header :: normal, ∀ c ∈ r, Utf8 c.rendered) (hc : ∀ c ∈ cap, Utf8 c ∧ EndsOk c) {out : Bytes}
    (e : table cfg un al header normal cap = some out) :
    Utf8 out ∧ (rawVis (headerCells header :: normal) ++ cap.elim [] visibleChars).Sublist (visibleChars out) ∧ EndsOk out := by
  rw [table, Option.map_eq_some_iff] at e
  obtain ⟨rows, e1, rfl⟩ := e
  obtain ⟨hg, hv⟩ := tableRows_ok hun cfg header normal h e1
  have hf := fillUp_ok hg (calculateMaxCounts rows).length
  rw [render.eq_def]
  simp only
  generalize calculateMaxCounts rows = counts at hf ⊢
  generalize fillUpRows rows counts.length = rows2 at hf ⊢
  have hnn : Utf8 b!"\n\n" := utf8_of_ascii (by decide)
  have hn : Utf8 b!"\n" := utf8_of_ascii (by decide)
  have e0 : EndsOk b!"\n\n" := ends_blank (by decide)
  have e1 : EndsOk b!"\n" := ends_blank (by decide)
  obtain ⟨r1, r2, r3⟩ := row_ok cfg.padding counts (cells := rows2.headD []) (by
    cases rows2 with
    | nil => simp
    | cons x rows2 => exact hf.1 x (by simp))
  obtain ⟨u1, u2⟩ := underline_ok cfg.padding al counts
  obtain ⟨b1, b2, b3⟩ := pieces_ok (fun cells => row cfg.padding counts cells ++ b!"\n") rowVis (rows2.drop 1) (by
    intro x hx
    obtain ⟨x1, x2, x3⟩ := row_ok cfg.padding counts (hf.1 x (List.mem_of_mem_drop hx))
    refine ⟨utf8_append x1 hn, ?_, x3.append e1 x1 hn⟩
    rw [vis_append hn]
    exact x2.trans (List.sublist_append_left _ _))
  have hgv : (gridVis rows2).Sublist (visibleChars (row cfg.padding counts (rows2.headD [])) ++
      visibleChars ((rows2.drop 1).flatMap fun cells => row cfg.padding counts cells ++ b!"\n")) := by
    cases rows2 with
    | nil => exact List.nil_sublist _
    | cons x rows2 =>
      rw [gridVis, List.flatMap_cons]
      exact r2.append b2
  generalize row cfg.padding counts (rows2.headD []) = R at *
  generalize headerUnderline cfg.padding al counts = U at *
  generalize ((rows2.drop 1).flatMap fun cells => row cfg.padding counts cells ++ b!"\n") = B at *
  have a1 := utf8_append hnn r1
  have a2 := utf8_append a1 hn
  have a3 := utf8_append a2 u1
  have a4 := utf8_append a3 hn
  have a5 := utf8_append a4 b1
  have fin : ∀ c v, Utf8 c → EndsOk c → v.Sublist (visibleChars c) →
      Utf8 (b!"\n\n" ++ R ++ b!"\n" ++ U ++ b!"\n" ++ B ++ c ++ b!"\n\n") ∧
      (rawVis (headerCells header :: normal) ++ v).Sublist (visibleChars (b!"\n\n" ++ R ++ b!"\n" ++ U ++ b!"\n" ++ B ++ c ++ b!"\n\n")) ∧
      EndsOk (b!"\n\n" ++ R ++ b!"\n" ++ U ++ b!"\n" ++ B ++ c ++ b!"\n\n") := by
    intro c v hu he hcv
    have a6 := utf8_append a5 hu
    refine ⟨utf8_append a6 hnn, ?_, ?_⟩
    · rw [vis_append hnn, vis_append hu, vis_append b1, vis_append hn, vis_append u1, vis_append hn, vis_append r1]
      refine List.Sublist.trans ?_ (List.sublist_append_left _ _)
      refine List.Sublist.append ?_ hcv
      refine hv.trans ?_
      rw [← hf.2]
      refine hgv.trans ?_
      refine List.Sublist.append ?_ (List.Sublist.refl _)
      refine List.Sublist.trans ?_ (List.sublist_append_left _ _)
      refine List.Sublist.trans ?_ (List.sublist_append_left _ _)
      refine List.Sublist.trans ?_ (List.sublist_append_left _ _)
      exact List.sublist_append_right _ _
    · exact ((((((e0.append r3 hnn r1).append e1 a1 hn).append u2 a2 u1).append e1 a3 hn).append b3 a4 b1).append he a5 hu).append e0 a6 hnn
  cases cap with
  | none => exact fin [] [] utf8_nil (ends_blank rfl) (List.Sublist.refl _)
  | some c =>
    have hcc := hc c rfl
    have ht := (keeps_trimSpace hcc.1)
    simp only [caption, Option.elim]
    split
    · rename_i x hx
      split at hx
      · simp at hx
      · simp only [Option.some.injEq] at hx
        rw [← hx]
        refine fin _ _ (utf8_append hnn ht.1) (e0.append hcc.2.trim hnn ht.1) ?_
        rw [vis_append ht.1]
        exact ht.2.trans (List.sublist_append_right _ _)
    · rename_i hx
      split at hx
      · rename_i h0
        have e9 : trimSpace c = [] := by simpa using h0
        have := ht.2
        rw [e9] at this
        exact fin [] _ utf8_nil (ends_blank rfl) this
      · simp at hx

end Verif.Chars
