import Verif.Proofs.SizeRender
import Verif.Proofs.CharsMain
/-!
# The size of tables
-/

namespace Verif.Size
open Verif Verif.TextUtils Verif.Escape Verif.Commonmark Verif.Spec Verif.Render Verif.DomUtils Verif.Table

/-! ## Lists -/

theorem flatMap_length {α β : Type} (f : α → List β) (k : Nat) : ∀ l : List α, (∀ x ∈ l, (f x).length ≤ k) → (l.flatMap f).length ≤ l.length * k
  | [], _ => by simp
  | x :: l, h => by
    have h1 := flatMap_length f k l fun y hy => h y (by simp [hy])
    have h2 := h x (by simp)
    rw [List.flatMap_cons, List.length_append, List.length_cons, Nat.add_mul]; omega

theorem mapM_all {α β : Type} {f : α → Option β} {P : β → Prop} : ∀ {l : List α} {r : List β}, l.mapM f = some r →
    (∀ x ∈ l, ∀ y, f x = some y → P y) → r.length = l.length ∧ ∀ y ∈ r, P y
  | [], r, h, _ => by
    simp at h; subst h; simp
  | x :: l, r, h, hp => by
    rw [List.mapM_cons] at h
    cases hx : f x with
    | none => rw [hx] at h; simp at h
    | some y =>
      cases hl : l.mapM f with
      | none => rw [hx, hl] at h; simp at h
      | some ys =>
        rw [hx, hl] at h
        simp at h
        subst h
        have ih := mapM_all hl fun z hz => hp z (by simp [hz])
        refine ⟨by simp [ih.1], ?_⟩
        intro z hz
        rcases List.mem_cons.1 hz with rfl | hz
        · exact hp x (by simp) _ hx
        · exact ih.2 z hz

/-! ## Grids -/

/-- At most so many rows, columns and bytes per cell. -/
structure Grid (R C M : Nat) (l : List (List Bytes)) : Prop where
  rows : l.length ≤ R
  columns : ∀ row ∈ l, row.length ≤ C
  cells : ∀ row ∈ l, ∀ cell ∈ row, cell.length ≤ M

theorem growSlice_length {α : Type} (l : List α) (n : Nat) (a : α) : (growSlice l n a).length = max l.length n := by
  rw [growSlice, List.length_append, List.length_replicate]; omega

theorem mem_growSlice {α : Type} {l : List α} {n : Nat} {a x : α} (h : x ∈ growSlice l n a) : x ∈ l ∨ x = a := by
  rw [growSlice, List.mem_append, List.mem_replicate] at h
  rcases h with h | h
  · exact .inl h
  · exact .inr h.2

theorem mem_modify {α : Type} (f : α → α) : ∀ (l : List α) (i : Nat), ∀ x ∈ l.modify i f, x ∈ l ∨ ∃ y ∈ l, x = f y
  | [], i, x, h => by cases i <;> simp at h
  | a :: l, 0, x, h => by
    rw [List.modify_zero_cons] at h
    rcases List.mem_cons.1 h with rfl | h
    · exact .inr ⟨a, by simp, rfl⟩
    · exact .inl (by simp [h])
  | a :: l, i + 1, x, h => by
    rw [List.modify_succ_cons] at h
    rcases List.mem_cons.1 h with rfl | h
    · exact .inl (by simp)
    · rcases mem_modify f l i x h with h | ⟨y, hy, e⟩
      · exact .inl (by simp [h])
      · exact .inr ⟨y, by simp [hy], e⟩

/-- A modification that stays within these bounds. -/
structure ModFits (R C M : Nat) (m : Mod) : Prop where
  y : m.y + 1 ≤ R
  x : m.x ≤ C
  data : m.data.length ≤ M

theorem grid_applyMod {R C M : Nat} {rows : List (List Bytes)} (h : Grid R C M rows) {m : Mod} (hm : ModFits R C M m) :
    Grid R (C + 1) M (applyMod rows m) := by
  have hrow : ∀ row ∈ growSlice rows (m.y + 1) [], row.length ≤ C ∧ ∀ cell ∈ row, cell.length ≤ M := by
    intro row hr
    rcases mem_growSlice hr with hr | rfl
    · exact ⟨h.columns row hr, h.cells row hr⟩
    · simp
  have hx := hm.x
  have hins : ∀ row : List Bytes, row.length ≤ C → (∀ cell ∈ row, cell.length ≤ M) →
      (insertAt (growSlice row m.x []) m.x m.data).length ≤ C + 1 ∧ ∀ cell ∈ insertAt (growSlice row m.x []) m.x m.data, cell.length ≤ M := by
    intro row h1 h2
    refine ⟨?_, ?_⟩
    · have := growSlice_length row m.x []
      rw [insertAt, List.length_append, List.length_cons, List.length_take, List.length_drop]; omega
    · intro cell hc
      rw [insertAt, List.mem_append, List.mem_cons] at hc
      have hg : ∀ cell ∈ growSlice row m.x [], cell.length ≤ M := by
        intro cell hc
        rcases mem_growSlice hc with hc | rfl
        · exact h2 cell hc
        · simp
      rcases hc with hc | rfl | hc
      · exact hg cell (List.mem_of_mem_take hc)
      · exact hm.data
      · exact hg cell (List.mem_of_mem_drop hc)
  have key : ∀ row ∈ applyMod rows m, row.length ≤ C + 1 ∧ ∀ cell ∈ row, cell.length ≤ M := by
    intro row hr
    rw [applyMod] at hr
    rcases mem_modify _ _ _ row hr with hr' | ⟨r, hr', rfl⟩
    · exact ⟨by have := (hrow row hr').1; omega, (hrow row hr').2⟩
    · exact hins r (hrow r hr').1 (hrow r hr').2
  refine ⟨?_, fun row hr => (key row hr).1, fun row hr => (key row hr).2⟩
  rw [applyMod, List.length_modify, growSlice_length]
  have := h.rows
  have := hm.y
  omega

theorem Grid.mono {R C C' M : Nat} {rows : List (List Bytes)} (h : Grid R C M rows) (hc : C ≤ C') : Grid R C' M rows :=
  ⟨h.rows, fun r hr => Nat.le_trans (h.columns r hr) hc, h.cells⟩

theorem grid_mods {R C0 M : Nat} : ∀ (mods : List Mod) {C : Nat} {rows : List (List Bytes)}, C0 ≤ C → Grid R C M rows → (∀ m ∈ mods, ModFits R C0 M m) →
    Grid R (C + mods.length) M (applyModifications rows mods)
  | [], C, rows, _, h, _ => h
  | m :: mods, C, rows, hC, h, hm => by
    have h0 := hm m (by simp)
    have h1 := grid_applyMod h (m := m) ⟨h0.y, Nat.le_trans h0.x hC, h0.data⟩
    have h2 := grid_mods mods (by omega) h1 fun x hx => hm x (by simp [hx])
    rw [List.length_cons, show C + (mods.length + 1) = C + 1 + mods.length by omega]
    exact h2

theorem grid_groups {R C0 M k : Nat} : ∀ (gs : List (List Mod)) {C : Nat} {rows : List (List Bytes)}, C0 ≤ C → Grid R C M rows →
    (∀ g ∈ gs, g.length ≤ k ∧ ∀ m ∈ g, ModFits R C0 M m) → Grid R (C + gs.length * k) M (gs.foldl applyModifications rows)
  | [], C, rows, _, h, _ => by simpa using h
  | g :: gs, C, rows, hC, h, hm => by
    have h1 := grid_mods g hC h (hm g (by simp)).2
    have h2 := grid_groups (k := k) gs (by omega) h1 fun x hx => hm x (by simp [hx])
    rw [List.foldl_cons]
    refine h2.mono ?_
    have := (hm g (by simp)).1
    rw [List.length_cons, Nat.add_mul]; omega

/-! ## Collecting the cells -/

/-- A cell with so many bytes that spans so many rows and columns. -/
structure CellFits (M W : Nat) (c : RawCell) : Prop where
  rendered : c.rendered.length ≤ M
  rowspan : spanAttr c.rowspan ≤ W
  colspan : spanAttr c.colspan ≤ W

theorem calcMods_length (row col rs cs : Nat) (d : Bytes) (hr : 1 ≤ rs) : (calculateModifications row col rs cs d).length ≤ rs * cs := by
  rw [calculateModifications]
  split
  · simp
  · have h1 := flatMap_length (fun dy => (List.range cs).map fun dx => ({ y := row + dy, x := col + dx, data := d } : Mod)) cs ((List.range rs).drop 1)
      (by intro x _; simp)
    rw [List.length_append, List.length_map]
    simp only [List.length_drop, List.length_range] at *
    obtain ⟨k, rfl⟩ : ∃ k, rs = k + 1 := ⟨rs - 1, by omega⟩
    rw [Nat.add_mul]
    have : k + 1 - 1 = k := by omega
    rw [this] at h1
    omega

theorem spanAttr_pos (a : Option Bytes) : 1 ≤ spanAttr a := by
  rw [spanAttr.eq_def]
  split
  · omega
  · split
    · omega
    · split <;> omega

theorem calcMods_fits {row col rs cs W M i : Nat} {d : Bytes} (hrow : row ≤ i) (hcol : col ≤ W) (hr : rs ≤ W) (hc : cs ≤ W) (hd : d.length ≤ M) :
    ∀ m ∈ calculateModifications row col rs cs d, ModFits (i + W + 1) (2 * W) M m := by
  intro m hm
  rw [calculateModifications] at hm
  split at hm
  · simp at hm
  · rw [List.mem_append, List.mem_map, List.mem_flatMap] at hm
    rcases hm with ⟨dx, h1, rfl⟩ | ⟨dy, h1, hm⟩
    · have := List.mem_range.1 (List.mem_of_mem_drop h1)
      exact ⟨by dsimp only; omega, by dsimp only; omega, hd⟩
    · rw [List.mem_map] at hm
      obtain ⟨dx, h2, rfl⟩ := hm
      have := List.mem_range.1 (List.mem_of_mem_drop h1)
      have := List.mem_range.1 h2
      exact ⟨by dsimp only; omega, by dsimp only; omega, hd⟩

theorem cellContent_length {un : Bytes → Bytes} (hl : ∀ s, (un s).length ≤ s.length) (s : Bytes) : (cellContent un s).length ≤ s.length := by
  rw [cellContent]
  refine Nat.le_trans (hl _) (Nat.le_trans (replaceAll_length_le (by simp) (by simp) _) (trimSpace_length s))

theorem mergedContent_length (cfg : Table.Config) (s : Bytes) : (mergedContent cfg s).length ≤ s.length := by
  rw [mergedContent]; split <;> simp

theorem row_fits {un : Bytes → Bytes} (hl : ∀ s, (un s).length ≤ s.length) (cfg : Table.Config) {M W i r : Nat} (hr : r ≤ i) {cells : List RawCell}
    (hn : cells.length ≤ W) (hc : ∀ c ∈ cells, CellFits M W c) :
    ((collectCellsInRow cfg un r cells).1.length ≤ W ∧ ∀ cell ∈ (collectCellsInRow cfg un r cells).1, cell.length ≤ M) ∧
    (collectCellsInRow cfg un r cells).2.length ≤ W * (W * W) ∧ ∀ m ∈ (collectCellsInRow cfg un r cells).2, ModFits (i + W + 1) (2 * W) M m := by
  rw [collectCellsInRow]
  dsimp only
  refine ⟨⟨by simpa using hn, ?_⟩, ?_, ?_⟩
  · intro cell h
    obtain ⟨c, hcm, rfl⟩ := List.mem_map.1 h
    exact Nat.le_trans (cellContent_length hl _) (hc c hcm).rendered
  · refine Nat.le_trans (flatMap_length _ (W * W) _ ?_) ?_
    · rintro ⟨c, index⟩ hx
      obtain ⟨-, -, hci⟩ := List.mem_zipIdx hx
      have hcm : c ∈ cells := by rw [hci]; exact List.getElem_mem _
      exact Nat.le_trans (calcMods_length _ _ _ _ _ (spanAttr_pos _)) (Nat.mul_le_mul (hc c hcm).rowspan (hc c hcm).colspan)
    · rw [List.length_zipIdx]
      exact Nat.mul_le_mul_right _ hn
  · intro m hm
    obtain ⟨⟨c, index⟩, hx, hm⟩ := List.mem_flatMap.1 hm
    obtain ⟨h1, h2, hci⟩ := List.mem_zipIdx hx
    have hcm : c ∈ cells := by rw [hci]; exact List.getElem_mem _
    refine calcMods_fits hr ?_ (hc c hcm).rowspan (hc c hcm).colspan ?_ m hm
    · omega
    · exact Nat.le_trans (mergedContent_length _ _) (Nat.le_trans (cellContent_length hl _) (hc c hcm).rendered)

theorem both_fits {un : Bytes → Bytes} (hl : ∀ s, (un s).length ≤ s.length) (cfg : Table.Config) {M W : Nat} {header : Option (List RawCell)}
    {normal : List (List RawCell)} (hh : ∀ cells ∈ header, cells.length ≤ W ∧ ∀ c ∈ cells, CellFits M W c) (hn : normal.length ≤ W)
    (hc : ∀ cells ∈ normal, cells.length ≤ W ∧ ∀ c ∈ cells, CellFits M W c) :
    (collectBoth cfg un header normal).length ≤ W + 1 ∧ ∀ p ∈ collectBoth cfg un header normal,
      (p.1.length ≤ W ∧ ∀ cell ∈ p.1, cell.length ≤ M) ∧ p.2.length ≤ W * (W * W) ∧ ∀ m ∈ p.2, ModFits (W + W + 1) (2 * W) M m := by
  rw [collectBoth.eq_def]
  refine ⟨by simp only [List.length_cons, List.length_map, List.length_zipIdx]; omega, ?_⟩
  intro p hp
  rcases List.mem_cons.1 hp with rfl | hp
  · cases header with
    | none => simp
    | some cells => exact row_fits hl cfg (Nat.zero_le _) (hh cells rfl).1 (hh cells rfl).2
  · obtain ⟨⟨cells, index⟩, hx, rfl⟩ := List.mem_map.1 hp
    obtain ⟨h1, h2, hci⟩ := List.mem_zipIdx hx
    have hcm : cells ∈ normal := by rw [hci]; exact List.getElem_mem _
    exact row_fits hl cfg (by omega) (hc cells hcm).1 (hc cells hcm).2

theorem Grid.subset {R C M : Nat} {rows rows' : List (List Bytes)} (h : Grid R C M rows) (hs : rows'.Sublist rows) : Grid R C M rows' :=
  ⟨Nat.le_trans hs.length_le h.rows, fun r hr => h.columns r (hs.subset hr), fun r hr => h.cells r (hs.subset hr)⟩

theorem removeEmptyRows_sublist (rows : List (List Bytes)) : (removeEmptyRows rows).Sublist rows := by
  cases rows with
  | nil => exact List.Sublist.refl _
  | cons r rows =>
    rw [removeEmptyRows]
    split
    · exact List.nil_sublist _
    · exact List.filter_sublist.cons_cons _

theorem removeFirst_sublist (rows : List (List Bytes)) : (removeFirstRowIfEmpty rows).Sublist rows := by
  cases rows with
  | nil => exact List.Sublist.refl _
  | cons r rows =>
    rw [removeFirstRowIfEmpty]
    split
    · exact List.sublist_cons_self _ _
    · exact List.Sublist.refl _

theorem collectRows_fits {un : Bytes → Bytes} (hl : ∀ s, (un s).length ≤ s.length) (cfg : Table.Config) {M W : Nat} (hW : 1 ≤ W) {header : Option (List RawCell)}
    {normal : List (List RawCell)} (hh : ∀ cells ∈ header, cells.length ≤ W ∧ ∀ c ∈ cells, CellFits M W c) (hn : normal.length ≤ W)
    (hc : ∀ cells ∈ normal, cells.length ≤ W ∧ ∀ c ∈ cells, CellFits M W c) :
    Grid (W + W + 1) (2 * W + (W + 1) * (W * (W * W))) M (collectRows cfg un header normal) := by
  have hb := both_fits hl cfg hh hn hc
  have h0 : Grid (W + W + 1) (2 * W) M ((collectBoth cfg un header normal).map (·.1)) := by
    refine ⟨by rw [List.length_map]; omega, ?_, ?_⟩
    · intro row hr
      obtain ⟨p, hp, rfl⟩ := List.mem_map.1 hr
      have := (hb.2 p hp).1.1
      omega
    · intro row hr
      obtain ⟨p, hp, rfl⟩ := List.mem_map.1 hr
      exact (hb.2 p hp).1.2
  have h1 : Grid (W + W + 1) (2 * W + (W + 1) * (W * (W * W))) M
      (applyGroupedModifications ((collectBoth cfg un header normal).map (·.1)) ((collectBoth cfg un header normal).map (·.2))) := by
    rw [applyGroupedModifications]
    refine (grid_groups (k := W * (W * W)) _ (Nat.le_refl _) h0 ?_).mono ?_
    · intro g hg
      rw [List.mem_reverse] at hg
      obtain ⟨p, hp, rfl⟩ := List.mem_map.1 hg
      exact (hb.2 p hp).2
    · rw [List.length_reverse, List.length_map]
      have := Nat.mul_le_mul_right (W * (W * W)) hb.1
      omega
  rw [collectRows]
  generalize applyGroupedModifications _ _ = rows at h1
  split
  · split
    · exact h1.subset ((removeFirst_sublist _).trans (removeEmptyRows_sublist _))
    · exact h1.subset (removeFirst_sublist _)
  · split
    · exact h1.subset (removeEmptyRows_sublist _)
    · exact h1

theorem tableRows_fits {un : Bytes → Bytes} (hl : ∀ s, (un s).length ≤ s.length) (cfg : Table.Config) {M W : Nat} (hW : 1 ≤ W) {header : Option (List RawCell)}
    {normal : List (List RawCell)} (hh : ∀ cells ∈ header, cells.length ≤ W ∧ ∀ c ∈ cells, CellFits M W c) (hn : normal.length ≤ W)
    (hc : ∀ cells ∈ normal, cells.length ≤ W ∧ ∀ c ∈ cells, CellFits M W c) {rows : List (List Bytes)} (h : tableRows cfg un header normal = some rows) :
    Grid (W + W + 1) (2 * W + (W + 1) * (W * (W * W))) (6 * M) rows := by
  have hg := collectRows_fits hl cfg hW hh hn hc
  rw [tableRows] at h
  generalize collectRows cfg un header normal = rs at *
  have h6 : Grid (W + W + 1) (2 * W + (W + 1) * (W * (W * W))) (6 * M) rs := ⟨hg.rows, hg.columns, fun r hr c hc => by have := hg.cells r hr c hc; omega⟩
  split at h
  · simp at h
  · split at h
    · cases h
      refine ⟨by rw [List.length_map]; exact hg.rows, ?_, ?_⟩
      · intro row hr
        obtain ⟨r, hr', rfl⟩ := List.mem_map.1 hr
        rw [List.length_map]; exact hg.columns r hr'
      · intro row hr cell hc
        obtain ⟨r, hr', rfl⟩ := List.mem_map.1 hr
        obtain ⟨c, hc', rfl⟩ := List.mem_map.1 hc
        exact Nat.le_trans (replaceAll_length_mul (by simp) (k := 6) (by omega) (by simp) c) (Nat.mul_le_mul_left _ (hg.cells r hr' c hc'))
    · split at h
      · simp at h
      · cases h; exact h6

/-! ## Writing a table -/

theorem maxCountsRow_le (M : Nat) : ∀ (counts : List Nat) (cells : List Bytes), (∀ n ∈ counts, n ≤ M + 1) → (∀ c ∈ cells, c.length ≤ M) →
    ∀ n ∈ maxCountsRow counts cells, n ≤ M + 1
  | counts, [], h, _ => by cases counts <;> simpa [maxCountsRow] using h
  | [], cell :: cells, h, hc => by
    intro n hn
    rw [maxCountsRow] at hn
    rcases List.mem_cons.1 hn with rfl | hn
    · have h1 := runeCount_length cell
      have h2 := hc cell (by simp)
      rw [defaultCellWidth]; omega
    · exact maxCountsRow_le M [] cells (by simp) (fun c hc' => hc c (by simp [hc'])) n hn
  | m :: counts, cell :: cells, h, hc => by
    intro n hn
    rw [maxCountsRow] at hn
    rcases List.mem_cons.1 hn with rfl | hn
    · have h1 := runeCount_length cell
      have h2 := hc cell (by simp)
      have h3 := h m (by simp)
      omega
    · exact maxCountsRow_le M counts cells (fun x hx => h x (by simp [hx])) (fun c hc' => hc c (by simp [hc'])) n hn

theorem counts_fit {C M : Nat} : ∀ (rows : List (List Bytes)) (counts : List Nat), counts.length ≤ C → (∀ n ∈ counts, n ≤ M + 1) →
    (∀ row ∈ rows, row.length ≤ C ∧ ∀ c ∈ row, c.length ≤ M) →
    (rows.foldl maxCountsRow counts).length ≤ C ∧ ∀ n ∈ rows.foldl maxCountsRow counts, n ≤ M + 1
  | [], counts, h1, h2, _ => ⟨h1, h2⟩
  | row :: rows, counts, h1, h2, h => by
    rw [List.foldl_cons]
    refine counts_fit rows _ ?_ (maxCountsRow_le M _ _ h2 (h row (by simp)).2) fun r hr => h r (by simp [hr])
    rw [Table.maxCountsRow_length]
    have := (h row (by simp)).1
    omega

theorem tableRow_length (padding : Padding) {C M : Nat} {counts : List Nat} (hc : ∀ n ∈ counts, n ≤ M + 1) {cells : List Bytes} (hn : cells.length ≤ C)
    (hl : ∀ c ∈ cells, c.length ≤ M) : (row padding counts cells).length ≤ C * (2 * M + 5) := by
  rw [row]
  refine Nat.le_trans (flatMap_length _ (2 * M + 5) _ ?_) ?_
  · rintro ⟨cell, i⟩ hx
    obtain ⟨h1, h2, hci⟩ := List.mem_zipIdx hx
    have hcm : cell ∈ cells := by rw [hci]; exact List.getElem_mem _
    have hl1 := hl cell hcm
    have hg : counts.getD i 0 ≤ M + 1 := by
      rw [List.getD_eq_getElem?_getD]
      cases he : counts[i]? with
      | none => simp
      | some n => exact hc n (List.mem_of_getElem? he)
    have e1 : ((if i = 0 then b!"|" else []) : Bytes).length ≤ 1 := by split <;> simp
    have e2 : ((if padding = .aligned ∨ padding = .minimal then [SP] else []) : Bytes).length ≤ 1 := by split <;> simp
    have e3 : ((if padding = .aligned then List.replicate (counts.getD i 0 - runeCount cell) SP else []) : Bytes).length ≤ M + 1 := by
      split
      · rw [List.length_replicate]; omega
      · simp
    simp only [rowCell, List.length_append, List.length_cons, List.length_nil] at *
    omega
  · rw [List.length_zipIdx]
    exact Nat.mul_le_mul_right _ hn

theorem underline_length (padding : Padding) (alignments : List Bytes) {C M : Nat} {counts : List Nat} (hn : counts.length ≤ C) (hc : ∀ n ∈ counts, n ≤ M + 1) :
    (headerUnderline padding alignments counts).length ≤ C * (2 * M + 5) := by
  rw [headerUnderline]
  refine Nat.le_trans (flatMap_length _ (2 * M + 5) _ ?_) ?_
  · rintro ⟨n, i⟩ hx
    obtain ⟨h1, h2, hci⟩ := List.mem_zipIdx hx
    have hcm : n ∈ counts := by rw [hci]; exact List.getElem_mem _
    have hl1 := hc n hcm
    have e1 : ((if i = 0 then b!"|" else []) : Bytes).length ≤ 1 := by split <;> simp
    dsimp only
    generalize alignmentFor alignments i = al
    have e2 : ((if al = b!"left" ∨ al = b!"center" then b!":" else b!"-") : Bytes).length = 1 := by split <;> rfl
    have e3 : ((if al = b!"right" ∨ al = b!"center" then b!":" else b!"-") : Bytes).length = 1 := by split <;> rfl
    have e4 : ((if padding = .aligned then List.replicate n 45 else b!"-") : Bytes).length ≤ M + 1 := by
      split
      · rw [List.length_replicate]; omega
      · simp
    simp only [underlineCell, List.length_append, List.length_cons, List.length_nil] at *
    omega
  · rw [List.length_zipIdx]
    exact Nat.mul_le_mul_right _ hn

theorem tableRender_length (padding : Padding) (alignments : List Bytes) {R C M N : Nat} {rows : List (List Bytes)} (hg : Grid R C M rows) {cap : Option Bytes}
    (hcap : ∀ c ∈ cap, c.length ≤ N) : (Table.render padding alignments rows cap).length ≤ (R + 2) * (C * (2 * M + 5) + 1) + N + 8 := by
  have hc := counts_fit (C := C) (M := M) rows [] (by simp) (by simp) fun r hr => ⟨hg.columns r hr, hg.cells r hr⟩
  have hfill : Grid R C M (fillUpRows rows (calculateMaxCounts rows).length) := by
    have hC : (calculateMaxCounts rows).length ≤ C := hc.1
    refine ⟨by rw [fillUpRows, List.length_map]; exact hg.rows, ?_, ?_⟩
    · intro row hr
      obtain ⟨r, hr', rfl⟩ := List.mem_map.1 hr
      have := hg.columns r hr'
      rw [List.length_append, List.length_replicate]; omega
    · intro row hr cell hc
      obtain ⟨r, hr', rfl⟩ := List.mem_map.1 hr
      rcases List.mem_append.1 hc with hc | hc
      · exact hg.cells r hr' cell hc
      · rw [(List.mem_replicate.1 hc).2]; simp
  rw [Table.render.eq_def]
  dsimp only
  have hcc : ∀ n ∈ calculateMaxCounts rows, n ≤ M + 1 := hc.2
  have hu := underline_length padding alignments (C := C) hc.1 hcc
  rw [calculateMaxCounts] at *
  generalize rows.foldl maxCountsRow [] = counts at *
  generalize fillUpRows rows counts.length = rs at *
  have h1 : (row padding counts (rs.headD [])).length ≤ C * (2 * M + 5) := by
    cases rs with
    | nil => simp [row]
    | cons r rs => exact tableRow_length padding hcc (hfill.columns r (by simp)) (hfill.cells r (by simp))
  have h2 := flatMap_length (fun cells => row padding counts cells ++ b!"\n") (C * (2 * M + 5) + 1) (rs.drop 1) (by
    intro r hr
    have hr := List.mem_of_mem_drop hr
    have := tableRow_length padding hcc (hfill.columns r hr) (hfill.cells r hr)
    simp only [List.length_append, List.length_cons, List.length_nil]; omega)
  have h3 : (rs.drop 1).length * (C * (2 * M + 5) + 1) ≤ R * (C * (2 * M + 5) + 1) :=
    Nat.mul_le_mul_right _ (by have := hfill.rows; rw [List.length_drop]; omega)
  generalize C * (2 * M + 5) = X at *
  rw [Nat.add_mul]
  cases cap with
  | none => simp only [List.length_append, List.length_cons, List.length_nil] at *; omega
  | some c =>
    have := hcap c rfl
    simp only [List.length_append, List.length_cons, List.length_nil] at *; omega

/-! ## Sizes of parts of a page -/

theorem size_mem : (∀ n, ∀ y ∈ nodes n, pageSize y ≤ pageSize n) ∧ (∀ ns, ∀ y ∈ nodesL ns, pageSize y ≤ pageSizeL ns) := by
  apply Dom.induct
  · intro d y hy; rw [nodes, List.mem_singleton] at hy; subst hy; omega
  · intro d y hy; rw [nodes, List.mem_singleton] at hy; subst hy; omega
  · intro d y hy; rw [nodes, List.mem_singleton] at hy; subst hy; omega
  · intro cs ih y hy
    rw [nodes] at hy
    rcases List.mem_cons.1 hy with rfl | hy
    · omega
    · have := ih y hy; simp only [pageSize]; omega
  · intro n a cs ih y hy
    rw [nodes] at hy
    rcases List.mem_cons.1 hy with rfl | hy
    · omega
    · have := ih y hy; simp only [pageSize]; omega
  · intro y hy; simp [nodesL] at hy
  · intro n ns ih1 ih2 y hy
    rw [nodesL, List.mem_append] at hy
    rcases hy with hy | hy
    · have := ih1 y hy; simp only [pageSizeL]; omega
    · have := ih2 y hy; simp only [pageSizeL]; omega

theorem nodes_count : (∀ n, (nodes n).length ≤ pageSize n) ∧ (∀ ns, (nodesL ns).length ≤ pageSizeL ns) := by
  apply Dom.induct
  · intro d; simp [nodes, pageSize]
  · intro d; simp [nodes, pageSize]
  · intro d; simp [nodes, pageSize]
  · intro cs ih; simp only [nodes, pageSize, List.length_cons]; omega
  · intro n a cs ih; simp only [nodes, pageSize, List.length_cons]; omega
  · simp [nodesL, pageSizeL]
  · intro n ns ih1 ih2; simp only [nodesL, pageSizeL, List.length_append]; omega

theorem children_lt (n : Node) : pageSizeL n.children + 1 ≤ pageSize n := by
  cases n <;> simp only [Node.children, pageSize, pageSizeL] <;> omega

theorem below_size {p : Path} {n : Node} {z : Path × Node} (h : z ∈ below p n) : pageSize z.2 + 1 ≤ pageSize n := by
  have h1 : z.2 ∈ (below p n).map (·.2) := List.mem_map.2 ⟨z, h, rfl⟩
  rw [TableNodes.below_snd.1] at h1
  have h2 := size_mem.2 _ _ h1
  have h3 := children_lt n
  omega

theorem below_length (p : Path) (n : Node) : (below p n).length + 1 ≤ pageSize n := by
  have h1 : (below p n).length = ((below p n).map (·.2)).length := by simp
  rw [TableNodes.below_snd.1] at h1
  have h2 := nodes_count.2 n.children
  have h3 := children_lt n
  rw [inside] at h1
  omega

theorem cellsOf_length {t : Node} {r : Path × Node} (h : r = ([], t) ∨ r ∈ below [] t) : (cellsOf r).length ≤ pageSize t := by
  have h1 : (cellsOf r).length ≤ (below r.1 r.2).length := List.length_filter_le _ _
  have h2 := below_length r.1 r.2
  rcases h with rfl | h
  · dsimp only at *; omega
  · have := below_size h
    omega

theorem selectRows_length (t : Node) (h : Option (Path × Node)) : (selectRows t h).length ≤ pageSize t := by
  have h1 : (selectRows t h).length ≤ (([], t) :: below [] t).length := List.length_filter_le _ _
  have h2 := below_length [] t
  rw [List.length_cons] at h1
  omega

theorem readDigits_value : ∀ (ds : Bytes) (acc n : Nat), readDigits acc ds = some n → n = ds.foldl (fun n d => 10 * n + (d.toNat - 48)) acc
  | [], acc, n, h => by rw [readDigits] at h; cases h; rfl
  | d :: ds, acc, n, h => by
    rw [readDigits] at h
    split at h
    · rw [readDigits_value ds _ n h, List.foldl_cons, Nat.mul_comm acc]
    · cases h

theorem atoi_value {s : Bytes} {i : Int} (h : atoi s = some i) : i.toNat ≤ decimalValue s := by
  simp only [atoi] at h
  generalize hd : (if s.head? = some 45 ∨ s.head? = some 43 then s.drop 1 else s) = ds at h
  by_cases h0 : ds = []
  · rw [if_pos h0] at h; cases h
  · rw [if_neg h0] at h
    cases hn : readDigits 0 ds with
    | none => rw [hn] at h; cases h
    | some n =>
      rw [hn] at h
      have hv := readDigits_value _ _ _ hn
      by_cases h1 : s.head? = some 45
      · have : i ≤ 0 := by
          simp only [h1, if_true] at h
          split at h
          · cases h; omega
          · cases h
        omega
      · have : i = n := by
          simp only [h1, if_false] at h
          split at h
          · cases h; rfl
          · cases h
        subst this
        simp only [Int.toNat_natCast]
        split at hd
        · rename_i h2
          subst hd
          cases s with
          | nil => simp at h1 h2
          | cons b s =>
            have h2 : b = 43 := by simpa [show ¬ b = 45 by simpa using h1] using h2
            rw [hv, h2]
            exact Nat.le_refl _
        · subst hd; exact Nat.le_of_eq hv

theorem span_attr {key : Bytes} (hk : key = b!"rowspan" ∨ key = b!"colspan") (n : Node) : spanAttr (n.attr? key) ≤ pageSize n := by
  have hpos := size_pos n
  cases n with
  | elem m a cs =>
    have h : ∀ a : List (Bytes × Bytes), spanAttr ((a.find? fun x => x.1 == key).map (·.2)) ≤ 1 + attrsSize a := by
      intro a
      induction a with
      | nil => simp [spanAttr]
      | cons x a ih =>
        rw [List.find?_cons]
        rw [attrsSize] at *
        split
        · rename_i he
          have he : x.1 = key := by simpa using he
          have hs : spanAttr (some x.2) ≤ 1 + spanNumber x.1 x.2 := by
            rw [spanNumber, if_pos (by rw [he]; exact hk), spanAttr.eq_def]
            dsimp only
            cases hi : Commonmark.atoi x.2 with
            | none => simp
            | some i => have := atoi_value hi; dsimp only; split <;> omega
          simp only [Option.map_some, List.map_cons, List.sum_cons]; omega
        · simp only [List.map_cons, List.sum_cons]; omega
    have := h a
    simp only [Node.attr?, pageSize]; omega
  | text d => simpa [Node.attr?, spanAttr] using hpos
  | comment d => simpa [Node.attr?, spanAttr] using hpos
  | doctype d => simpa [Node.attr?, spanAttr] using hpos
  | document cs => simpa [Node.attr?, spanAttr] using hpos

/-! ## Whole tables -/

theorem renderTable_length (cfg : Table.Config) {un : Bytes → Bytes} (hl : ∀ s, (un s).length ≤ s.length) (stuck : Bool) {t : Node} (at_ : Path → Option Bytes) {M : Nat}
    (hat : hasProblematicChild t = false → ∀ z ∈ below [] t, ∀ o, at_ z.1 = some o → o.length ≤ M) {out : Bytes}
    (h : renderTable cfg un stuck t at_ = some (some out)) :
    out.length ≤ (pageSize t + pageSize t + 1 + 2) *
      ((2 * pageSize t + (pageSize t + 1) * (pageSize t * (pageSize t * pageSize t))) * (2 * (6 * M) + 5) + 1) + M + 8 := by
  rw [renderTable] at h
  split at h
  · simp at h
  · rename_i hc
    have hp : hasProblematicChild t = false := by
      rw [cannotBeTable, Bool.or_eq_true, Bool.or_eq_true] at hc
      cases e : hasProblematicChild t with
      | false => rfl
      | true => exact absurd (Or.inl (Or.inr e)) hc
    have hat := hat hp
    dsimp only at h
    rw [Option.bind_eq_some_iff] at h
    obtain ⟨hd, h1, h⟩ := h
    rw [Option.bind_eq_some_iff] at h
    obtain ⟨rs, h2, h⟩ := h
    rw [Option.map_eq_some_iff] at h
    obtain ⟨cap, h3, h⟩ := h
    rw [Table.table, Option.map_eq_some_iff] at h
    obtain ⟨rows, h4, rfl⟩ := h
    have hraw : ∀ r, (r = ([], t) ∨ r ∈ below [] t) → ∀ cells, rawCells at_ (cellsOf r) = some cells →
        cells.length ≤ pageSize t ∧ ∀ c ∈ cells, CellFits M (pageSize t) c := by
      intro r hr cells hcs
      rw [rawCells] at hcs
      have := mapM_all (P := CellFits M (pageSize t)) hcs (by
        intro z hz y hy
        have hz' := Chars.cells_below hr hz
        have hz2 := below_size hz'
        rw [Option.map_eq_some_iff] at hy
        obtain ⟨o, ho, rfl⟩ := hy
        have s1 := span_attr (key := b!"rowspan") (.inl rfl) z.2
        have s2 := span_attr (key := b!"colspan") (.inr rfl) z.2
        exact ⟨hat z hz' o ho, by dsimp only; omega, by dsimp only; omega⟩)
      refine ⟨?_, this.2⟩
      rw [this.1]
      exact cellsOf_length hr
    have hhd : ∀ cells ∈ hd, cells.length ≤ pageSize t ∧ ∀ c ∈ cells, CellFits M (pageSize t) c := by
      intro cells hm
      cases e : selectHeader t with
      | none => rw [e] at h1; simp at h1; subst h1; simp at hm
      | some z =>
        rw [e, Option.mapM_some] at h1
        cases ez : rawCells at_ (cellsOf z) with
        | none => rw [ez] at h1; simp at h1
        | some cs =>
          rw [ez] at h1
          simp at h1
          subst h1
          cases hm
          exact hraw z (Chars.header_below e) _ ez
    have hrs := mapM_all (P := fun cells => cells.length ≤ pageSize t ∧ ∀ c ∈ cells, CellFits M (pageSize t) c) h2
      fun r hr cells hcs => hraw r (Chars.row_below hr) cells hcs
    have hg := tableRows_fits hl cfg (size_pos t) hhd (by rw [hrs.1]; exact selectRows_length _ _) hrs.2 h4
    refine tableRender_length _ _ hg ?_
    intro c hcap
    cases e : findFirst b!"caption" ([], t) with
    | none => rw [e] at h3; simp at h3; subst h3; simp [caption] at hcap
    | some z =>
      rw [e, Option.mapM_some] at h3
      cases ez : at_ z.1 with
      | none => rw [ez] at h3; simp at h3
      | some o =>
        rw [ez] at h3
        simp at h3
        subst h3
        have ho := hat z (List.mem_of_find?_eq_some e) o ez
        rw [caption] at hcap
        split at hcap
        · simp at hcap
        · cases hcap
          exact Nat.le_trans (trimSpace_length o) ho

theorem table_power {w k : Nat} (hw : 1 ≤ w) :
    (w + w + 1 + 2) * ((2 * w + (w + 1) * (w * (w * w))) * (2 * (6 * (k * w ^ 2)) + 5) + 1) + k * w ^ 2 + 8 ≤ (241 * k + 113) * w ^ 7 := by
  have e1 : w + w + 1 + 2 ≤ 5 * w := by omega
  have p : ∀ a b, a ≤ b → w ^ a ≤ w ^ b := fun a b h => Nat.pow_le_pow_right hw h
  have one : ∀ a, 1 ≤ w ^ a := fun a => Nat.one_le_pow _ _ hw
  have e2 : 2 * w + (w + 1) * (w * (w * w)) ≤ 4 * w ^ 4 := by
    have h1 : (w + 1) * (w * (w * w)) = w ^ 4 + w ^ 3 := by grind
    have h2 := p 1 4 (by omega)
    have h3 := p 3 4 (by omega)
    rw [Nat.pow_one] at h2
    omega
  have e3 : 2 * (6 * (k * w ^ 2)) + 5 ≤ (12 * k + 5) * w ^ 2 := by
    have h1 : (12 * k + 5) * w ^ 2 = 2 * (6 * (k * w ^ 2)) + 5 * w ^ 2 := by grind
    have h2 := one 2
    omega
  have e4 : (2 * w + (w + 1) * (w * (w * w))) * (2 * (6 * (k * w ^ 2)) + 5) + 1 ≤ (48 * k + 21) * w ^ 6 := by
    have h1 := Nat.mul_le_mul e2 e3
    have h2 : 4 * w ^ 4 * ((12 * k + 5) * w ^ 2) = (48 * k + 20) * w ^ 6 := by grind
    have h3 : (48 * k + 21) * w ^ 6 = (48 * k + 20) * w ^ 6 + w ^ 6 := by grind
    have h4 := one 6
    omega
  have e5 := Nat.mul_le_mul e1 e4
  have e6 : 5 * w * ((48 * k + 21) * w ^ 6) = (240 * k + 105) * w ^ 7 := by grind
  have e7 : (241 * k + 113) * w ^ 7 = (240 * k + 105) * w ^ 7 + k * w ^ 7 + 8 * w ^ 7 := by grind
  have e8 := Nat.mul_le_mul_left k (p 2 7 (by omega))
  have e9 := one 7
  omega

/-- The constants for pages without tables. -/
def plain (c : Nat) : Consts := ⟨c, 2 * c, c * (2 * c) + 2 * c, 1, by omega, by omega, by omega⟩

/-- What a table may add. -/
def tableFactor (c : Nat) : Nat := 241 * (c * (2 * c) + 2 * c) + 113

/-- The constants for pages with tables. -/
def withTables (c : Nat) : Consts :=
  ⟨c, tableFactor c + 2 * c, (c + 1) * (tableFactor c + 2 * c) + 2 * c, 7, by omega, by omega, by rw [Nat.add_mul]; omega⟩

theorem table_fits {E : Env} {c D : Nat} (ho : OptionsFit E c D) (y : Node) : TableFits E (withTables c) y := by
  rintro n a cs rfl rfl cfg link stuck out hE h
  have hlen := renderTable_length cfg (unEscape_length E.mode (handlers E)) stuck _ (M := (plain c).B * pageSize (.elem b!"table" a cs) ^ 2) (by
    intro hp z hz o hzo
    obtain ⟨st, e⟩ := TableNodes.render_at (E := E) (link := link) (z := z) (cs := cs) hz (stuck || isProblematicParent b!"table")
    rw [e] at hzo
    have hin : ∀ y ∈ nodes z.2, TableFits E (plain c) y ∧ HeadingFits E (plain c) y := by
      intro y hy
      have hy' : y ∈ nodesL cs := by
        have h1 : z.2 ∈ (belowL [] 0 cs).map (·.2) := List.mem_map.2 ⟨z, hz, rfl⟩
        rw [TableNodes.below_snd.2] at h1
        exact Chars.nodes_trans.2 _ _ h1 _ hy
      have hbad : isHeading y.name = false ∧ y.name ≠ b!"table" := by
        rw [hasProblematicChild, List.any_eq_false] at hp
        rw [← TableNodes.below_snd.2 cs [] 0] at hy'
        obtain ⟨u, hu, rfl⟩ := List.mem_map.1 hy'
        have := hp u hu
        simp only [Bool.or_eq_true, not_or, decide_eq_true_eq, List.mem_cons] at this
        exact ⟨by simpa using this.1, this.2.1⟩
      refine ⟨?_, ?_⟩
      · rintro n' a' cs' rfl hn
        exact absurd hn hbad.2
      · rintro n' a' cs' rfl hn
        rw [show isHeading n' = false from hbad.1] at hn
        cases hn
    have := ((render_fits (K := plain c) ho).1 z.2 hin _ _ _ hzo).length
    have h2 := below_size hz
    have h3 : pageSize z.2 ^ 2 ≤ pageSize (.elem b!"table" a cs) ^ 2 := Nat.pow_le_pow_left (by omega) 2
    have h4 := Nat.mul_le_mul_left (plain c).B h3
    have h5 : (plain c).q + 1 = 2 := rfl
    rw [h5] at this
    omega) h
  have hp := table_power (k := (plain c).B) (size_pos (.elem b!"table" a cs))
  have hlen := Nat.le_trans hlen hp
  have hw := size_pos (.elem b!"table" a cs)
  generalize pageSize (.elem b!"table" a cs) = w at *
  have h1 : 1 ≤ w ^ 7 := Nat.one_le_pow _ _ hw
  have h8 : w ^ 7 ≤ w ^ 8 := Nat.pow_le_pow_right hw (by omega)
  have hT : 241 * (plain c).B + 113 = tableFactor c := rfl
  rw [hT] at hlen
  refine ⟨?_, ?_⟩
  · have h2 := brk_le out
    have h3 := Nat.le_mul_of_pos_right (2 * c) h1
    show brk out + c ≤ (tableFactor c + 2 * c) * w ^ 7
    rw [Nat.add_mul]; omega
  · show out.length + c ≤ ((c + 1) * (tableFactor c + 2 * c) + 2 * c) * w ^ 8
    have h3 := Nat.mul_le_mul_left (tableFactor c) h8
    have h4 := Nat.le_mul_of_pos_right (2 * c) (Nat.le_trans h1 h8)
    have h5 : tableFactor c * w ^ 8 ≤ (c + 1) * (tableFactor c + 2 * c) * w ^ 8 :=
      Nat.mul_le_mul_right _ (Nat.le_trans (Nat.le_add_right _ _) (Nat.le_mul_of_pos_left _ (by omega)))
    rw [Nat.add_mul]; omega

end Verif.Size
