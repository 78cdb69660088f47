import Verif.Proofs.Table
/-!
# Lemmas about tables: row and column spans
-/

namespace Verif.Table
open Verif

set_option linter.unusedSimpArgs false

/-! ## Insertion into a row -/

/-- One modification of a row. -/
def ins (row : List Bytes) (m : Mod) : List Bytes := insertAt (growSlice row m.x []) m.x m.data

theorem growSlice_getD {α : Type} (l : List α) (n c : Nat) (d : α) : (growSlice l n d).getD c d = l.getD c d := by
  simp only [growSlice, List.getD_eq_getElem?_getD]
  by_cases h : c < l.length
  · rw [List.getElem?_append_left h]
  · rw [List.getElem?_append_right (by omega), List.getElem?_replicate]
    rw [List.getElem?_eq_none (by omega)]
    split <;> rfl

theorem growSlice_length {α : Type} (l : List α) (n : Nat) (d : α) : n ≤ (growSlice l n d).length := by
  simp [growSlice]; omega

theorem insertAt_getD {α : Type} (l : List α) (i c : Nat) (a d : α) (h : i ≤ l.length) :
    (insertAt l i a).getD c d = if c < i then l.getD c d else if c = i then a else l.getD (c - 1) d := by
  simp only [insertAt, List.getD_eq_getElem?_getD]
  by_cases h1 : c < i
  · rw [List.getElem?_append_left (by simp; omega), List.getElem?_take_of_lt h1, if_pos h1]
  · rw [List.getElem?_append_right (by simp; omega), if_neg h1]
    have hl : (l.take i).length = i := by simp [h]
    rw [hl]
    by_cases h2 : c = i
    · simp [h2]
    · obtain ⟨k, hk⟩ : ∃ k, c - i = k + 1 := ⟨c - i - 1, by omega⟩
      rw [hk, List.getElem?_cons_succ, List.getElem?_drop, if_neg h2, show i + k = c - 1 by omega]

theorem ins_getD (row : List Bytes) (m : Mod) (c : Nat) :
    (ins row m).getD c [] = if c < m.x then row.getD c [] else if c = m.x then m.data else row.getD (c - 1) [] := by
  rw [ins, insertAt_getD _ _ _ _ _ (growSlice_length _ _ _), growSlice_getD, growSlice_getD]

/-- The number of insertions before column `c`. -/
def below (P : List Mod) (c : Nat) : Nat := (P.filter fun m => decide (m.x < c)).length

theorem below_zero (P : List Mod) : below P 0 = 0 := by simp [below]

theorem below_le (P : List Mod) (c : Nat) : below P c ≤ P.length := List.length_filter_le _ _

theorem below_all {P : List Mod} {c : Nat} (h : ∀ m ∈ P, m.x < c) : below P c = P.length := by
  rw [below, List.filter_eq_self.2]
  intro m hm; simpa using h m hm

theorem foldr_ins : ∀ (Q : List Mod) (row : List Bytes), Q.Pairwise (fun a b => b.x < a.x) → ∀ c,
    (∀ m ∈ Q, m.x = c → (Q.foldr (fun m r => ins r m) row).getD c [] = m.data) ∧
    ((∀ m ∈ Q, m.x ≠ c) → (Q.foldr (fun m r => ins r m) row).getD c [] = row.getD (c - below Q c) []) := by
  intro Q
  induction Q with
  | nil => intro row _ c; simp [below]
  | cons m Q ih =>
    intro row hp c
    rw [List.pairwise_cons] at hp
    have ih := ih row hp.2
    simp only [List.foldr_cons, ins_getD]
    refine ⟨?_, ?_⟩
    · intro m' hm' hc
      rcases List.mem_cons.1 hm' with rfl | hm'
      · simp [hc]
      · have := hp.1 m' hm'
        rw [if_pos (by omega)]
        exact (ih c).1 m' hm' hc
    · intro hne
      have hmc : m.x ≠ c := hne m (by simp)
      by_cases h : c < m.x
      · rw [if_pos h, (ih c).2 (fun m' hm' => hne m' (by simp [hm']))]
        have : below (m :: Q) c = below Q c := by
          rw [below, below, List.filter_cons_of_neg (by simp; omega)]
        rw [this]
      · rw [if_neg h, if_neg (fun h => hmc h.symm)]
        have hlt : ∀ m' ∈ Q, m'.x < c - 1 := fun m' hm' => by have := hp.1 m' hm'; omega
        rw [(ih (c - 1)).2 (fun m' hm' => by have := hlt m' hm'; omega), below_all hlt]
        rw [below_all (fun m' hm' => by
          rcases List.mem_cons.1 hm' with rfl | hm'
          · omega
          · have := hlt m' hm'; omega)]
        congr 1
        simp; omega

theorem below_reverse (P : List Mod) (c : Nat) : below P.reverse c = below P c := by
  rw [below, below, List.filter_reverse, List.length_reverse]

/-- Insertions at ascending columns: the inserted values are at their columns, the others fill the gaps. -/
theorem foldl_ins {P : List Mod} (row : List Bytes) (hp : P.Pairwise (fun a b => a.x < b.x)) (c : Nat) :
    (∀ m ∈ P, m.x = c → (P.foldl ins row).getD c [] = m.data) ∧
    ((∀ m ∈ P, m.x ≠ c) → (P.foldl ins row).getD c [] = row.getD (c - below P c) []) := by
  have h := foldr_ins P.reverse row (List.pairwise_reverse.2 hp) c
  rw [below_reverse] at h
  simp only [List.foldr_reverse, List.mem_reverse] at h
  exact h

theorem below_succ {P : List Mod} (hp : P.Pairwise (fun a b => a.x < b.x)) (c : Nat) :
    below P (c + 1) = below P c + if ∃ m ∈ P, m.x = c then 1 else 0 := by
  induction P with
  | nil => simp [below]
  | cons m P ih =>
    rw [List.pairwise_cons] at hp
    have ih := ih hp.2
    simp only [below] at ih ⊢
    by_cases h : m.x < c
    · rw [List.filter_cons_of_pos (by simp; omega), List.filter_cons_of_pos (by simp; omega)]
      simp only [List.length_cons, ih]
      have : (∃ m' ∈ m :: P, m'.x = c) ↔ ∃ m' ∈ P, m'.x = c := by
        constructor
        · rintro ⟨m', hm', hc⟩
          rcases List.mem_cons.1 hm' with rfl | hm'
          · omega
          · exact ⟨m', hm', hc⟩
        · rintro ⟨m', hm', hc⟩; exact ⟨m', by simp [hm'], hc⟩
      simp only [this]
      omega
    · have h0 : ∀ m' ∈ P, ¬ m'.x < c + 1 := fun m' hm' => by have := hp.1 m' hm'; omega
      have e1 : P.filter (fun m => decide (m.x < c + 1)) = [] := by
        rw [List.filter_eq_nil_iff]; intro m' hm'; simpa using h0 m' hm'
      have e2 : P.filter (fun m => decide (m.x < c)) = [] := by
        rw [List.filter_eq_nil_iff]; intro m' hm'; have := h0 m' hm'; simp; omega
      rw [List.filter_cons_of_neg (p := fun m : Mod => decide (m.x < c)) (by simp; omega), e2]
      by_cases hc : m.x = c
      · rw [List.filter_cons_of_pos (by simp; omega), e1, if_pos ⟨m, by simp, hc⟩]; rfl
      · rw [List.filter_cons_of_neg (by simp; omega), e1, if_neg]
        · rfl
        · rintro ⟨m', hm', hc'⟩
          rcases List.mem_cons.1 hm' with rfl | hm'
          · exact hc hc'
          · have := h0 m' hm'; omega

/-! ## The rows after all modifications -/

theorem applyMod_getD (contents : List (List Bytes)) (m : Mod) (r : Nat) :
    (applyMod contents m).getD r [] = if m.y = r then ins (contents.getD r []) m else contents.getD r [] := by
  have hlen := growSlice_length contents (m.y + 1) []
  have hg := growSlice_getD contents (m.y + 1) r []
  simp only [List.getD_eq_getElem?_getD] at hg ⊢
  rw [applyMod, List.getElem?_modify]
  by_cases h : m.y = r
  · subst h
    simp only [if_true]
    rw [List.getElem?_eq_getElem (by omega)] at hg ⊢
    simp only [Option.getD_some] at hg
    simp [hg, ins]
  · simp only [if_neg h, Option.map_id_fun, id, hg]
    rw [← hg]
    cases (growSlice contents (m.y + 1) [])[r]? <;> rfl

theorem foldl_applyMod_getD : ∀ (mods : List Mod) (contents : List (List Bytes)) (r : Nat),
    (mods.foldl applyMod contents).getD r [] = (mods.filter fun m => decide (m.y = r)).foldl ins (contents.getD r []) := by
  intro mods
  induction mods with
  | nil => intro contents r; rfl
  | cons m mods ih =>
    intro contents r
    rw [List.foldl_cons, ih, applyMod_getD]
    by_cases h : m.y = r
    · rw [if_pos h, List.filter_cons_of_pos (by simpa using h), List.foldl_cons]
    · rw [if_neg h, List.filter_cons_of_neg (by simpa using h)]

theorem applyGrouped_getD (contents : List (List Bytes)) (grouped : List (List Mod)) (r : Nat) :
    (applyGroupedModifications contents grouped).getD r [] =
      ((grouped.reverse.flatten).filter fun m => decide (m.y = r)).foldl ins (contents.getD r []) := by
  rw [applyGroupedModifications]
  have : ∀ (g : List (List Mod)) (contents : List (List Bytes)),
      g.foldl applyModifications contents = g.flatten.foldl applyMod contents := by
    intro g
    induction g with
    | nil => intro c; rfl
    | cons a g ih => intro c; rw [List.foldl_cons, ih, List.flatten_cons, List.foldl_append]; rfl
  rw [this, foldl_applyMod_getD]

/-! ## The modifications -/

theorem mem_range_drop_one {n d : Nat} : d ∈ (List.range n).drop 1 ↔ 1 ≤ d ∧ d < n := by
  cases n with
  | zero => simp
  | succ n =>
    rw [List.range_succ_eq_map]
    simp only [List.drop_succ_cons, List.drop_zero, List.mem_map, List.mem_range]
    constructor
    · rintro ⟨a, ha, rfl⟩; omega
    · rintro ⟨h1, h2⟩; exact ⟨d - 1, by omega, by omega⟩

theorem mem_mods {j i rs cs : Nat} {d : Bytes} {m : Mod} :
    m ∈ calculateModifications j i rs cs d ↔
      m.data = d ∧ j ≤ m.y ∧ (m.y = j ∨ m.y < j + rs) ∧ i ≤ m.x ∧ m.x < i + cs ∧ ¬ (m.y = j ∧ m.x = i) := by
  unfold calculateModifications
  obtain ⟨y, x, data⟩ := m
  split
  · rename_i h
    simp only [List.not_mem_nil, false_iff]
    omega
  · simp only [List.mem_append, List.mem_map, mem_range_drop_one, List.mem_flatMap, List.mem_range, Mod.mk.injEq]
    constructor
    · rintro (⟨dx, h, rfl, rfl, rfl⟩ | ⟨dy, h, dx, h', rfl, rfl, rfl⟩)
      · refine ⟨rfl, by omega, by omega, by omega, by omega, by omega⟩
      · refine ⟨rfl, by omega, by omega, by omega, by omega, by omega⟩
    · rintro ⟨rfl, h1, h2, h3, h4, h5⟩
      by_cases hy : y = j
      · left; exact ⟨x - i, by omega, by omega, by omega, rfl⟩
      · right; exact ⟨y - j, by omega, x - i, by omega, by omega, by omega, rfl⟩

theorem range_pairwise (n : Nat) : (List.range n).Pairwise (· < ·) := List.pairwise_lt_range

theorem mods_pairwise (j i rs cs : Nat) (d : Bytes) :
    (calculateModifications j i rs cs d).Pairwise (fun a b => a.y = b.y → a.x < b.x) := by
  unfold calculateModifications
  split
  · exact .nil
  · rw [List.pairwise_append]
    refine ⟨?_, ?_, ?_⟩
    · rw [List.pairwise_map]
      exact ((range_pairwise cs).sublist (List.drop_sublist 1 _)).imp (by intro a b h _; simp; omega)
    · rw [List.pairwise_flatMap]
      refine ⟨?_, ?_⟩
      · intro dy _
        rw [List.pairwise_map]
        exact (range_pairwise cs).imp (by intro a b h _; simp; omega)
      · refine ((range_pairwise rs).sublist (List.drop_sublist 1 _)).imp ?_
        intro a b h x hx y hy hxy
        simp only [List.mem_map] at hx hy
        obtain ⟨_, _, rfl⟩ := hx
        obtain ⟨_, _, rfl⟩ := hy
        simp at hxy
        omega
    · intro a ha b hb hab
      simp only [List.mem_map, mem_range_drop_one, List.mem_flatMap] at ha hb
      obtain ⟨_, _, rfl⟩ := ha
      obtain ⟨dy, h, _, _, rfl⟩ := hb
      simp at hab
      omega

/-- The modifications of row `j`. -/
def rowMods (merged : Bytes → Bytes) (j : Nat) (cells : List Spec.SpanCell) : List Mod :=
  cells.zipIdx.flatMap fun (c, i) => calculateModifications j i c.rowspan c.colspan (merged c.content)

/-- The modifications of row `r`, in the order in which they are applied. -/
def allMods (merged : Bytes → Bytes) (rows : List (List Spec.SpanCell)) (r : Nat) : List Mod :=
  ((rows.zipIdx.map fun (cells, j) => rowMods merged j cells).reverse.flatten).filter fun m => decide (m.y = r)

theorem mem_rowMods {merged j cells m} : m ∈ rowMods merged j cells ↔
    ∃ i c, cells[i]? = some c ∧ m ∈ calculateModifications j i c.rowspan c.colspan (merged c.content) := by
  simp only [rowMods, List.mem_flatMap]
  constructor
  · rintro ⟨⟨c, i⟩, h, hm⟩
    exact ⟨i, c, List.mem_zipIdx_iff_getElem?.1 h, hm⟩
  · rintro ⟨i, c, h, hm⟩
    exact ⟨(c, i), List.mem_zipIdx_iff_getElem?.2 h, hm⟩

theorem cellAt_eq {rows : List (List Spec.SpanCell)} {r i : Nat} {c : Spec.SpanCell} :
    Spec.cellAt rows r i = some c ↔ ∃ cells, rows[r]? = some cells ∧ cells[i]? = some c := by
  rw [Spec.cellAt, Option.bind_eq_some_iff]

theorem mem_allMods {merged : Bytes → Bytes} {rows : List (List Spec.SpanCell)} {r : Nat} {m : Mod} :
    m ∈ allMods merged rows r ↔ m.y = r ∧ ∃ j i c, Spec.cellAt rows j i = some c ∧
      m ∈ calculateModifications j i c.rowspan c.colspan (merged c.content) := by
  simp only [allMods, List.mem_filter, List.mem_flatten, List.mem_reverse, List.mem_map, decide_eq_true_eq]
  constructor
  · rintro ⟨⟨l, ⟨⟨cells, j⟩, hz, rfl⟩, hm⟩, hy⟩
    obtain ⟨i, c, hc, hm⟩ := mem_rowMods.1 hm
    exact ⟨hy, j, i, c, cellAt_eq.2 ⟨cells, List.mem_zipIdx_iff_getElem?.1 hz, hc⟩, hm⟩
  · rintro ⟨hy, j, i, c, hc, hm⟩
    obtain ⟨cells, h1, h2⟩ := cellAt_eq.1 hc
    exact ⟨⟨_, ⟨(cells, j), List.mem_zipIdx_iff_getElem?.2 h1, rfl⟩, mem_rowMods.2 ⟨i, c, h2, hm⟩⟩, hy⟩

theorem zipIdx_pairwise {α : Type} : ∀ (l : List α) k, (l.zipIdx k).Pairwise (fun a b => a.2 < b.2) := by
  intro l
  induction l with
  | nil => intro k; exact .nil
  | cons a l ih =>
    intro k
    rw [List.zipIdx_cons, List.pairwise_cons]
    refine ⟨?_, ih _⟩
    rintro ⟨b, i⟩ h
    have := List.le_snd_of_mem_zipIdx h
    simp only at this ⊢
    omega

/-! ## The layout -/

section
variable {rows : List (List Spec.SpanCell)} {col : Nat → Nat → Nat}

/-- The cells all span at least one row and one column. -/
def SpansPos (rows : List (List Spec.SpanCell)) : Prop :=
  ∀ r i c, Spec.cellAt rows r i = some c → 1 ≤ c.rowspan ∧ 1 ≤ c.colspan

/-- The spanning cells are in the column of their index. -/
def SpansInPlace (rows : List (List Spec.SpanCell)) (col : Nat → Nat → Nat) : Prop :=
  ∀ r i c, Spec.cellAt rows r i = some c → (1 < c.rowspan ∨ 1 < c.colspan) → col r i = i

theorem cellAt_lt {r i k : Nat} {c : Spec.SpanCell} (h : Spec.cellAt rows r i = some c) (hk : k ≤ i) :
    ∃ c', Spec.cellAt rows r k = some c' := by
  obtain ⟨cells, h1, h2⟩ := cellAt_eq.1 h
  have hi : i < cells.length := (List.getElem?_eq_some_iff.1 h2).1
  exact ⟨cells[k], cellAt_eq.2 ⟨cells, h1, List.getElem?_eq_getElem (by omega)⟩⟩

theorem layout_step (hl : Spec.Layout rows col) {r i : Nat} {c c' : Spec.SpanCell} (h : Spec.cellAt rows r i = some c)
    (h' : Spec.cellAt rows r (i + 1) = some c') : col r i + c.colspan ≤ col r (i + 1) := by
  have := (hl r (i + 1) (by rw [h']; rfl)).1
  simpa [Spec.startColumn, h] using this

theorem layout_mono (hl : Spec.Layout rows col) (hp : SpansPos rows) {r : Nat} : ∀ (i' i : Nat) {c c' : Spec.SpanCell},
    Spec.cellAt rows r i = some c → Spec.cellAt rows r i' = some c' → i < i' →
    col r i + c.colspan + (i' - i - 1) ≤ col r i' := by
  intro i'
  induction i' with
  | zero => intro i c c' _ _ h; omega
  | succ k ih =>
    intro i c c' h h' hlt
    obtain ⟨ck, hk⟩ := cellAt_lt h' (Nat.le_succ k)
    have h1 := layout_step hl hk h'
    by_cases hik : i = k
    · subst hik
      rw [h] at hk
      cases hk
      omega
    · have h2 := ih i h hk (by omega)
      have := (hp r k ck hk).2
      omega

/-- Before a cell that is in the column of its index there are only cells of width one. -/
theorem in_place_before (hl : Spec.Layout rows col) (hp : SpansPos rows) {r i k : Nat} {c c' : Spec.SpanCell}
    (h : Spec.cellAt rows r i = some c) (hi : col r i = i) (hk : k < i) (h' : Spec.cellAt rows r k = some c') :
    col r k = k ∧ c'.colspan = 1 := by
  have h1 := layout_mono hl hp i k h' h hk
  have h2 : k ≤ col r k := by
    cases k with
    | zero => exact Nat.zero_le _
    | succ k =>
      obtain ⟨c0, h0⟩ := cellAt_lt h' (Nat.zero_le _)
      have := layout_mono hl hp (k + 1) 0 h0 h' (by omega)
      have := (hp r 0 c0 h0).2
      omega
  have := (hp r k c' h').2
  omega

/-- No position is covered by two different cells. -/
theorem cover_unique (hl : Spec.Layout rows col) (hp : SpansPos rows) (hn : Spec.NoOverlap rows col) {j i j' i' r x : Nat}
    (h : Spec.Covers rows col j i r x) (h' : Spec.Covers rows col j' i' r x) : j = j' ∧ i = i' := by
  have key : ∀ {j i j' i'}, Spec.Covers rows col j i r x → Spec.Covers rows col j' i' r x → ¬ j' < j := by
    intro j i j' i' h h' hlt
    obtain ⟨c, hc, h1, h2, h3, h4⟩ := h
    obtain ⟨c', hc', h1', h2', h3', h4'⟩ := h'
    exact hn j i x ⟨c, hc, Nat.le_refl _, by omega, h3, h4⟩ ⟨j', i', hlt, c', hc', by omega, by omega, h3', h4'⟩
  have hj : j = j' := by
    have := key h h'
    have := key h' h
    omega
  subst hj
  refine ⟨rfl, ?_⟩
  obtain ⟨c, hc, h1, h2, h3, h4⟩ := h
  obtain ⟨c', hc', h1', h2', h3', h4'⟩ := h'
  rcases Nat.lt_trichotomy i i' with hlt | he | hlt
  · have := layout_mono hl hp i' i hc hc' hlt; omega
  · exact he
  · have := layout_mono hl hp i i' hc' hc hlt; omega

variable {merged : Bytes → Bytes}

theorem mod_covers (hp : SpansPos rows) (hs : SpansInPlace rows col) {j i : Nat} {c : Spec.SpanCell} {m : Mod}
    (hc : Spec.cellAt rows j i = some c) (hm : m ∈ calculateModifications j i c.rowspan c.colspan (merged c.content)) :
    Spec.Covers rows col j i m.y m.x ∧ ¬ (m.y = j ∧ m.x = col j i) ∧ m.data = merged c.content ∧ col j i = i := by
  obtain ⟨h0, h1, h2, h3, h4, h5⟩ := mem_mods.1 hm
  have hp := hp j i c hc
  have hi : col j i = i := hs j i c hc (by omega)
  exact ⟨⟨c, hc, h1, by omega, by omega, by omega⟩, by rw [hi]; exact h5, h0, hi⟩

theorem allMods_covers (hp : SpansPos rows) (hs : SpansInPlace rows col) {r : Nat} {m : Mod} (hm : m ∈ allMods merged rows r) :
    ∃ j i c, Spec.cellAt rows j i = some c ∧ Spec.Covers rows col j i r m.x ∧ ¬ (r = j ∧ m.x = col j i) ∧
      m.data = merged c.content := by
  obtain ⟨rfl, j, i, c, hc, hm⟩ := mem_allMods.1 hm
  obtain ⟨h1, h2, h3, -⟩ := mod_covers hp hs hc hm
  exact ⟨j, i, c, hc, h1, h2, h3⟩

theorem covers_allMods (hs : SpansInPlace rows col) {r j i x : Nat} {c : Spec.SpanCell}
    (hc : Spec.cellAt rows j i = some c) (h : Spec.Covers rows col j i r x) (ho : ¬ (r = j ∧ x = col j i)) :
    (⟨r, x, merged c.content⟩ : Mod) ∈ allMods merged rows r := by
  obtain ⟨c', hc', h1, h2, h3, h4⟩ := h
  rw [hc] at hc'
  cases hc'
  refine mem_allMods.2 ⟨rfl, j, i, c, hc, mem_mods.2 ?_⟩
  have hi : col j i = i := hs j i c hc (by omega)
  rw [hi] at h3 h4 ho
  exact ⟨rfl, h1, .inr h2, h3, h4, ho⟩

theorem rowMods_pairwise (hl : Spec.Layout rows col) (hp : SpansPos rows) (hs : SpansInPlace rows col) {j : Nat}
    {cells : List Spec.SpanCell} (hr : rows[j]? = some cells) :
    (rowMods merged j cells).Pairwise (fun a b => a.y = b.y → a.x < b.x) := by
  rw [rowMods, List.pairwise_flatMap]
  refine ⟨fun a _ => mods_pairwise _ _ _ _ _, ?_⟩
  refine (zipIdx_pairwise cells 0).imp_of_mem ?_
  rintro ⟨c, i⟩ ⟨c', i'⟩ hm hm' hlt x hx y hy hxy
  have hc := cellAt_eq.2 ⟨cells, hr, List.mem_zipIdx_iff_getElem?.1 hm⟩
  have hc' := cellAt_eq.2 ⟨cells, hr, List.mem_zipIdx_iff_getElem?.1 hm'⟩
  simp only at hlt hc hc'
  obtain ⟨⟨d, hd, -, -, -, h1⟩, -⟩ := mod_covers hp hs hc hx
  obtain ⟨⟨d', hd', -, -, h2, -⟩, -⟩ := mod_covers hp hs hc' hy
  have := layout_mono hl hp i' i hd hd' hlt
  omega

theorem allMods_pairwise (hl : Spec.Layout rows col) (hp : SpansPos rows) (hn : Spec.NoOverlap rows col)
    (hs : SpansInPlace rows col) (r : Nat) : (allMods merged rows r).Pairwise (fun a b => a.x < b.x) := by
  rw [allMods, List.pairwise_filter, List.pairwise_flatten]
  refine ⟨?_, ?_⟩
  · intro l hlm
    simp only [List.mem_reverse, List.mem_map] at hlm
    obtain ⟨⟨cells, j⟩, hz, rfl⟩ := hlm
    refine (rowMods_pairwise hl hp hs (List.mem_zipIdx_iff_getElem?.1 hz)).imp ?_
    intro a b h ha hb
    exact h (by simp_all)
  · rw [List.pairwise_reverse, List.pairwise_map]
    refine (zipIdx_pairwise rows 0).imp_of_mem ?_
    rintro ⟨cells', j'⟩ ⟨cells, j⟩ hz' hz hlt a ha b hb hya hyb
    simp only [decide_eq_true_eq] at hlt hya hyb
    obtain ⟨i, c, hc, hm⟩ := mem_rowMods.1 ha
    obtain ⟨i', c', hc', hm'⟩ := mem_rowMods.1 hb
    have hc := cellAt_eq.2 ⟨cells, List.mem_zipIdx_iff_getElem?.1 hz, hc⟩
    have hc' := cellAt_eq.2 ⟨cells', List.mem_zipIdx_iff_getElem?.1 hz', hc'⟩
    obtain ⟨⟨d, hd, h1, -, h2, h3⟩, -, -, hi⟩ := mod_covers hp hs hc hm
    obtain ⟨⟨d', hd', h1', h2', h3', h4'⟩, -, -, hi'⟩ := mod_covers hp hs hc' hm'
    simp only at *
    rw [hc] at hd
    cases hd
    rw [hc'] at hd'
    cases hd'
    refine Nat.lt_of_lt_of_le h3 (Nat.not_lt.1 fun hx => ?_)
    have habove : Spec.CoveredAbove rows col j b.x := ⟨j', i', hlt, c', hc', by omega, by omega, h3', h4'⟩
    have hpc := hp j i c hc
    by_cases hb : b.x < i
    · obtain ⟨ck, hk⟩ := cellAt_lt hc (Nat.le_of_lt hb)
      obtain ⟨e1, e2⟩ := in_place_before hl hp hc hi hb hk
      have hpk := hp j b.x ck hk
      exact hn j b.x b.x ⟨ck, hk, by omega, by omega, by omega, by omega⟩ habove
    · exact hn j i b.x ⟨c, hc, by omega, by omega, by omega, by omega⟩ habove

theorem below_run {P : List Mod} (hp : P.Pairwise (fun a b => a.x < b.x)) (a : Nat) : ∀ k, (∀ c, a ≤ c → c < a + k → ∃ m ∈ P, m.x = c) →
    below P (a + k) = below P a + k := by
  intro k
  induction k with
  | zero => intro _; rfl
  | succ k ih =>
    intro h
    rw [← Nat.add_assoc, below_succ hp, if_pos (h (a + k) (by omega) (by omega)), ih (fun c h1 h2 => h c h1 (by omega))]
    omega

theorem below_lip {P : List Mod} (hp : P.Pairwise (fun a b => a.x < b.x)) (a : Nat) : ∀ k, below P (a + k) ≤ below P a + k := by
  intro k
  induction k with
  | zero => exact Nat.le_refl _
  | succ k ih =>
    rw [← Nat.add_assoc, below_succ hp]
    split <;> omega

/-- The origin of a cell is not a place where something is inserted. -/
theorem origin_free (hl : Spec.Layout rows col) (hp : SpansPos rows) (hn : Spec.NoOverlap rows col)
    (hs : SpansInPlace rows col) {r i : Nat} {c : Spec.SpanCell} (hc : Spec.cellAt rows r i = some c) :
    ∀ m ∈ allMods merged rows r, m.x ≠ col r i := by
  intro m hm he
  obtain ⟨j, i', c', hc', hcov, ho, -⟩ := allMods_covers hp hs hm
  have hpc := hp r i c hc
  obtain ⟨rfl, rfl⟩ := cover_unique hl hp hn hcov ⟨c, hc, by omega, by omega, by omega, by omega⟩
  exact ho ⟨rfl, he⟩

/-- Up to the column of cell `i` everything but the cells before it is inserted. -/
theorem below_start (hl : Spec.Layout rows col) (hp : SpansPos rows) (hn : Spec.NoOverlap rows col)
    (hs : SpansInPlace rows col) {r : Nat} : ∀ i, (∀ k, k < i → (Spec.cellAt rows r k).isSome) →
    below (allMods merged rows r) (Spec.startColumn rows col r i) + i = Spec.startColumn rows col r i := by
  have hpw := allMods_pairwise (merged := merged) hl hp hn hs r
  intro i
  induction i with
  | zero => intro _; simp [Spec.startColumn, below_zero]
  | succ i ih =>
    intro hk
    have ih := ih fun k h => hk k (by omega)
    obtain ⟨c, hc⟩ := Option.isSome_iff_exists.1 (hk i (by omega))
    obtain ⟨l1, l2, l3⟩ := hl r i (hk i (by omega))
    have hpc := hp r i c hc
    have e1 := below_run hpw (Spec.startColumn rows col r i) (col r i - Spec.startColumn rows col r i) (by
      intro x h1 h2
      obtain ⟨j, i', hj, hcov⟩ := l3 x h1 (by omega)
      obtain ⟨c', hc', hrest⟩ := id hcov
      exact ⟨_, covers_allMods hs hc' hcov (by omega), rfl⟩)
    rw [show Spec.startColumn rows col r i + (col r i - Spec.startColumn rows col r i) = col r i by omega] at e1
    have e2 := below_succ hpw (col r i)
    rw [if_neg (by rintro ⟨m, hm, he⟩; exact origin_free hl hp hn hs hc m hm he)] at e2
    have e3 := below_run hpw (col r i + 1) (c.colspan - 1) (by
      intro x h1 h2
      exact ⟨_, covers_allMods hs hc ⟨c, hc, Nat.le_refl _, by omega, by omega, by omega⟩ (by omega), rfl⟩)
    rw [show col r i + 1 + (c.colspan - 1) = col r i + c.colspan by omega] at e3
    simp only [Spec.startColumn, hc, Option.map_some, Option.getD_some]
    omega

theorem below_col (hl : Spec.Layout rows col) (hp : SpansPos rows) (hn : Spec.NoOverlap rows col)
    (hs : SpansInPlace rows col) {r i : Nat} {c : Spec.SpanCell} (hc : Spec.cellAt rows r i = some c) :
    below (allMods merged rows r) (col r i) + i = col r i := by
  have h := below_start (merged := merged) hl hp hn hs (r := r) (i + 1) (fun k hk => by
    obtain ⟨c', hc'⟩ := cellAt_lt hc (Nat.lt_succ_iff.1 hk); rw [hc']; rfl)
  have hpw := allMods_pairwise (merged := merged) hl hp hn hs r
  have h0 := below_start (merged := merged) hl hp hn hs (r := r) i (fun k hk => by
    obtain ⟨c', hc'⟩ := cellAt_lt hc (Nat.le_of_lt hk); rw [hc']; rfl)
  obtain ⟨l1, l2, l3⟩ := hl r i (by rw [hc]; rfl)
  have e1 := below_run hpw (Spec.startColumn rows col r i) (col r i - Spec.startColumn rows col r i) (by
    intro x h1 h2
    obtain ⟨j, i', hj, hcov⟩ := l3 x h1 (by omega)
    obtain ⟨c', hc', hrest⟩ := id hcov
    exact ⟨_, covers_allMods hs hc' hcov (by omega), rfl⟩)
  rw [show Spec.startColumn rows col r i + (col r i - Spec.startColumn rows col r i) = col r i by omega] at e1
  omega

/-- All columns before the end of the last cell are covered. -/
theorem covered_before (hl : Spec.Layout rows col) (hp : SpansPos rows) {r : Nat} : ∀ i, (∀ k, k < i → (Spec.cellAt rows r k).isSome) →
    ∀ x, x < Spec.startColumn rows col r i → ∃ j k, Spec.Covers rows col j k r x := by
  intro i
  induction i with
  | zero => intro _ x h; simp [Spec.startColumn] at h
  | succ i ih =>
    intro hk x hx
    obtain ⟨c, hc⟩ := Option.isSome_iff_exists.1 (hk i (by omega))
    obtain ⟨l1, l2, l3⟩ := hl r i (hk i (by omega))
    have hpc := hp r i c hc
    simp only [Spec.startColumn, hc, Option.map_some, Option.getD_some] at hx
    by_cases h1 : x < Spec.startColumn rows col r i
    · exact ih (fun k h => hk k (by omega)) x h1
    · by_cases h2 : x < col r i
      · obtain ⟨j, k, -, h⟩ := l3 x (by omega) h2
        exact ⟨j, k, h⟩
      · exact ⟨r, i, c, hc, by omega, by omega, by omega, by omega⟩

/-- The rows after the modifications show the grid. -/
theorem shows_grid (hl : Spec.Layout rows col) (hp : SpansPos rows) (hn : Spec.NoOverlap rows col)
    (hs : SpansInPlace rows col) :
    Spec.ShowsGrid rows col merged fun r c =>
      ((allMods merged rows r).foldl ins ((rows.getD r []).map (·.content))).getD c [] := by
  have hpw := fun r => allMods_pairwise (merged := merged) hl hp hn hs r
  refine ⟨?_, ?_, ?_⟩
  · intro r i c hc
    simp only
    rw [(foldl_ins _ (hpw r) (col r i)).2 (origin_free hl hp hn hs hc)]
    have := below_col (merged := merged) hl hp hn hs hc
    rw [show col r i - below (allMods merged rows r) (col r i) = i by omega]
    obtain ⟨cells, h1, h2⟩ := cellAt_eq.1 hc
    simp [List.getD_eq_getElem?_getD, h1, h2]
  · intro r0 i r x c _ hc hcov ho
    simp only
    exact (foldl_ins _ (hpw r) x).1 _ (covers_allMods hs hc hcov ho) rfl
  · intro r x hr hcov
    simp only
    have hrow : rows[r]? = some rows[r] := List.getElem?_eq_getElem hr
    have hk : ∀ k, k < rows[r].length → (Spec.cellAt rows r k).isSome := by
      intro k hk
      rw [Spec.cellAt, hrow]
      simp [hk]
    rw [(foldl_ins _ (hpw r) x).2]
    · have h1 := below_start (merged := merged) hl hp hn hs (r := r) _ hk
      have h2 : Spec.startColumn rows col r rows[r].length ≤ x := by
        refine Nat.not_lt.1 fun h => ?_
        obtain ⟨j, k, h⟩ := covered_before hl hp (r := r) _ hk x h
        exact hcov j k h
      have h3 := below_lip (hpw r) (Spec.startColumn rows col r rows[r].length) (x - Spec.startColumn rows col r rows[r].length)
      rw [show Spec.startColumn rows col r rows[r].length + (x - Spec.startColumn rows col r rows[r].length) = x by omega] at h3
      rw [List.getD_eq_getElem?_getD, List.getElem?_eq_none]
      · rfl
      · simp [List.getD_eq_getElem?_getD, hrow]
        omega
    · intro m hm he
      obtain ⟨j, i, c, hc, h, -⟩ := allMods_covers hp hs hm
      rw [he] at h
      exact hcov j i h

end

/-! ## The collected rows -/

/-- A cell as the specification of HTML tables sees it. -/
def toSpan (un : Bytes → Bytes) (c : RawCell) : Spec.SpanCell := ⟨cellContent un c.rendered, spanAttr c.rowspan, spanAttr c.colspan⟩

/-- The rows of the table; without a header row, the first row is empty. -/
def spanRows (un : Bytes → Bytes) (header : Option (List RawCell)) (normal : List (List RawCell)) : List (List Spec.SpanCell) :=
  (header.getD [] :: normal).map (·.map (toSpan un))

theorem spanAttr_pos (a : Option Bytes) : 1 ≤ spanAttr a := by
  unfold spanAttr
  split
  · exact Nat.le_refl _
  · split
    · exact Nat.le_refl _
    · split <;> omega

theorem spanRows_pos (un : Bytes → Bytes) (header : Option (List RawCell)) (normal : List (List RawCell)) :
    SpansPos (spanRows un header normal) := by
  intro r i c h
  obtain ⟨cells, h1, h2⟩ := cellAt_eq.1 h
  simp only [spanRows, List.getElem?_map, Option.map_eq_some_iff] at h1
  obtain ⟨raw, h1, rfl⟩ := h1
  simp only [List.getElem?_map, Option.map_eq_some_iff] at h2
  obtain ⟨c, h2, rfl⟩ := h2
  exact ⟨spanAttr_pos _, spanAttr_pos _⟩

theorem collectCells_eq (cfg : Config) (un : Bytes → Bytes) (j : Nat) (cells : List RawCell) :
    collectCellsInRow cfg un j cells =
      ((cells.map (toSpan un)).map (·.content), rowMods (mergedContent cfg) j (cells.map (toSpan un))) := by
  simp [collectCellsInRow, rowMods, toSpan, List.zipIdx_map, List.flatMap_map, Function.comp_def]

theorem collectBoth_eq (cfg : Config) (un : Bytes → Bytes) (header : Option (List RawCell)) (normal : List (List RawCell)) :
    collectBoth cfg un header normal = (spanRows un header normal).zipIdx.map fun (cells, j) =>
      (cells.map (·.content), rowMods (mergedContent cfg) j cells) := by
  rw [spanRows, List.map_cons, List.zipIdx_cons, List.map_cons, collectBoth.eq_def]
  congr 1
  · cases header with
    | none => simp [rowMods]
    | some cells => simp [collectCells_eq]
  · rw [List.zipIdx_map, List.zipIdx_succ]
    simp [List.map_map, collectCells_eq, Function.comp_def]

theorem collectRows_getD (cfg : Config) (un : Bytes → Bytes) (header : Option (List RawCell)) (normal : List (List RawCell))
    (h1 : cfg.skipEmptyRows = false) (h2 : cfg.promoteFirstRow = false) (r : Nat) :
    (collectRows cfg un header normal).getD r [] =
      (allMods (mergedContent cfg) (spanRows un header normal) r).foldl ins
        (((spanRows un header normal).getD r []).map (·.content)) := by
  simp only [collectRows, h1, h2, Bool.false_eq_true, if_false]
  rw [applyGrouped_getD, collectBoth_eq, allMods]
  simp only [List.map_map, Function.comp_def]
  congr 1
  have : (spanRows un header normal).zipIdx.map (fun x => x.1.map (·.content)) = (spanRows un header normal).map (·.map (·.content)) := by
    generalize spanRows un header normal = l
    have : ∀ k, (l.zipIdx k).map (fun x => x.1.map (·.content)) = l.map (·.map (·.content)) := by
      induction l with
      | nil => intro k; rfl
      | cons a l ih => intro k; simp [ih]
    exact this 0
  rw [this]
  simp only [List.getD_eq_getElem?_getD, List.getElem?_map]
  cases (spanRows un header normal)[r]? <;> rfl

theorem applyMod_ne (contents : List (List Bytes)) (m : Mod) : applyMod contents m ≠ [] := by
  intro h
  have := congrArg List.length h
  have hlen := growSlice_length contents (m.y + 1) []
  rw [applyMod, List.length_modify, List.length_nil] at this
  omega

theorem applyGrouped_ne {contents : List (List Bytes)} (h : contents ≠ []) (grouped : List (List Mod)) :
    applyGroupedModifications contents grouped ≠ [] := by
  rw [applyGroupedModifications]
  have h1 : ∀ (mods : List Mod) contents, contents ≠ [] → mods.foldl applyMod contents ≠ [] := by
    intro mods
    induction mods with
    | nil => intro c h; exact h
    | cons m mods ih => intro c h; exact ih _ (applyMod_ne c m)
  have h2 : ∀ (g : List (List Mod)) contents, contents ≠ [] → g.foldl applyModifications contents ≠ [] := by
    intro g
    induction g with
    | nil => intro c h; exact h
    | cons a g ih => intro c h; exact ih _ (h1 a c h)
  exact h2 _ _ h

theorem collectRows_ne_nil (cfg : Config) (un : Bytes → Bytes) (header : Option (List RawCell)) (normal : List (List RawCell))
    (h1 : cfg.skipEmptyRows = false) (h2 : cfg.promoteFirstRow = false) : collectRows cfg un header normal ≠ [] := by
  simp only [collectRows, h1, h2, Bool.false_eq_true, if_false]
  exact applyGrouped_ne (by simp [collectBoth]) _

/-- Without a header the first row is empty. -/
theorem collectRows_first (cfg : Config) (un : Bytes → Bytes) (normal : List (List RawCell))
    (h1 : cfg.skipEmptyRows = false) (h2 : cfg.promoteFirstRow = false) : (collectRows cfg un none normal).getD 0 [] = [] := by
  rw [collectRows_getD cfg un none normal h1 h2]
  have : allMods (mergedContent cfg) (spanRows un none normal) 0 = [] := by
    rw [List.eq_nil_iff_forall_not_mem]
    intro m hm
    obtain ⟨hy, j, i, c, hc, hm⟩ := mem_allMods.1 hm
    have h := mem_mods.1 hm
    have hj : j = 0 := by omega
    subst hj
    simp [Spec.cellAt, spanRows] at hc
  rw [this]
  simp [spanRows]

/-! ## Checking the hypotheses for a concrete table -/

def coversB (rows : List (List Spec.SpanCell)) (col : Nat → Nat → Nat) (r0 i r c : Nat) : Bool :=
  match Spec.cellAt rows r0 i with
  | none => false
  | some cell => decide (r0 ≤ r ∧ r < r0 + cell.rowspan ∧ col r0 i ≤ c ∧ c < col r0 i + cell.colspan)

theorem coversB_iff {rows col r0 i r c} : coversB rows col r0 i r c = true ↔ Spec.Covers rows col r0 i r c := by
  unfold coversB Spec.Covers
  cases Spec.cellAt rows r0 i with
  | none => simp
  | some cell => simp

def aboveB (rows : List (List Spec.SpanCell)) (col : Nat → Nat → Nat) (r c : Nat) : Bool :=
  (List.range r).any fun r0 => (List.range (rows.getD r0 []).length).any fun i => coversB rows col r0 i r c

theorem cellAt_bound {rows : List (List Spec.SpanCell)} {r i : Nat} {c : Spec.SpanCell} (h : Spec.cellAt rows r i = some c) :
    r < rows.length ∧ i < (rows.getD r []).length := by
  obtain ⟨cells, h1, h2⟩ := cellAt_eq.1 h
  refine ⟨(List.getElem?_eq_some_iff.1 h1).1, ?_⟩
  rw [List.getD_eq_getElem?_getD, h1]
  exact (List.getElem?_eq_some_iff.1 h2).1

theorem aboveB_iff {rows col r c} : aboveB rows col r c = true ↔ Spec.CoveredAbove rows col r c := by
  simp only [aboveB, List.any_eq_true, List.mem_range, coversB_iff, Spec.CoveredAbove]
  constructor
  · rintro ⟨r0, h0, i, _, h⟩; exact ⟨r0, i, h0, h⟩
  · rintro ⟨r0, i, h0, h⟩
    obtain ⟨cell, hc, _⟩ := id h
    exact ⟨r0, h0, i, (cellAt_bound hc).2, h⟩

/-- `p r i` for all cells. -/
def allCells (rows : List (List Spec.SpanCell)) (p : Nat → Nat → Bool) : Bool :=
  (List.range rows.length).all fun r => (List.range (rows.getD r []).length).all fun i => p r i

theorem allCells_spec {rows p} (h : allCells rows p = true) {r i c} (hc : Spec.cellAt rows r i = some c) : p r i = true := by
  simp only [allCells, List.all_eq_true, List.mem_range] at h
  exact h r (cellAt_bound hc).1 i (cellAt_bound hc).2

theorem layout_of_check {rows col} (h : allCells rows (fun r i =>
    decide (Spec.startColumn rows col r i ≤ col r i) && !aboveB rows col r (col r i) &&
    (List.range (col r i)).all fun c => decide (c < Spec.startColumn rows col r i) || aboveB rows col r c) = true) :
    Spec.Layout rows col := by
  intro r i hi
  obtain ⟨c, hc⟩ := Option.isSome_iff_exists.1 hi
  have := allCells_spec h hc
  simp only [Bool.and_eq_true, decide_eq_true_eq, Bool.not_eq_true', List.all_eq_true, List.mem_range, Bool.or_eq_true, aboveB_iff] at this
  refine ⟨this.1.1, ?_, ?_⟩
  · rw [← aboveB_iff, this.1.2]; simp
  · intro x h1 h2
    rcases this.2 x h2 with h | h
    · omega
    · exact h

theorem noOverlap_of_check {rows col} (h : allCells rows (fun r i =>
    (List.range (col r i + ((Spec.cellAt rows r i).map (·.colspan)).getD 0)).all fun c =>
      !coversB rows col r i r c || !aboveB rows col r c) = true) : Spec.NoOverlap rows col := by
  intro r i x hcov
  obtain ⟨c, hc, h1, h2, h3, h4⟩ := id hcov
  have := allCells_spec h hc
  simp only [List.all_eq_true, List.mem_range, hc, Option.map_some, Option.getD_some] at this
  have := this x h4
  rw [coversB_iff.2 hcov] at this
  simp only [Bool.not_true, Bool.false_or, Bool.not_eq_true'] at this
  rw [← aboveB_iff, this]
  simp

theorem inPlace_of_check {rows : List (List Spec.SpanCell)} {col : Nat → Nat → Nat} (h : allCells rows (fun r i =>
    match Spec.cellAt rows r i with
    | none => true
    | some c => decide ((1 < c.rowspan ∨ 1 < c.colspan) → col r i = i)) = true) :
    ∀ r i c, Spec.cellAt rows r i = some c → (1 < c.rowspan ∨ 1 < c.colspan) → col r i = i := by
  intro r i c hc
  have := allCells_spec h hc
  rw [hc] at this
  exact of_decide_eq_true this

end Verif.Table
