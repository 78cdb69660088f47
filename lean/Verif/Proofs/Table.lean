import Verif.Model.Table
import Verif.Spec.Table
import Verif.Proofs.Lists
/-!
# Lemmas about tables
-/

namespace Verif.Table
open Verif

set_option linter.unusedSimpArgs false
set_option linter.unnecessarySimpa false

/-! ## Rune counts -/

theorem not_cont_ascii : ∀ b : UInt8, b < 128 → isCont b = false ∧ (0xA0 ≤ b) = False ∧ (0x90 ≤ b) = False ∧ (0x80 ≤ b) = False :=
  forall_u8 (by decide +kernel)

theorem decodeRune_cut (a : Bytes) (c : UInt8) (b : Bytes) (hc : c < 128) (ha : a ≠ []) :
    decodeRune (a ++ c :: b) = decodeRune a := by
  obtain ⟨h1, h2, h3, h4⟩ := not_cont_ascii c hc
  match a, ha with
  | [a0], _ =>
    simp only [List.cons_append, List.nil_append, decodeRune]
    simp only [h1]
    split
    · rfl
    split
    · rfl
    split
    · rfl
    split
    · cases b <;> simp [h1, h2, h3, h4]
    split
    · rcases b with _ | ⟨b1, _ | ⟨b2, b⟩⟩ <;> simp [h1, h2, h3, h4]
    · rfl
  | [a0, a1], _ =>
    simp only [List.cons_append, List.nil_append, decodeRune]
    split
    · rfl
    split
    · rfl
    split
    · rfl
    split
    · simp [h1]
    split
    · cases b <;> simp [h1, h2, h3, h4]
    · rfl
  | [a0, a1, a2], _ =>
    simp only [List.cons_append, List.nil_append, decodeRune]
    simp [h1]
  | a0 :: a1 :: a2 :: a3 :: a, _ => simp only [List.cons_append, List.nil_append, decodeRune]

theorem decodeRune_le (a : Bytes) : (decodeRune a).2 ≤ a.length := by
  rcases a with _ | ⟨a0, _ | ⟨a1, _ | ⟨a2, _ | ⟨a3, a⟩⟩⟩⟩ <;> simp only [decodeRune] <;> grind

theorem runeCountGo_append : ∀ (a : Bytes) (k : Nat) (c : UInt8) (b : Bytes), c < 128 → k ≤ a.length →
    runeCountGo k (a ++ c :: b) = runeCountGo k a + runeCountGo 0 (c :: b) := by
  intro a
  induction a with
  | nil =>
    intro k c b _ hk
    obtain rfl : k = 0 := by simpa using hk
    simp [runeCountGo]
  | cons x a ih =>
    intro k c b hc hk
    cases k with
    | zero =>
      have hd := decodeRune_cut (x :: a) c b hc (by simp)
      have hl := decodeRune_le (x :: a)
      rw [List.cons_append] at hd ⊢
      have h1 : runeCountGo 0 (x :: a) = 1 + runeCountGo ((decodeRune (x :: a)).2 - 1) a := by rw [runeCountGo]
      rw [runeCountGo, hd, ih _ c b hc (by simp at hl; omega), h1]
      omega
    | succ k =>
      rw [List.cons_append, runeCountGo, ih _ c b hc (by simpa using hk), runeCountGo]

theorem runeCount_cut (a : Bytes) (c : UInt8) (b : Bytes) (hc : c < 128) :
    runeCount (a ++ c :: b) = runeCount a + runeCount (c :: b) := runeCountGo_append a 0 c b hc (Nat.zero_le _)

theorem runeCount_cons (c : UInt8) (b : Bytes) (hc : c < 128) : runeCount (c :: b) = 1 + runeCount b := by
  have h : (decodeRune (c :: b)).2 = 1 := by simp [decodeRune, hc]
  rw [runeCount, runeCountGo, h]; rfl

theorem runeCount_replicate (n : Nat) (c : UInt8) (b : Bytes) (hc : c < 128) :
    runeCount (List.replicate n c ++ b) = n + runeCount b := by
  induction n with
  | zero => simp
  | succ n ih => rw [List.replicate_succ, List.cons_append, runeCount_cons _ _ hc, ih]; omega

/-! ## The width of the columns -/

theorem maxCountsRow_length : ∀ (cs : List Nat) (row : List Bytes), (maxCountsRow cs row).length = max cs.length row.length := by
  intro cs row
  induction row generalizing cs with
  | nil => cases cs <;> simp [maxCountsRow]
  | cons c row ih => cases cs <;> simp [maxCountsRow, ih] <;> omega

theorem maxCountsRow_mono : ∀ (cs : List Nat) (row : List Bytes) i, cs.getD i 0 ≤ (maxCountsRow cs row).getD i 0 := by
  intro cs row
  induction row generalizing cs with
  | nil => cases cs <;> simp [maxCountsRow]
  | cons c row ih =>
    intro i
    cases cs with
    | nil => simp
    | cons n cs =>
      cases i with
      | zero => simp [maxCountsRow]; omega
      | succ i => simpa [maxCountsRow] using ih cs i

theorem maxCountsRow_ge : ∀ (cs : List Nat) (row : List Bytes) i, runeCount (row.getD i []) ≤ (maxCountsRow cs row).getD i 0 := by
  intro cs row
  induction row generalizing cs with
  | nil => intro i; simp [runeCount, runeCountGo]
  | cons c row ih =>
    intro i
    cases i with
    | zero => cases cs <;> simp [maxCountsRow] <;> omega
    | succ i => cases cs <;> simpa [maxCountsRow] using ih _ i

theorem foldl_counts_length : ∀ (rows : List (List Bytes)) (cs : List Nat),
    cs.length ≤ (rows.foldl maxCountsRow cs).length ∧ ∀ row ∈ rows, row.length ≤ (rows.foldl maxCountsRow cs).length := by
  intro rows
  induction rows with
  | nil => simp
  | cons r rows ih =>
    intro cs
    have h := ih (maxCountsRow cs r)
    have hl := maxCountsRow_length cs r
    simp only [List.foldl_cons]
    refine ⟨by omega, ?_⟩
    intro row hrow
    rcases List.mem_cons.1 hrow with rfl | hrow
    · omega
    · exact h.2 row hrow

theorem foldl_counts_le : ∀ (rows : List (List Bytes)) (cs : List Nat) i,
    cs.getD i 0 ≤ (rows.foldl maxCountsRow cs).getD i 0 ∧
      ∀ row ∈ rows, runeCount (row.getD i []) ≤ (rows.foldl maxCountsRow cs).getD i 0 := by
  intro rows
  induction rows with
  | nil => simp
  | cons r rows ih =>
    intro cs i
    have h := ih (maxCountsRow cs r) i
    simp only [List.foldl_cons]
    have h1 := maxCountsRow_mono cs r i
    have h2 := maxCountsRow_ge cs r i
    refine ⟨by omega, ?_⟩
    intro row hrow
    rcases List.mem_cons.1 hrow with rfl | hrow
    · omega
    · exact h.2 row hrow

/-- There are as many columns as the longest row has cells. -/
theorem foldl_counts_attained : ∀ (rows : List (List Bytes)) (cs : List Nat),
    (rows.foldl maxCountsRow cs).length = cs.length ∨ ∃ row ∈ rows, (rows.foldl maxCountsRow cs).length = row.length := by
  intro rows
  induction rows with
  | nil => simp
  | cons r rows ih =>
    intro cs
    simp only [List.foldl_cons]
    rcases ih (maxCountsRow cs r) with h | ⟨row, hr, h⟩
    · rw [maxCountsRow_length] at h
      by_cases hc : r.length ≤ cs.length
      · left; omega
      · right; exact ⟨r, by simp, by omega⟩
    · right; exact ⟨row, by simp [hr], h⟩

/-! ## Writing a row -/

theorem zipIdx_first {α : Type} (f : α → Nat → Bytes) (l : List α) :
    (l.zipIdx.flatMap fun (a, i) => (if i = 0 then b!"|" else []) ++ f a i ++ b!"|") =
      (if l = [] then [] else [124]) ++ l.zipIdx.flatMap fun (a, i) => f a i ++ [124] := by
  have h : ∀ (l : List α) k, 0 < k → (l.zipIdx k).flatMap (fun (a, i) => (if i = 0 then b!"|" else []) ++ f a i ++ b!"|") =
      (l.zipIdx k).flatMap fun (a, i) => f a i ++ [124] := by
    intro l
    induction l with
    | nil => simp
    | cons a l ih =>
      intro k hk
      simp only [List.zipIdx_cons, List.flatMap_cons]
      rw [ih (k + 1) (by omega)]
      simp [Nat.ne_of_gt hk]
  cases l with
  | nil => simp
  | cons a l =>
    simp only [List.zipIdx_cons, List.flatMap_cons]
    rw [h l _ (by omega)]
    simp

theorem zipIdx_zip {α β : Type} (f : α → Nat → List β) (counts : List Nat) :
    ∀ (l : List α) k, k + l.length ≤ counts.length →
      (l.zipIdx k).flatMap (fun (a, i) => f a (counts.getD i 0)) = (l.zip (counts.drop k)).flatMap fun (a, n) => f a n := by
  intro l
  induction l with
  | nil => simp
  | cons a l ih =>
    intro k hk
    simp only [List.length_cons] at hk
    rw [List.drop_eq_getElem_cons (by omega)]
    simp only [List.zipIdx_cons, List.flatMap_cons, List.zip_cons_cons]
    rw [ih (k + 1) (by omega)]
    simp [List.getD_eq_getElem?_getD, List.getElem?_eq_getElem (show k < counts.length by omega)]

theorem row_eq (p : Padding) (counts : List Nat) (cells : List Bytes) (h : cells.length ≤ counts.length) :
    row p counts cells = (if cells = [] then [] else [124]) ++
      (cells.zip counts).flatMap fun (c, n) => rowCell p n c ++ [124] := by
  rw [row, zipIdx_first (fun cell i => rowCell p (counts.getD i 0) cell)]
  congr 1
  have := zipIdx_zip (fun (c : Bytes) n => rowCell p n c ++ [124]) counts cells 0 (by omega)
  simpa using this

theorem rowCell_pads (p : Padding) (n : Nat) (c : Bytes) :
    ∃ l r, rowCell p n c = List.replicate l 32 ++ c ++ List.replicate r 32 := by
  unfold rowCell
  by_cases hA : p = .aligned
  · refine ⟨1, (n - runeCount c) + 1, ?_⟩
    simp [hA, List.replicate_succ']
  by_cases hB : p = .minimal
  · exact ⟨1, 1, by simp [hB]⟩
  · exact ⟨0, 0, by simp [hA, hB]⟩

theorem zip_pads (p : Padding) : ∀ (cells : List Bytes) (counts : List Nat), cells.length ≤ counts.length →
    ∃ pads : List (Nat × Nat), pads.length = cells.length ∧
      ((cells.zip counts).flatMap fun (c, n) => rowCell p n c ++ [124]) =
      (cells.zip pads).flatMap fun (c, l, r) => List.replicate l 32 ++ c ++ List.replicate r 32 ++ [124] := by
  intro cells
  induction cells with
  | nil => intro _ _; exact ⟨[], by simp⟩
  | cons c cells ih =>
    intro counts h
    cases counts with
    | nil => simp at h
    | cons n counts =>
      obtain ⟨pads, h1, h2⟩ := ih counts (by simpa using h)
      obtain ⟨l, r, hp⟩ := rowCell_pads p n c
      refine ⟨(l, r) :: pads, by simp [h1], ?_⟩
      simp only [List.zip_cons_cons, List.flatMap_cons, h2, hp]

theorem row_written (p : Padding) (counts : List Nat) (cells : List Bytes) (h : cells.length ≤ counts.length) :
    Spec.WrittenRow cells (row p counts cells) := by
  obtain ⟨pads, h1, h2⟩ := zip_pads p cells counts h
  exact ⟨pads, h1, by rw [row_eq _ _ _ h, h2]⟩

/-- The number of characters of a row in the aligned mode. -/
theorem row_width : ∀ (cells : List Bytes) (counts : List Nat), cells.length = counts.length →
    (∀ i, runeCount (cells.getD i []) ≤ counts.getD i 0) →
    runeCount ((cells.zip counts).flatMap fun (c, n) => rowCell .aligned n c ++ [124]) = (counts.map (· + 3)).sum := by
  intro cells
  induction cells with
  | nil => intro counts h _; cases counts <;> simp_all [runeCount, runeCountGo]
  | cons c cells ih =>
    intro counts h hw
    cases counts with
    | nil => simp at h
    | cons n counts =>
      have hc : runeCount c ≤ n := by simpa using hw 0
      have := ih counts (by simpa using h) (fun i => by simpa using hw (i + 1))
      simp only [List.zip_cons_cons, List.flatMap_cons, List.map_cons, List.sum_cons]
      generalize (cells.zip counts).flatMap (fun (c, n) => rowCell .aligned n c ++ [124]) = tl at this ⊢
      simp only [rowCell, reduceCtorEq, or_false, if_true, List.append_assoc, List.singleton_append, List.cons_append, List.nil_append]
      rw [runeCount_cons _ _ (by decide)]
      have h2 : ∀ (m : Nat) (s : Bytes), ∃ x, List.replicate m SP ++ SP :: s = SP :: x := by
        intro m s; cases m <;> simp [List.replicate_succ]
      obtain ⟨x, hx⟩ := h2 (n - runeCount c) (124 :: tl)
      rw [hx, runeCount_cut _ _ _ (by decide), ← hx, runeCount_replicate _ _ _ (by decide),
        runeCount_cons _ _ (by decide), runeCount_cons _ _ (by decide), this]
      omega

/-! ## The delimiter row -/

/-- The column of the delimiter row. -/
def delimCol (p : Padding) (align : Bytes) (n : Nat) : Bool × Bool × Nat :=
  let l := decide (align = b!"left" ∨ align = b!"center")
  let r := decide (align = b!"right" ∨ align = b!"center")
  (l, r, (if p = .aligned then n else 1) + (if l then 0 else 1) + (if r then 0 else 1) - 1)

theorem underlineCell_eq (p : Padding) (align : Bytes) (n : Nat) (hn : 1 ≤ n) :
    underlineCell p align n = Spec.delimiterCell (delimCol p align n).1 (delimCol p align n).2.1 (delimCol p align n).2.2 := by
  unfold underlineCell Spec.delimiterCell delimCol
  obtain ⟨n, rfl⟩ : ∃ m, n = m + 1 := ⟨n - 1, by omega⟩
  by_cases hl : align = b!"left" ∨ align = b!"center" <;> by_cases hr : align = b!"right" ∨ align = b!"center" <;>
    by_cases hp : p = .aligned <;> simp only [hl, hr, hp, if_true, if_false, decide_true, decide_false] <;>
    simp [List.replicate_succ, ← List.replicate_succ'] <;> simp [List.replicate_succ']

/-- The columns of the delimiter row. -/
def delimCols (p : Padding) (alignments : List Bytes) (counts : List Nat) : List (Bool × Bool × Nat) :=
  counts.zipIdx.map fun (n, i) => delimCol p (alignmentFor alignments i) n

theorem headerUnderline_eq (p : Padding) (alignments : List Bytes) (counts : List Nat) (hc : ∀ n ∈ counts, 1 ≤ n) :
    headerUnderline p alignments counts = Spec.delimiterRow (delimCols p alignments counts) := by
  rw [headerUnderline, zipIdx_first (fun n i => underlineCell p (alignmentFor alignments i) n), Spec.delimiterRow, delimCols]
  have h : ∀ (cs : List Nat) k, (∀ n ∈ cs, 1 ≤ n) →
      ((cs.zipIdx k).flatMap fun (n, i) => underlineCell p (alignmentFor alignments i) n ++ [124]) =
      ((cs.zipIdx k).map fun (n, i) => delimCol p (alignmentFor alignments i) n).flatMap fun (l, r, n) => Spec.delimiterCell l r n ++ [124] := by
    intro cs
    induction cs with
    | nil => simp
    | cons n cs ih =>
      intro k hcs
      simp only [List.zipIdx_cons, List.flatMap_cons, List.map_cons]
      rw [ih _ (fun m hm => hcs m (by simp [hm])), underlineCell_eq _ _ _ (hcs n (by simp))]
  rw [h _ _ hc]
  cases counts <;> simp

theorem underline_width (alignments : List Bytes) : ∀ (counts : List Nat) k,
    runeCount ((counts.zipIdx k).flatMap fun (n, i) => underlineCell .aligned (alignmentFor alignments i) n ++ [124]) =
      (counts.map (· + 3)).sum := by
  intro counts
  induction counts with
  | nil => simp [runeCount, runeCountGo]
  | cons n counts ih =>
    intro k
    simp only [List.zipIdx_cons, List.flatMap_cons, List.map_cons, List.sum_cons]
    rw [← ih (k + 1)]
    generalize (counts.zipIdx (k + 1)).flatMap (fun (n, i) => underlineCell .aligned (alignmentFor alignments i) n ++ [124]) = tl
    simp only [underlineCell, if_true]
    split <;> split <;>
      simp only [List.append_assoc, List.singleton_append, List.cons_append, List.nil_append] <;>
      rw [runeCount_cons _ _ (by decide), runeCount_replicate _ _ _ (by decide), runeCount_cons _ _ (by decide),
        runeCount_cons _ _ (by decide)] <;> omega

/-! ## The whole table -/

theorem maxCountsRow_pos (cs : List Nat) (row : List Bytes) (h : ∀ n ∈ cs, 1 ≤ n) : ∀ n ∈ maxCountsRow cs row, 1 ≤ n := by
  induction row generalizing cs with
  | nil => cases cs <;> simpa [maxCountsRow] using h
  | cons c row ih =>
    cases cs with
    | nil =>
      simp only [maxCountsRow, List.mem_cons]
      rintro n (rfl | hn)
      · simp [defaultCellWidth]; omega
      · exact ih [] (by simp) n hn
    | cons m cs =>
      simp only [maxCountsRow, List.mem_cons]
      rintro n (rfl | hn)
      · have := h m (by simp); omega
      · exact ih cs (fun x hx => h x (by simp [hx])) n hn

theorem counts_pos (rows : List (List Bytes)) : ∀ n ∈ calculateMaxCounts rows, 1 ≤ n := by
  have h : ∀ (rows : List (List Bytes)) (cs : List Nat), (∀ n ∈ cs, 1 ≤ n) → ∀ n ∈ rows.foldl maxCountsRow cs, 1 ≤ n := by
    intro rows
    induction rows with
    | nil => intro cs h; simpa using h
    | cons r rows ih => intro cs h; exact ih _ (maxCountsRow_pos cs r h)
  exact h rows [] (by simp)

theorem fillUpRows_mem {rows : List (List Bytes)} {n : Nat} {r : List Bytes} (hn : ∀ row ∈ rows, row.length ≤ n)
    (h : r ∈ fillUpRows rows n) : r.length = n ∧ ∃ row ∈ rows, r = row ++ List.replicate (n - row.length) [] := by
  simp only [fillUpRows, List.mem_map] at h
  obtain ⟨row, hr, rfl⟩ := h
  have := hn row hr
  exact ⟨by simp; omega, row, hr, rfl⟩

theorem counts_length (rows : List (List Bytes)) : ∀ row ∈ rows, row.length ≤ (calculateMaxCounts rows).length :=
  (foldl_counts_length rows []).2

theorem render_eq (p : Padding) (al : List Bytes) (first : List Bytes) (rest : List (List Bytes)) (cap : Option Bytes) :
    let counts := calculateMaxCounts (first :: rest)
    let filled := fillUpRows (first :: rest) counts.length
    render p al (first :: rest) cap =
      Spec.tableText (row p counts (filled.headD [])) (headerUnderline p al counts)
        ((filled.drop 1).map (row p counts)) cap := by
  intro counts filled
  simp only [render, Spec.tableText]
  simp only [← show counts = calculateMaxCounts (first :: rest) from rfl, ← show filled = fillUpRows (first :: rest) counts.length from rfl]
  rw [List.flatMap_map]
  rfl

end Verif.Table
