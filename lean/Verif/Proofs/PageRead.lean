import Verif.Proofs.PageSolid
/-!
# Reading the lines of pieces one after the other
-/
namespace Verif.Page
open Verif Verif.Escape Verif.Spec Verif.Commonmark Verif.TextUtils

/-- The length of lines, with the newlines. -/
def size : List Bytes → Nat
  | [] => 0
  | l :: ls => l.length + 1 + size ls

theorem size_append (a b : List Bytes) : size (a ++ b) = size a + size b := by
  induction a with
  | nil => simp [size]
  | cons l a ih => simp only [List.cons_append, size, ih]; omega

/-- A line that is not blank and not indented. -/
structure Visible (l : Bytes) : Prop where
  ne : l ≠ []
  h32 : l.head? ≠ some 32
  h9 : l.head? ≠ some 9

theorem Visible.blank {l : Bytes} (h : Visible l) : isBlankLine l = false := by
  cases l with
  | nil => exact absurd rfl h.ne
  | cons b l =>
    have h1 := h.h32; have h2 := h.h9
    simp at h1 h2
    simp [isBlankLine, h1, h2]

/-- What may be behind a piece: nothing, an empty line, or an empty line and another piece (which is no list if the piece is a list). -/
def TailOK (isList : Bool) (tail : List Bytes) : Prop :=
  tail = [] ∨ tail = [[]] ∨ ∃ l rest, tail = [] :: l :: rest ∧ Visible l ∧
    (isList = true → readMarker l = none ∨ isThematicBreak l = true)

/-- The lines `F` are read as `m`, whatever comes behind them. -/
def Reads (isList : Bool) (F : List Bytes) (m : List Md) : Prop :=
  ∀ tail r, TailOK isList tail → (∀ f, 2 * size tail < f → readBlocks f tail = some r) →
    ∀ f, 2 * size (F ++ tail) < f → readBlocks f (F ++ tail) = some (m ++ r)

/-- How the lines of a piece begin. -/
def Begins (bullet : Bytes) (isList : Bool) (F : List Bytes) : Prop :=
  ∃ l ls, F = l :: ls ∧ Visible l ∧ First bullet l ∧ (isList = false → readMarker l = none ∨ isThematicBreak l = true)

theorem TailOK.cases {isList : Bool} {tail : List Bytes} (h : TailOK isList tail) : tail = [] ∨ ∃ t, tail = [] :: t := by
  rcases h with h | h | ⟨l, rest, h, -⟩
  · exact .inl h
  · exact .inr ⟨_, h⟩
  · exact .inr ⟨_, h⟩

theorem readBlocks_cons (f : Nat) (l : Bytes) (ls : List Bytes) : readBlocks (f + 1) (l :: ls) =
    if isBlankLine l then readBlocks f ls
    else if l.head? = some 32 ∨ l.head? = some 9 then none
    else if isThematicBreak l then (readBlocks f ls).map (.rule :: ·)
    else
    match readAtx l with
    | some (n, s) => (readInline s).bind fun t => (readBlocks f ls).map (.heading n t :: ·)
    | none =>
    match readFenced (l :: ls) with
    | some b =>
      if b.closed ∧ 92 ∉ b.info ∧ 38 ∉ b.info then (readBlocks f b.rest).map (.code b.info b.code :: ·) else none
    | none =>
    if l = b!"<!--THE END-->" then readBlocks f ls
    else
    match readMarker l with
    | some m =>
      (readList f m l ls).bind fun r => (readBlocks f r.2).map (.list m.number r.1 :: ·)
    | none =>
    if l.head? = some 62 then
      if (l :: ls).takeWhile (b!"> ".isPrefixOf ·) ≠ [] ∧ ((l :: ls).dropWhile (b!"> ".isPrefixOf ·)).head?.all isBlankLine then
        (readBlocks f (((l :: ls).takeWhile (b!"> ".isPrefixOf ·)).map (·.drop 2))).bind fun q =>
          (readBlocks f ((l :: ls).dropWhile (b!"> ".isPrefixOf ·))).map (.quote q :: ·)
      else none
    else if isBulletItem l ∨ isOrderedItem l ∨ l.head? = some 60 then none
    else
    match ls with
    | [] => (readInline l).map fun t => [.paragraph t]
    | l2 :: ls2 =>
      if isBlankLine l2 then (readInline l).bind fun t => (readBlocks f ls2).map (.paragraph t :: ·)
      else if (l2.head? = some 61 ∨ l2.head? = some 45) ∧ isSetextUnderline l2 then
        (readInline l).bind fun t => (readBlocks f ls2).map (.heading (if l2.head? = some 61 then 1 else 2) t :: ·)
      else none := by
  rw [readBlocks.eq_def]
  rfl

theorem read_nil {r : List Md} (h : ∀ f, 2 * size [] < f → readBlocks f [] = some r) : r = [] := by
  have := h 1 (by simp [size])
  simpa [readBlocks] using this.symm

theorem read_empty {t : List Bytes} {r : List Md} (h : ∀ f, 2 * size ([] :: t) < f → readBlocks f ([] :: t) = some r) :
    ∀ f, 2 * size ([] :: t) ≤ f → readBlocks f t = some r := by
  intro f hf
  have := h (f + 1) (by omega)
  rw [readBlocks_cons] at this
  simpa [isBlankLine] using this

theorem ParaLine.visible {bullet : Bytes} {v : List Span} {l : Bytes} (h : ParaLine bullet v l) : Visible l := ⟨h.nonempty, h.blank.1, h.blank.2⟩

theorem reads_para {bullet : Bytes} {v : List Span} {l : Bytes} (h : ParaLine bullet v l) : Reads false [l] [.paragraph v] := by
  intro tail r ht hr f hf
  cases f with
  | zero => omega
  | succ f =>
    rw [List.singleton_append, size] at hf
    have hend : ¬ l = b!"<!--THE END-->" := by
      rintro rfl; exact h.head.1 rfl
    rw [List.singleton_append, readBlocks_cons, h.visible.blank, h.thematic, h.atx, h.fence, h.marker, h.item.1, h.item.2, h.plain]
    rw [if_neg (by simp), if_neg (by simp [h.visible.h32, h.visible.h9]), if_neg (by simp)]
    simp only [hend, if_false]
    rw [if_neg h.head.2, if_neg (by simp [h.head])]
    rcases ht.cases with rfl | ⟨t, rfl⟩
    · rw [read_nil hr]; rfl
    · have := read_empty hr f (by omega)
      simp [isBlankLine, this]

theorem reads_setext {bullet : Bytes} {v : List Span} {l u : Bytes} (h : ParaLine bullet v l) (hu : isSetextUnderline u = true) {n : Nat} (hn : n = 1 ∨ n = 2)
    (hh : u.head? = some (if n = 1 then 61 else 45)) : Reads false [l, u] [.heading n v] := by
  intro tail r ht hr f hf
  cases f with
  | zero => omega
  | succ f =>
    rw [List.cons_append, List.singleton_append, size, size] at hf
    have hend : ¬ l = b!"<!--THE END-->" := by
      rintro rfl; exact h.head.1 rfl
    have hub : isBlankLine u = false := by
      cases u with
      | nil => simp at hh
      | cons b u =>
        have : b = if n = 1 then 61 else 45 := by simpa using hh
        rcases hn with rfl | rfl <;> (rw [this]; simp [isBlankLine])
    rw [List.cons_append, List.singleton_append, readBlocks_cons, h.visible.blank, h.thematic, h.atx, h.fence, h.marker, h.item.1, h.item.2, h.plain]
    rw [if_neg (by simp), if_neg (by simp [h.visible.h32, h.visible.h9]), if_neg (by simp)]
    simp only [hend, if_false]
    rw [if_neg h.head.2, if_neg (by simp [h.head])]
    have := hr f (by omega)
    rcases hn with rfl | rfl <;> simp [hub, hu, hh, this]

theorem reads_atx {l text : Bytes} {v : List Span} {n : Nat} (hv : Visible l) (ht : isThematicBreak l = false) (ha : readAtx l = some (n, text))
    (hp : readInline text = some v) : Reads false [l] [.heading n v] := by
  intro tail r _ hr f hf
  cases f with
  | zero => omega
  | succ f =>
    rw [List.singleton_append, size] at hf
    rw [List.singleton_append, readBlocks_cons, hv.blank, ht, ha]
    rw [if_neg (by simp), if_neg (not_or.2 ⟨hv.h32, hv.h9⟩), if_neg (by simp)]
    simp only []
    rw [hp, hr f (by omega)]; rfl

theorem reads_rule {l : Bytes} (hv : Visible l) (ht : isThematicBreak l = true) : Reads false [l] [.rule] := by
  intro tail r _ hr f hf
  cases f with
  | zero => omega
  | succ f =>
    rw [List.singleton_append, size] at hf
    rw [List.singleton_append, readBlocks_cons, hv.blank, ht]
    rw [if_neg (by simp), if_neg (not_or.2 ⟨hv.h32, hv.h9⟩), if_pos rfl, hr f (by omega)]; rfl

theorem reads_comment : Reads false [b!"<!--THE END-->"] [] := by
  intro tail r _ hr f hf
  cases f with
  | zero => omega
  | succ f =>
    rw [List.singleton_append, size] at hf
    have e1 : isBlankLine b!"<!--THE END-->" = false := by decide
    have e2 : isThematicBreak b!"<!--THE END-->" = false := by decide
    have e3 : readAtx b!"<!--THE END-->" = none := by decide
    have e4 : ∀ ls, readFenced (b!"<!--THE END-->" :: ls) = none := by
      intro ls; simp [readFenced]
    rw [List.singleton_append, readBlocks_cons, e1, e2, e3, e4]
    rw [if_neg (by simp), if_neg (by decide), if_neg (by simp)]
    simp only [if_true]
    rw [hr f (by omega)]; rfl

theorem reads_code {c : UInt8} (hc : c = 96 ∨ c = 126) {n : Nat} (hn : 3 ≤ n) {info code : Bytes}
    (hi : c ∉ info ∧ 32 ∉ info ∧ 9 ∉ info) (hi2 : 92 ∉ info ∧ 38 ∉ info) (hl : LongerThanRuns c n code) :
    Reads false ((List.replicate n c ++ info) :: (lines code ++ [List.replicate n c])) [.code info (lines code)] := by
  intro tail r _ hr f hf
  cases f with
  | zero => omega
  | succ f =>
    obtain ⟨m, rfl⟩ : ∃ m, n = m + 1 := ⟨n - 1, by omega⟩
    rw [List.cons_append, List.append_assoc, List.singleton_append] at hf ⊢
    have hsz : size tail + 1 ≤ size (lines code ++ List.replicate (m + 1) c :: tail) := by
      rw [size_append, size]; omega
    rw [size] at hf
    have e : List.replicate (m + 1) c ++ info = c :: (List.replicate m c ++ info) := by rw [List.replicate_succ]; rfl
    have hv : Visible (List.replicate (m + 1) c ++ info) := by
      rw [e]; rcases hc with rfl | rfl <;> exact ⟨by simp, by simp, by simp⟩
    have ht : isThematicBreak (List.replicate (m + 1) c ++ info) = false := by
      rw [e, isThematicBreak]
      rcases hc with rfl | rfl <;> simp
    have ha : readAtx (List.replicate (m + 1) c ++ info) = none := by
      rw [readAtx, dropIndent3_id hv.h32, e]
      rcases hc with rfl | rfl <;> simp
    have hf' := readFenced_block hc hn hi hl tail
    rw [readBlocks_cons, hv.blank, ht, ha, hf']
    rw [if_neg (by simp), if_neg (not_or.2 ⟨hv.h32, hv.h9⟩), if_neg (by simp)]
    simp only [hi2.1, hi2.2, not_false_eq_true, and_self, if_true]
    rw [hr f (by omega)]; rfl

end Verif.Page
