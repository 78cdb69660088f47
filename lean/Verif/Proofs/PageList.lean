import Verif.Proofs.PageLeaf
import Verif.Props.Lists
/-!
# Lists of a page
-/
namespace Verif.Page
open Verif Verif.Escape Verif.Spec Verif.Commonmark Verif.TextUtils

variable {dig : Nat → Bool} {hs : List Handler} {bullet : Bytes}

/-! ## Markers -/

/-- The prefix of an item: a bullet, or a number of at most nine digits. -/
structure Pfx (bullet : Bytes) (ordered : Bool) (w : Nat) (p : Bytes) (num : Option Nat) : Prop where
  shape : (ordered = false ∧ p = bullet ++ [32] ∧ num = none) ∨
    (ordered = true ∧ ∃ ds, p = ds ++ [46, 32] ∧ Digits ds ∧ ds.length ≤ 9 ∧ num = some (decimalValue ds))
  len : p.length = w

/-- The kind of a marker. -/
def markerKind (bullet : Bytes) (ordered : Bool) : UInt8 := if ordered then 46 else bullet.headD 0

theorem isDigit_of {d : UInt8} (h : 48 ≤ d ∧ d ≤ 57) : isDigit d = true := by
  rw [isDigit]; simp [h]

theorem takeWhile_all {p : UInt8 → Bool} : ∀ {ds : Bytes} {y : UInt8} {s : Bytes}, (∀ d ∈ ds, p d = true) → p y = false →
    (ds ++ y :: s).takeWhile p = ds ∧ (ds ++ y :: s).dropWhile p = y :: s := fun h h' => takeWhile_false_append h h'

theorem Pfx.marker {ordered : Bool} {w : Nat} {p l : Bytes} {num : Option Nat} (hbul : bullet ∈ [b!"-", b!"+", b!"*"])
    (h : Pfx bullet ordered w p num) (hl : Visible l) : readMarker (p ++ l) = some ⟨markerKind bullet ordered, num, w⟩ := by
  obtain ⟨x, l', rfl⟩ : ∃ x l', l = x :: l' := by
    cases l with
    | nil => exact absurd rfl hl.ne
    | cons x l' => exact ⟨x, l', rfl⟩
  have h1 := hl.h32; have h2 := hl.h9
  simp at h1 h2
  have hlen := h.len
  rcases h.shape with ⟨rfl, rfl, rfl⟩ | ⟨rfl, ds, rfl, hd, hn, rfl⟩
  · simp at hbul
    rcases hbul with rfl | rfl | rfl <;>
      (simp at hlen; subst hlen; simp [readMarker, markerKind, h1, h2])
  · obtain ⟨d, ds', rfl⟩ : ∃ d ds', ds = d :: ds' := by
      cases ds with
      | nil => exact absurd rfl hd.1
      | cons d ds' => exact ⟨d, ds', rfl⟩
    have hd1 := hd.2 d (by simp)
    have hdn : ¬ (d = 45 ∨ d = 43 ∨ d = 42) := by
      rintro (rfl | rfl | rfl) <;> revert hd1 <;> decide
    have ht := takeWhile_all (p := isDigit) (ds := d :: ds') (y := 46) (s := 32 :: x :: l') (fun d' hd' => isDigit_of (hd.2 d' hd')) (by decide)
    have e : (d :: ds' ++ [46, 32]) ++ x :: l' = d :: (ds' ++ [46, 32] ++ x :: l') := by simp
    have e2 : d :: (ds' ++ [46, 32] ++ x :: l') = d :: ds' ++ 46 :: 32 :: x :: l' := by simp
    rw [e, readMarker.eq_def]
    simp only []
    rw [if_neg hdn, e2, ht.1, ht.2, if_pos ⟨by simp, hn⟩]
    simp only []
    rw [if_pos ⟨.inl trivial, by simp [h1, h2]⟩]
    simp at hlen
    simp [markerKind, ← hlen]

theorem Pfx.thematic {ordered : Bool} {w : Nat} {p l : Bytes} {num : Option Nat} (hbul : bullet ∈ [b!"-", b!"+", b!"*"])
    (h : Pfx bullet ordered w p num) (hl : First bullet l) : isThematicBreak (p ++ l) = false := by
  rcases h.shape with ⟨rfl, rfl, rfl⟩ | ⟨rfl, ds, rfl, hd, -, rfl⟩
  · simp at hbul
    rcases hl with rfl | ⟨x, hx, h1, h2, h3⟩
    · rw [isThematicBreak]; simp
    · have key : ∀ c : UInt8, c ≠ 32 → c ≠ 9 → [x] ≠ [c] → isThematicBreak ([c] ++ [32] ++ l) = false := by
        intro c hc1 hc2 hxc
        rw [isThematicBreak]
        have e : ([c] ++ [32] ++ l).filter (fun b => b != 32 && b != 9) = c :: l.filter (fun b => b != 32 && b != 9) := by
          simp [hc1, hc2]
        rw [e]
        have hall : (c :: l.filter (fun b => b != 32 && b != 9)).all (· == c) = false := by
          rw [List.all_eq_false]
          refine ⟨x, ?_, by simpa using hxc⟩
          simp [hx, h2, h3]
        simp only [hall, Bool.and_false, Bool.false_and]
      rcases hbul with rfl | rfl | rfl
      · exact key 45 (by decide) (by decide) h1
      · exact key 43 (by decide) (by decide) h1
      · exact key 42 (by decide) (by decide) h1
  · obtain ⟨d, ds', rfl⟩ : ∃ d ds', ds = d :: ds' := by
      cases ds with
      | nil => exact absurd rfl hd.1
      | cons d ds' => exact ⟨d, ds', rfl⟩
    have hd1 := hd.2 d (by simp)
    have hdn : d ≠ 32 ∧ d ≠ 9 ∧ d ≠ 45 ∧ d ≠ 95 ∧ d ≠ 42 := by
      refine ⟨?_, ?_, ?_, ?_, ?_⟩ <;> (rintro rfl; revert hd1; decide)
    rw [isThematicBreak]
    simp [hdn]

/-- The bytes of a prefix. -/
theorem Pfx.bytes {ordered : Bool} {w : Nat} {p : Bytes} {num : Option Nat} (hbul : bullet ∈ [b!"-", b!"+", b!"*"])
    (h : Pfx bullet ordered w p num) : ∃ q, p = q ++ [32] ∧ q ≠ [] ∧ ∀ b ∈ q, 42 ≤ b ∧ b ≤ 57 := by
  rcases h.shape with ⟨rfl, rfl, rfl⟩ | ⟨rfl, ds, rfl, hd, -, rfl⟩
  · refine ⟨bullet, rfl, ?_, ?_⟩ <;>
      (simp at hbul; rcases hbul with rfl | rfl | rfl <;> decide)
  · refine ⟨ds ++ [46], by simp, by simp, ?_⟩
    intro b hb
    rw [List.mem_append, List.mem_singleton] at hb
    rcases hb with hb | rfl
    · have := hd.2 b hb
      refine ⟨UInt8.le_trans (by decide) this.1, this.2⟩
    · decide

/-! ## The text of a list -/

/-- The items with their prefixes, one on each line; the lines of an item are indented. -/
def listText (pfx : Nat → Bytes) (w : Nat) : Nat → List Bytes → Bytes
  | _, [] => []
  | i, y :: ys => pfx i ++ multiLineListItem y w ++ (if ys = [] then [] else [10]) ++ listText pfx w (i + 1) ys

theorem listItemsGo_eq (unEscape : Bytes → Bytes) (pfx : Nat → Bytes) (w : Nat) : ∀ (items : List Bytes) (i : Nat),
    listItemsGo unEscape pfx w i items =
      listText pfx w i (items.map fun it => unEscape (trimUnnecessaryHardLineBreaks (trimConsecutiveNewlines it))) := by
  intro items
  induction items with
  | nil => intro i; rfl
  | cons it items ih => intro i; rw [listItemsGo, List.map_cons, listText, ih]; simp

theorem multi_ne {y : Bytes} (k : Nat) (h : y ≠ []) : multiLineListItem y k ≠ [] := by
  cases y with
  | nil => exact absurd rfl h
  | cons b y =>
    by_cases hb : b = 10
    · subst hb; rw [multi_nl]; simp
    · by_cases hp : codeNewline <+: b :: y
      · obtain ⟨t, e⟩ := hp
        rw [← e, multi_code]; simp [codeNewline]
      · rw [multi_other k y hb hp]; simp

theorem multi_id {k : Nat} (hk : 1 ≤ k) : ∀ s : Bytes, 10 ∉ multiLineListItem s k → 32 ∉ multiLineListItem s k → multiLineListItem s k = s := by
  obtain ⟨k, rfl⟩ : ∃ j, k = j + 1 := ⟨k - 1, by omega⟩
  refine replaceAll_induct (old := codeNewline) (by decide) ?_ ?_ ?_
  · intro _ _; rfl
  · intro s _ _ h
    exfalso; apply h
    rw [multi_code, List.replicate_succ]; simp
  · intro b s hp ih h1 h2
    by_cases hb : b = 10
    · exfalso; apply h1; subst hb; rw [multi_nl]; simp
    · rw [multi_other _ s hb hp] at h1 h2 ⊢
      rw [ih (fun h => h1 (by simp [h])) (fun h => h2 (by simp [h]))]

theorem ws_single : ∀ w ∈ whitespace, 10 ∈ w ∨ 32 ∈ w → w.length = 1 := by decide

theorem trailing_spaces {p : Bytes} (hne : p ≠ []) (h : NoTrailingWhitespace p) (t : Bytes) {k : Nat} (hk : 1 ≤ k) :
    NoTrailingWhitespace (t ++ (List.replicate k 32 ++ p)) := by
  obtain ⟨k, rfl⟩ : ∃ j, k = j + 1 := ⟨k - 1, by omega⟩
  intro w hw hs
  rw [List.replicate_succ', ← List.append_assoc, ← List.append_assoc, List.append_assoc, List.singleton_append] at hs
  by_cases h32 : 32 ∈ w
  · have h1 := ws_single w hw (.inr h32)
    refine h w hw (List.suffix_of_suffix_length_le hs ((List.suffix_cons _ _).trans (List.suffix_append _ _)) ?_)
    have := List.length_pos_iff.2 hne
    omega
  · exact h w hw (suffix_cut h32 hs)

theorem multi_trailing {k : Nat} (hk : 1 ≤ k) : ∀ s : Bytes, s ≠ [] → NoTrailingWhitespace s → ¬ codeNewline <:+ s →
    NoTrailingWhitespace (multiLineListItem s k) := by
  refine replaceAll_induct (old := codeNewline) (by decide) ?_ ?_ ?_
  · intro h; exact absurd rfl h
  · intro s ih _ ht hc
    have hs : s ≠ [] := by rintro rfl; exact hc ⟨[], by simp⟩
    have := ih hs (NoTrailing_suffix ht (List.suffix_append _ _)) fun h => hc (h.trans (List.suffix_append _ _))
    rw [multi_code]
    exact trailing_spaces (multi_ne k hs) this _ hk
  · intro b s hp ih _ ht hc
    by_cases hs : s = []
    · subst hs
      by_cases hb : b = 10
      · subst hb; exact absurd ⟨[], rfl⟩ (ht [10] (by decide))
      · rw [multi_other _ _ hb hp]
        exact ht
    · have ih' := ih hs (NoTrailing_suffix ht (List.suffix_cons _ _)) fun h => hc (h.trans (List.suffix_cons _ _))
      have hne := multi_ne k hs
      by_cases hb : b = 10
      · subst hb
        rw [multi_nl]
        exact trailing_spaces hne ih' [10] hk
      · rw [multi_other _ _ hb hp]
        intro w hw hsuf
        rcases List.suffix_cons_iff.1 hsuf with e | hsuf
        · have h1 : ∀ v : UInt8, v = 10 ∨ v = 32 → v ∉ multiLineListItem s k := by
            intro v hv hm
            have hw' := ws_single w hw (by rw [e]; rcases hv with rfl | rfl; exact .inl (by simp [hm]); exact .inr (by simp [hm]))
            rw [e] at hw'
            simp at hw'
            exact hne hw'
          have e2 := multi_id hk s (h1 10 (.inl rfl)) (h1 32 (.inr rfl))
          rw [e2] at e
          exact ht w hw (by rw [e]; exact List.suffix_refl _)
        · exact ih' w hw hsuf

theorem multi_code_suffix {k : Nat} (hk : 1 ≤ k) : ∀ s : Bytes, ¬ codeNewline <:+ s → ¬ codeNewline <:+ multiLineListItem s k := by
  obtain ⟨k, rfl⟩ : ∃ j, k = j + 1 := ⟨k - 1, by omega⟩
  refine replaceAll_induct (old := codeNewline) (by decide) ?_ ?_ ?_
  · intro h; exact h
  · intro s ih hc h
    rw [multi_code, List.replicate_succ', List.append_assoc, List.singleton_append, ← List.append_assoc] at h
    exact ih (fun h => hc (h.trans (List.suffix_append _ _))) (suffix_cut (by decide) h)
  · intro b s hp ih hc h
    have ih' := ih fun h => hc (h.trans (List.suffix_cons _ _))
    by_cases hb : b = 10
    · subst hb
      rw [multi_nl] at h
      have h := suffix_cut (t := []) (by decide) h
      rw [List.replicate_succ', List.append_assoc, List.singleton_append] at h
      exact ih' (suffix_cut (by decide) h)
    · rw [multi_other _ _ hb hp] at h
      rcases List.suffix_cons_iff.1 h with e | h
      · apply hp
        rw [codeNewline, List.cons.injEq] at e
        rw [codeNewline, ← e.1, List.cons_prefix_cons]
        exact ⟨rfl, multi_prefix _ s (by rw [← e.2]; exact List.prefix_refl _)⟩
      · exact ih' h

theorem multi_mem {k : Nat} {b : UInt8} (hb : b ≠ 32) : ∀ s : Bytes, b ∈ multiLineListItem s k → b ∈ s := by
  refine replaceAll_induct (old := codeNewline) (by decide) ?_ ?_ ?_
  · intro h; exact h
  · intro s ih h
    rw [multi_code, List.mem_append, List.mem_append, List.mem_replicate] at h
    rcases h with h | h | h
    · simp [h]
    · exact absurd h.2 hb
    · simp [ih h]
  · intro c s hp ih h
    by_cases hc : c = 10
    · subst hc
      rw [multi_nl, List.mem_cons, List.mem_append, List.mem_replicate] at h
      rcases h with h | h | h
      · simp [h]
      · exact absurd h.2 hb
      · simp [ih h]
    · rw [multi_other _ _ hc hp, List.mem_cons] at h
      rcases h with h | h
      · simp [h]
      · simp [ih h]

theorem ws_range : ∀ w ∈ whitespace, ∀ b ∈ w, ¬ (42 ≤ b ∧ b ≤ 57) := by decide

theorem not_range {q : Bytes} (h : ∀ b ∈ q, 42 ≤ b ∧ b ≤ 57) {v : UInt8} (hv : ¬ (42 ≤ v ∧ v ≤ 57)) : v ∉ q := fun hm => hv (h v hm)

theorem danger_visible : ∀ (q : Bytes) (d : Nat), q ≠ [] → 10 ∉ q → 32 ∉ q → danger d q = some 0 := by
  intro q
  induction q with
  | nil => intro d h; exact absurd rfl h
  | cons b q ih =>
    intro d _ h1 h2
    rw [List.mem_cons, not_or] at h1 h2
    rw [danger, if_neg (Ne.symm h1.1), if_neg (Ne.symm h2.1)]
    cases q with
    | nil => rfl
    | cons c q => exact ih 0 (by simp) h1.2 h2.2

/-- A list is a piece of text that is not cleaned up. -/
theorem listText_solid (hbul : bullet ∈ [b!"-", b!"+", b!"*"]) {ordered : Bool} {w : Nat} (hw : 1 ≤ w) {pfx : Nat → Bytes} :
    ∀ (ys : List Bytes) (i : Nat), ys ≠ [] → (∀ y ∈ ys, Solid y) → (∀ j, i ≤ j → j < i + ys.length → ∃ num, Pfx bullet ordered w (pfx j) num) →
      Solid (listText pfx w i ys) := by
  intro ys
  induction ys with
  | nil => intro i h; exact absurd rfl h
  | cons y ys ih =>
    intro i _ hy hp
    obtain ⟨num, hpi⟩ := hp i (Nat.le_refl _) (by simp)
    obtain ⟨q, eq, hq, hqr⟩ := hpi.bytes hbul
    have hs := hy y (by simp)
    have hne := multi_ne w hs.ne
    have hmt := multi_trailing hw y hs.ne hs.trailing hs.code
    have hqc : ¬ codeNewline <:+: q := fun hi => not_range hqr (v := 239) (by decide) (hi.subset (by decide))
    have hlead : ∀ t, NoLeadingWhitespace (q ++ t) := by
      intro t
      cases q with
      | nil => exact absurd rfl hq
      | cons b q => exact noLeading_of_head (fun w hw hb => ws_range w hw b hb (hqr b (by simp))) _
    have hd : ∀ d, d ≤ 2 → danger d (soft (q ++ 32 :: multiLineListItem y w)) = some 0 := by
      intro d hd
      rw [soft_cut (by decide), soft_id hqc, danger_append,
        danger_visible q d hq (not_range hqr (by decide)) (not_range hqr (by decide)), Option.bind_some, danger, if_neg (by decide),
        if_pos rfl, danger_multi]
      exact hs.safe 1 (by omega)
    rw [listText, eq]
    by_cases hys : ys = []
    · subst hys
      rw [if_pos rfl, listText, List.append_nil, List.append_nil, List.append_assoc, List.singleton_append]
      refine ⟨by simp, hlead _, ?_, hd, fun h => ?_⟩
      · exact trailing_spaces hne hmt q (k := 1) (Nat.le_refl _)
      · exact multi_code_suffix hw y hs.code (suffix_cut (by decide) h)
    · have ih' := ih (i + 1) hys (fun y' hy' => hy y' (by simp [hy'])) (fun j h1 h2 => hp j (by omega) (by simp; omega))
      rw [if_neg hys]
      have e : q ++ [32] ++ multiLineListItem y w ++ [10] ++ listText pfx w (i + 1) ys =
          (q ++ 32 :: multiLineListItem y w) ++ 10 :: listText pfx w (i + 1) ys := by simp
      rw [e]
      refine ⟨by simp, ?_, trailing_append ih'.ne ih'.trailing _, fun d hd' => ?_, fun h => ih'.code (suffix_cut (by decide) h)⟩
      · rw [List.append_assoc]; exact hlead _
      · rw [soft_cut (by decide), danger_append, hd d hd', Option.bind_some, danger, if_pos rfl, if_pos (by omega)]
        exact ih'.safe 1 (by omega)

theorem listText_mem (hbul : bullet ∈ [b!"-", b!"+", b!"*"]) {ordered : Bool} {w : Nat} {pfx : Nat → Bytes} {b : UInt8}
    (hb : ¬ (42 ≤ b ∧ b ≤ 57)) (h32 : b ≠ 32) (h10 : b ≠ 10) :
    ∀ (ys : List Bytes) (i : Nat), (∀ y ∈ ys, b ∉ y) → (∀ j, i ≤ j → j < i + ys.length → ∃ num, Pfx bullet ordered w (pfx j) num) →
      b ∉ listText pfx w i ys := by
  intro ys
  induction ys with
  | nil => intro i _ _ h; simp [listText] at h
  | cons y ys ih =>
    intro i hy hp
    obtain ⟨num, hpi⟩ := hp i (Nat.le_refl _) (by simp)
    obtain ⟨q, eq, hq, hqr⟩ := hpi.bytes hbul
    have ih' := ih (i + 1) (fun y' hy' => hy y' (by simp [hy'])) (fun j h1 h2 => hp j (by omega) (by simp; omega))
    rw [listText, eq]
    intro h
    rw [List.mem_append, List.mem_append, List.mem_append, List.mem_append, List.mem_singleton] at h
    rcases h with (((h | h) | h) | h) | h
    · exact not_range hqr hb h
    · exact h32 h
    · exact hy y (by simp) (multi_mem h32 y h)
    · split at h
      · simp at h
      · rw [List.mem_singleton] at h; exact h10 h
    · exact ih' h

/-! ## The lines of a list -/

/-- The lines of an item. -/
def itemLines (p : Bytes) (w : Nat) : List Bytes → List Bytes
  | [] => []
  | l :: ls => (p ++ l) :: ls.map (List.replicate w 32 ++ ·)

theorem split_prefix {a : Bytes} (h : 10 ∉ a) (s : Bytes) : ∀ l ls, splitOn 10 s = l :: ls → splitOn 10 (a ++ s) = (a ++ l) :: ls := by
  intro l ls e
  induction a with
  | nil => exact e
  | cons b a ih =>
    rw [List.mem_cons, not_or] at h
    have := ih h.2
    rw [List.cons_append, split_other' (Ne.symm h.1), this]; rfl

/-- The lines of items. -/
def allLines (pfx : Nat → Bytes) (w : Nat) : Nat → List (List Bytes) → List Bytes
  | _, [] => []
  | i, F :: Fs => itemLines (pfx i) w F ++ allLines pfx w (i + 1) Fs

theorem listText_lines (hbul : bullet ∈ [b!"-", b!"+", b!"*"]) {ordered : Bool} {w : Nat} {pfx : Nat → Bytes} :
    ∀ (ys : List Bytes) (i : Nat), ys ≠ [] → (∀ j, i ≤ j → j < i + ys.length → ∃ num, Pfx bullet ordered w (pfx j) num) →
      lines (restoreCodeNewlines (listText pfx w i ys)) = allLines pfx w i (ys.map fun y => lines (restoreCodeNewlines y)) := by
  intro ys
  induction ys with
  | nil => intro i h; exact absurd rfl h
  | cons y ys ih =>
    intro i _ hp
    obtain ⟨num, hpi⟩ := hp i (Nat.le_refl _) (by simp)
    obtain ⟨q, eq, hq, hqr⟩ := hpi.bytes hbul
    have hqc : ¬ codeNewline <:+: q := fun hi => not_range hqr (v := 239) (by decide) (hi.subset (by decide))
    have hq10 : 10 ∉ pfx i := by
      rw [eq, List.mem_append, not_or]; exact ⟨not_range hqr (by decide), by decide⟩
    have e1 : lines (restoreCodeNewlines (pfx i ++ multiLineListItem y w)) = itemLines (pfx i) w (lines (restoreCodeNewlines y)) := by
      have e2 : restoreCodeNewlines (pfx i ++ multiLineListItem y w) = pfx i ++ restoreCodeNewlines (multiLineListItem y w) := by
        have e3 : restoreCodeNewlines q = q := replaceAll_id hqc
        rw [eq, List.append_assoc, List.singleton_append, restore_cut (by decide), e3]; simp
      rw [e2, restore_multi, lines, lines]
      cases e : splitOn 10 (restoreCodeNewlines y) with
      | nil => exact absurd e (splitOn_nonempty _ _)
      | cons l ls =>
        have := split_indent w (restoreCodeNewlines y)
        rw [e] at this
        rw [split_prefix hq10 _ _ _ this, itemLines]
    rw [listText, List.map_cons, allLines]
    by_cases hys : ys = []
    · subst hys
      rw [if_pos rfl, listText, List.append_nil, List.append_nil, e1]
      simp [allLines]
    · rw [if_neg hys, List.append_assoc, List.singleton_append, restore_cut (by decide), lines, splitOn_append, ← lines, e1, ← lines,
        ih (i + 1) hys (fun j h1 h2 => hp j (by omega) (by simp; omega))]

end Verif.Page
