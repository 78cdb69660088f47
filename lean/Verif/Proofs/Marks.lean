import Verif.Props.Trimmed
import Verif.Proofs.CharsTable
/-!
# Escape markers stay in front of visible characters

The functions that are applied to rendered content never separate an escape marker from the visible ASCII character after it.
-/

namespace Verif.Marks
open Verif Verif.Spec Verif.TextUtils Verif.Escape Verif.Commonmark Verif.Props

theorem none {s : Bytes} (h : 7 ∉ s) : MarkersPlaced s := by
  intro x y e; rw [e] at h; simp at h

theorem append {a b : Bytes} (ha : MarkersPlaced a) (hb : MarkersPlaced b) : MarkersPlaced (a ++ b) := by
  induction a with
  | nil => exact hb
  | cons x a ih =>
    refine (ih ha.tail).cons fun h7 => ?_
    obtain ⟨c, y, e, h1, h2⟩ := ha [] a (by rw [h7]; rfl)
    exact ⟨c, y ++ b, by rw [e]; rfl, h1, h2⟩

theorem suffix {a b : Bytes} (h : MarkersPlaced (a ++ b)) : MarkersPlaced b := by
  intro x y e; exact h (a ++ x) y (by rw [e]; simp)

theorem whitespace_head : ∀ w ∈ whitespace, ∃ c t, w = c :: t ∧ ¬ (32 < c ∧ c < 128) := by
  intro w hw
  have : ∀ w ∈ whitespace, w ≠ [] ∧ ∀ c ∈ w.head?, ¬ (32 < c ∧ c < 128) := by decide
  obtain ⟨h1, h2⟩ := this w hw
  cases w with
  | nil => exact absurd rfl h1
  | cons c t => exact ⟨c, t, rfl, h2 c (by simp)⟩

theorem ws_head {r : Bytes} (h : AllWhitespace r) : ∀ c b', r = c :: b' → ¬ (32 < c ∧ c < 128) := by
  obtain ⟨ws, h1, rfl⟩ := h
  cases ws with
  | nil => intro c b' e; simp at e
  | cons w ws =>
    obtain ⟨c, t, rfl, hc⟩ := whitespace_head w (h1 w (by simp))
    intro c' b' e
    simp only [List.flatten_cons, List.cons_append, List.cons.injEq] at e
    rw [← e.1]; exact hc

theorem ws_none {r : Bytes} (h : AllWhitespace r) : 7 ∉ r := by
  obtain ⟨ws, h1, rfl⟩ := h
  intro hm
  rw [List.mem_flatten] at hm
  obtain ⟨w, hw, h7⟩ := hm
  have : ∀ w ∈ whitespace, 7 ∉ w := by decide
  exact this w (h1 w hw) h7

theorem before_ws {a r : Bytes} (h : MarkersPlaced (a ++ r)) (hr : AllWhitespace r) : MarkersPlaced a := by
  intro x y e
  subst e
  obtain ⟨c, y', e, h1, h2⟩ := h x (y ++ r) (by simp)
  cases y with
  | nil => exact absurd ⟨h1, h2⟩ (ws_head hr c y' e)
  | cons d y =>
    simp only [List.cons_append, List.cons.injEq] at e
    exact ⟨d, y, rfl, by rw [e.1]; exact ⟨h1, h2⟩⟩

theorem trimSpace {s : Bytes} (h : MarkersPlaced s) : MarkersPlaced (trimSpace s) := by
  obtain ⟨l, r, hl, hr, e, -⟩ := trimSpace_spec s
  rw [e] at h
  exact suffix (before_ws h hr)

theorem trimLeft {s : Bytes} (h : MarkersPlaced s) : MarkersPlaced (trimLeft s) := by
  obtain ⟨l, hl, e, -⟩ := trimLeft_spec s
  rw [e] at h
  exact suffix h

theorem newlines {s : Bytes} (h : MarkersPlaced s) : MarkersPlaced (trimConsecutiveNewlines s) := MarkersPlaced.tcn s 0 [] (by simp) h

theorem hardBreaks {s : Bytes} (h : MarkersPlaced s) : MarkersPlaced (trimUnnecessaryHardLineBreaks s) := by
  rw [trimUnnecessaryHardLineBreaks]
  exact ((h.replace rfl).replace rfl).replace rfl

/-! ## Byte by byte -/

theorem flatMap (f : UInt8 → Bytes) (hf : ∀ b, b ≠ 7 → MarkersPlaced (f b)) (h7 : f 7 = [7])
    (hv : ∀ b, 32 < b → b < 128 → ∃ c y, f b = c :: y ∧ 32 < c ∧ c < 128) : ∀ s, MarkersPlaced s → MarkersPlaced (s.flatMap f)
  | [], h => h
  | b :: s, h => by
    have ih := flatMap f hf h7 hv s h.tail
    rw [List.flatMap_cons]
    by_cases hb : b = 7
    · subst hb
      rw [h7]
      refine ih.cons fun _ => ?_
      obtain ⟨c, y, rfl, h1, h2⟩ := h [] s rfl
      obtain ⟨d, z, e, d1, d2⟩ := hv c h1 h2
      exact ⟨d, z ++ y.flatMap f, by rw [List.flatMap_cons, e]; rfl, d1, d2⟩
    · exact append (hf b hb) ih

theorem byte {b : UInt8} (h : b ≠ 7) : MarkersPlaced [b] := none (by simpa using Ne.symm h)

/-- Replace one byte that is not a visible ASCII character. -/
theorem replace_one {a : UInt8} {new : Bytes} (ha : ¬ (32 < a ∧ a < 128)) (h7 : a ≠ 7) (hn : MarkersPlaced new) {s : Bytes} (hs : MarkersPlaced s) :
    MarkersPlaced (replaceAll [a] new s) := by
  rw [replaceAll_one]
  refine flatMap _ ?_ ?_ ?_ s hs
  · intro b hb; split
    · exact hn
    · exact byte hb
  · rw [if_neg (Ne.symm h7)]
  · intro b h1 h2
    rw [if_neg (by rintro rfl; exact ha ⟨h1, h2⟩)]
    exact ⟨b, [], rfl, h1, h2⟩

theorem prefixLines {repl s : Bytes} (hr : MarkersPlaced repl) (hs : MarkersPlaced s) : MarkersPlaced (prefixLines s repl) := by
  rw [TextUtils.prefixLines, Chars.prefixLinesGo_eq]
  refine append hr (flatMap _ ?_ ?_ ?_ s hs)
  · intro b hb; split
    · exact append (a := [NL]) (byte (by decide)) hr
    · exact byte hb
  · rfl
  · intro b h1 h2
    rw [if_neg (by rintro rfl; exact absurd h1 (by decide))]
    exact ⟨b, [], rfl, h1, h2⟩

theorem doubleSpaces : ∀ (s : Bytes) (n : Nat), MarkersPlaced s → MarkersPlaced (dropDoubleSpaces n s)
  | [], n, h => h
  | b :: s, n, h => by
    rw [dropDoubleSpaces]
    split
    · split
      · exact doubleSpaces s _ h.tail
      · rename_i hb _
        exact (doubleSpaces s _ h.tail).cons fun h7 => absurd (hb.symm.trans h7) (by decide)
    · refine (doubleSpaces s _ h.tail).cons fun h7 => ?_
      obtain ⟨c, y, rfl, h1, h2⟩ := h [] s (by rw [h7]; rfl)
      rw [dropDoubleSpaces]
      have h32 : c ≠ SP := (visible_ne h1).2.1
      rw [if_neg h32, if_neg (by decide)]
      exact ⟨c, _, rfl, h1, h2⟩

/-! ## Lines -/

theorem lines : ∀ s, MarkersPlaced s → ∀ l ∈ splitOn NL s, MarkersPlaced l
  | [], _ => by intro l hl; simp [splitOn] at hl; rw [hl]; exact none (by simp)
  | b :: s, h => by
    have ih := lines s h.tail
    by_cases hb : b = NL
    · subst hb
      rw [splitOn_sep]
      intro l hl
      rcases List.mem_cons.1 hl with rfl | hl
      · exact none (by simp)
      · exact ih l hl
    · obtain ⟨l0, ls, e1, e2⟩ := splitOn_other hb s
      rw [e2]
      rw [e1] at ih
      intro l hl
      rcases List.mem_cons.1 hl with rfl | hl
      · refine (ih l0 (by simp)).cons fun h7 => ?_
        obtain ⟨c, y, rfl, h1, h2⟩ := h [] s (by rw [h7]; rfl)
        obtain ⟨l1, ls1, e3, e4⟩ := splitOn_other (visible_ne h1).1 y
        rw [e4] at e1
        simp only [List.cons.injEq] at e1
        exact ⟨c, l1, e1.1.symm, h1, h2⟩
      · exact ih l (by simp [hl])

theorem join : ∀ ls : List Bytes, (∀ l ∈ ls, MarkersPlaced l) → MarkersPlaced (joinWith NL ls)
  | [], _ => none (by simp [joinWith])
  | [l], h => by rw [joinWith]; exact h l (by simp)
  | l :: l' :: ls, h => by
    rw [joinWith]
    · exact append (h l (by simp)) ((join (l' :: ls) fun x hx => h x (by simp [hx])).cons fun h7 => absurd h7 (by decide))
    · simp

theorem delimited {d s : Bytes} (hd : MarkersPlaced d) (hs : MarkersPlaced s) : MarkersPlaced (delimited d s) := by
  rw [Commonmark.delimited, delimiterForEveryLine]
  refine join _ fun l hl => ?_
  rw [List.mem_map] at hl
  obtain ⟨x, hx, rfl⟩ := hl
  have hx := lines s hs x hx
  obtain ⟨h1, h2, h3, -⟩ := Props.c23_surrounding_spaces x
  rw [delimiterForLine]
  generalize surroundingSpaces x = p at h1 h2 h3 ⊢
  obtain ⟨l, m, r⟩ := p
  simp only at h1 h2 h3 ⊢
  rw [← h1] at hx
  have hl := none (ws_none h2)
  have hr := none (ws_none h3)
  split
  · exact append hl hr
  · exact append (append (append (append hl hd) (suffix (before_ws hx h3))) hd) hr

theorem escapeMultiLine {s : Bytes} (hs : MarkersPlaced s) : MarkersPlaced (escapeMultiLine s) := by
  rw [TextUtils.escapeMultiLine]
  split
  · exact hs
  · have h := lines s hs
    generalize splitOn NL s = ls at h
    induction ls with
    | nil => exact none (by simp [escapeMultiLineGo])
    | cons l ls ih =>
      rw [escapeMultiLineGo]
      have hl := trimLeft (h l (by simp))
      refine append ?_ (ih fun x hx => h x (by simp [hx]))
      split
      · exact none (by decide)
      · split
        · exact hl
        · split
          · exact append hl (none (by decide))
          · exact append hl (none (by decide))

/-- Replace something that does not begin with a visible ASCII character. -/
theorem replaceAll {o : UInt8} {old' new : Bytes} (ho : ¬ (32 < o ∧ o < 128)) (hn : MarkersPlaced new) {s : Bytes} (h : MarkersPlaced s) :
    MarkersPlaced (replaceAll (o :: old') new s) := by
  revert h
  refine replaceAll_induct (old := o :: old') (by simp) (P := fun s => MarkersPlaced s → MarkersPlaced (Verif.replaceAll (o :: old') new s)) id ?_ ?_ s
  · intro s ih h
    rw [replaceAll_match _ _ _ (by simp)]
    exact append hn (ih (suffix h))
  · intro b s hnp ih h
    rw [replaceAll_nomatch hnp]
    refine (ih h.tail).cons fun h7 => ?_
    obtain ⟨c, y, rfl, h1, h2⟩ := h [] s (by rw [h7]; rfl)
    refine ⟨c, _, replaceAll_nomatch ?_, h1, h2⟩
    intro hp
    rw [List.cons_prefix_cons] at hp
    exact ho (by rw [hp.1]; exact ⟨h1, h2⟩)

theorem link_text (l : Bool) {s : Bytes} (h : MarkersPlaced s) : MarkersPlaced (linkTextTransform l s) := by
  rw [linkTextTransform]
  split
  · revert h
    refine replaceAll_induct (old := [MARK, 93]) (by simp) (P := fun s => MarkersPlaced s → MarkersPlaced (Verif.replaceAll [MARK, 93] [BS, 93] s)) id ?_ ?_ s
    · intro s ih h
      rw [replaceAll_match _ _ _ (by simp)]
      exact append (none (by decide)) (ih (suffix h))
    · intro b s hnp ih h
      rw [replaceAll_nomatch hnp]
      refine (ih h.tail).cons fun h7 => ?_
      obtain ⟨c, y, rfl, h1, h2⟩ := h [] s (by rw [h7]; rfl)
      refine ⟨c, _, replaceAll_nomatch ?_, h1, h2⟩
      intro hp
      rw [List.cons_prefix_cons] at hp
      exact (visible_ne h1).2.2 hp.1.symm
  · exact h

/-! ## Texts -/

theorem char_visible : ∀ b : UInt8, b ∈ commonmarkChars → 32 < b ∧ b < 128 := by decide

theorem text (mode : Mode) {d : Bytes} (h : 7 ∉ d) : MarkersPlaced (baseTextTransform mode isCommonmarkChar d) := by
  rw [Chars.textTransform_eq]
  induction d with
  | nil => exact none (by simp)
  | cons b d ih =>
    rw [List.flatMap_cons]
    refine append ?_ (ih fun hm => h (by simp [hm]))
    have hb : b ≠ 7 := fun e => h (by simp [e])
    rw [Chars.textByte.eq_def]
    split
    · exact none (by decide)
    split
    · exact none (by decide)
    cases mode with
    | disabled => exact byte hb
    | smart =>
      simp only
      split
      · exact none (by decide)
      split
      · rename_i hm
        exact (byte hb).cons fun _ => ⟨b, [], rfl, char_visible b hm⟩
      · exact byte hb

/-! ## The renderers -/

theorem blockquote {s : Bytes} (h : MarkersPlaced s) : MarkersPlaced (blockquote s) := by
  rw [Commonmark.blockquote]
  dsimp only
  split
  · exact none (by simp)
  · exact append (append (none (by decide)) (prefixLines (none (by decide)) (hardBreaks (newlines (trimSpace h))))) (none (by decide))

theorem pound {s t : Bytes} (h : MarkersPlaced s) (e : escapePoundSignAtEnd s = some t) : MarkersPlaced t := by
  rw [escapePoundSignAtEnd] at e
  split at e
  · simp at e
  · rename_i c rev hr
    split at e
    · cases e; exact h
    · rename_i hc
      have hc : c = 35 := by simpa using hc
      subst hc
      split at e
      · simp at e
      · rename_i _ m b rev'
        split at e
        · cases e; exact h
        · cases e
          have hs : s = rev'.reverse ++ [b] ++ ([m] ++ [35]) := by
            have := congrArg List.reverse hr
            simpa using this
          have e2 : (35 :: BS :: b :: rev').reverse = rev'.reverse ++ [b] ++ ([BS] ++ [35]) := by simp
          rw [e2]
          rw [hs] at h
          intro x y e
          rcases List.append_eq_append_iff.1 e with ⟨z, e3, e4⟩ | ⟨z, e3, e4⟩
          · -- the marker is in what is after
            have : (7 : UInt8) ∈ [BS] ++ [35] := by
              cases z with
              | nil => rw [List.nil_append] at e4; rw [e4]; simp
              | cons w z => rw [e4]; simp
            exact absurd this (by decide)
          · cases z with
            | nil =>
              rw [List.nil_append] at e4
              have : (7 : UInt8) ∈ [BS] ++ [35] := by rw [← e4]; simp
              exact absurd this (by decide)
            | cons w z =>
              simp only [List.cons_append, List.cons.injEq] at e4
              obtain ⟨rfl, rfl⟩ := e4
              obtain ⟨c, y', e5, h1, h2⟩ := h x (z ++ ([m] ++ [35])) (by rw [e3]; simp)
              cases z with
              | nil => exact ⟨BS, [35], rfl, by decide, by decide⟩
              | cons v z =>
                simp only [List.cons_append, List.cons.injEq] at e5
                exact ⟨v, _, rfl, by rw [e5.1]; exact ⟨h1, h2⟩⟩
      · cases e; exact none (by decide)

theorem heading {setext : Bool} {level : Nat} {s t : Bytes} (h : MarkersPlaced s) (e : heading setext level s = some t) : MarkersPlaced t := by
  rw [Commonmark.heading] at e
  split at e
  · cases e; exact none (by simp)
  split at e
  · cases e
    refine append (append (append (append (none (by decide)) (escapeMultiLine (newlines h))) (none (by decide))) (none ?_)) (none (by decide))
    rw [setextUnderline]
    intro hm
    have := (List.mem_replicate.1 hm).2
    split at this <;> exact absurd this (by decide)
  · rw [Option.map_eq_some_iff] at e
    obtain ⟨c, e, rfl⟩ := e
    have hc : MarkersPlaced (atxContent s) := by
      rw [atxContent]
      exact trimSpace (doubleSpaces _ _ (replace_one (by decide) (by decide) (none (by decide)) (replace_one (by decide) (by decide) (none (by decide)) h)))
    refine append (append (append (append (none (by decide)) (none ?_)) (none (by decide))) (pound hc e)) (none (by decide))
    intro hm
    exact absurd (List.mem_replicate.1 hm).2 (by decide)

theorem multiLine {s : Bytes} (h : MarkersPlaced s) (n : Nat) : MarkersPlaced (multiLineListItem s n) := by
  rw [multiLineListItem]
  have hl := lines s h
  have hi : MarkersPlaced (List.replicate n SP) := none fun hm => absurd (List.mem_replicate.1 hm).2 (by decide)
  generalize List.replicate n SP = indent at hi
  have : ∀ (ls : List Bytes), (∀ l ∈ ls, MarkersPlaced l) → ∀ first, MarkersPlaced (multiLineListItemGo indent first ls) := by
    intro ls
    induction ls with
    | nil => intro _ first; exact none (by simp [multiLineListItemGo])
    | cons l ls ih =>
      intro hl first
      rw [multiLineListItemGo]
      refine append (append (append ?_ (replaceAll (by decide) (append (none (by decide)) hi) (hl l (by simp)))) ?_) (ih (fun x hx => hl x (by simp [hx])) false)
      · split
        · exact none (by simp)
        · exact hi
      · split
        · exact none (by simp)
        · exact none (by decide)
  exact this _ hl true

theorem list {un : Bytes → Bytes} (hun : ∀ s, MarkersPlaced s → MarkersPlaced (un s)) {ordered : Bool} {bullet : Bytes} (hb : 7 ∉ bullet) (start : Int) {xs : List Bytes}
    (h : ∀ x ∈ xs, MarkersPlaced x) : MarkersPlaced (list un ordered bullet start xs) := by
  rw [Commonmark.list]
  dsimp only
  split
  · exact none (by simp)
  · have hi : ∀ x ∈ (xs.map Verif.trimSpace).filter (· ≠ []), MarkersPlaced x := by
      intro x hx
      obtain ⟨y, hy, rfl⟩ := List.mem_map.1 (List.mem_filter.1 hx).1
      exact trimSpace (h y hy)
    generalize (xs.map Verif.trimSpace).filter (· ≠ []) = items at hi
    have hp : ∀ i, MarkersPlaced (listPrefix ordered bullet start items.length i) := by
      intro i
      rw [listPrefix]
      split
      · exact append (none hb) (none (by decide))
      · refine append (none ?_) (none (by decide))
        have hn : ∀ n, (7 : UInt8) ∉ natBytes n := fun n hm => absurd (natBytes_mem n 7 hm).1 (by decide)
        rw [padInt]
        intro hm
        split at hm
        · simp only [List.mem_cons, List.mem_append, List.mem_replicate] at hm
          rcases hm with hm | ⟨-, hm⟩ | hm
          · exact absurd hm (by decide)
          · exact absurd hm (by decide)
          · exact hn _ hm
        · simp only [List.mem_append, List.mem_replicate] at hm
          rcases hm with ⟨-, hm⟩ | hm
          · exact absurd hm (by decide)
          · exact hn _ hm
    generalize listPrefix ordered bullet start items.length = pfx at hp
    have : ∀ (items : List Bytes), (∀ x ∈ items, MarkersPlaced x) → ∀ n i, MarkersPlaced (listItemsGo un pfx n i items) := by
      intro items
      induction items with
      | nil => intro _ n i; exact none (by simp [listItemsGo])
      | cons x items ih =>
        intro hx n i
        rw [listItemsGo]
        refine append (append (append (hp i) (multiLine (hun _ (hardBreaks (newlines (hx x (by simp))))) n)) ?_) (ih (fun y hy => hx y (by simp [hy])) n (i + 1))
        split
        · exact none (by simp)
        · exact none (by decide)
    exact append (append (none (by decide)) (this items hi _ 0)) (none (by decide))

end Verif.Marks
