import Verif.Spec.Setext
import Verif.Model.Commonmark
import Verif.Proofs.EscapeText
import Verif.Proofs.Table
import Verif.Proofs.PageHeading
import Verif.Props.Newlines
/-!
# C88: the underline of a heading is as wide as its text
-/

namespace Verif.Props
open Verif Verif.Escape Verif.Commonmark Verif.TextUtils Verif.Table

theorem decodeRune_seven (b : UInt8) (bs : Bytes) : (decodeRune (b :: bs)).1 = 7 ↔ b = 7 := by
  by_cases h : b < 0x80
  · rw [decodeRune_ascii b bs h]
    exact ⟨fun e => UInt8.toNat_inj.1 e, fun e => by rw [e]; rfl⟩
  · have := decodeRune_ge b bs h
    exact ⟨fun e => by omega, fun e => absurd (by rw [e]; decide) h⟩

theorem cont_not_seven {b : UInt8} (h : isCont b = true) : b ≠ 7 := by
  rintro rfl; exact absurd h (by decide)

/-- The bytes of a character after its first one are not the marker. -/
theorem decodeRune_tail (b : UInt8) (bs : Bytes) : ∀ x ∈ bs.take ((decodeRune (b :: bs)).2 - 1), x ≠ 7 := by
  intro x hx h7
  subst h7
  obtain ⟨a, c, e⟩ := List.append_of_mem hx
  have e' : bs = a ++ 7 :: (c ++ bs.drop ((decodeRune (b :: bs)).2 - 1)) := by
    rw [← List.cons_append, ← List.append_assoc, ← e, List.take_append_drop]
  have hd := decodeRune_cut (b :: a) 7 (c ++ bs.drop ((decodeRune (b :: bs)).2 - 1)) (by decide) (by simp)
  rw [List.cons_append, ← e'] at hd
  have hl := decodeRune_le (b :: a)
  have := congrArg List.length e
  rw [hd] at this
  simp at this hl
  omega

theorem characters_count : ∀ (s : Bytes) (k : Nat), (∀ x ∈ s.take k, x ≠ 7) →
    ((Spec.charactersFrom k s).filter (· ≠ 7)).length + s.count 7 = runeCountGo k s := by
  intro s
  induction s with
  | nil => intro k _; rfl
  | cons b s ih =>
    intro k hk
    cases k with
    | succ k =>
      have hb : b ≠ 7 := hk b (by simp)
      rw [Spec.charactersFrom, runeCountGo, ← ih k fun x hx => hk x (by simp [hx]), List.count_cons_of_ne (by exact hb)]
    | zero =>
      rw [Spec.charactersFrom, runeCountGo, ← ih _ (decodeRune_tail b s)]
      by_cases hb : b = 7
      · have h := (decodeRune_seven b s).2 hb
        rw [List.filter_cons_of_neg (by simp [h]), hb, List.count_cons_self]
        omega
      · have h := mt (decodeRune_seven b s).1 hb
        rw [List.filter_cons_of_pos (by simpa using h), List.count_cons_of_ne (by exact hb), List.length_cons]
        omega

theorem characters_ne {s : Bytes} (h : 7 ∉ s) : ∀ k, ∀ x ∈ Spec.charactersFrom k s, x ≠ 7 := by
  induction s with
  | nil => intro k x hx; simp [Spec.charactersFrom] at hx
  | cons b s ih =>
    intro k x hx
    have ih := ih fun h' => h (by simp [h'])
    cases k with
    | succ k => exact ih k x hx
    | zero =>
      rw [Spec.charactersFrom] at hx
      rcases List.mem_cons.1 hx with rfl | hx
      · exact fun h' => h (by simp [(decodeRune_seven b s).1 h'])
      · exact ih _ x hx

theorem visibleRunes_eq (s : Bytes) : visibleRunes s = ((Spec.characters s).filter (· ≠ 7)).length := by
  have := characters_count s 0 (by simp)
  rw [visibleRunes, runeCount, Spec.characters]
  omega

theorem foldl_max (l : List Bytes) : ∀ w, l.foldl (fun w part => if visibleRunes part > w then visibleRunes part else w) w =
    max w ((l.map fun l => ((Spec.characters l).filter (· ≠ 7)).length).foldr max 0) := by
  induction l with
  | nil => intro w; simp
  | cons a l ih =>
    intro w
    rw [List.foldl_cons, ih, List.map_cons, List.foldr_cons, visibleRunes_eq]
    split <;> omega

theorem underlineWidth_eq (s : Bytes) (m : Nat) : underlineWidth s m = max m (Spec.widest s) := by
  rw [underlineWidth, Spec.widest, Spec.lines]
  simp only [foldl_max]
  split <;> omega

/-- **C88**, any content.  A heading of level 1 or 2 in setext style is its text and, on a line of its own, an
underline of the character of its level that is as long as the longest line of the text has characters, and
has at least three. -/
theorem c88_underline (level : Nat) (hl : level < 3) (content : Bytes) (hb : ¬ Spec.AllWhitespace content) :
    ∃ text, heading true level content =
      some (b!"\n\n" ++ text ++ b!"\n" ++ Spec.underline level (max 3 (Spec.widest text)) ++ b!"\n\n") := by
  refine ⟨escapeMultiLine (trimConsecutiveNewlines content), ?_⟩
  have hb' : ¬ (trimSpace content).length = 0 := fun h => hb ((trimSpace_nil_iff _).1 (List.length_eq_zero_iff.1 h))
  simp only [heading, setextUnderline, Spec.underline]
  rw [if_neg hb', if_pos (by simpa using hl), underlineWidth_eq]

example : heading true 1 b!"ab\ncdefé" = some b!"\n\nab  \ncdefé\n=====\n\n" := by decide
example : ¬ Spec.AllWhitespace b!"ab\ncdefé" := fun h => absurd ((trimSpace_nil_iff _).2 h) (by decide)

theorem runeCount_escape : ∀ (t a : Bytes), 0 ∉ t →
    runeCount (a ++ escapeLoop isCommonmarkChar t) + t.count 7 =
      runeCount (a ++ t) + (escapeLoop isCommonmarkChar t).count 7 := by
  intro t
  induction t with
  | nil => intro a _; simp [escapeLoop]
  | cons b t ih =>
    intro a h0
    have hb0 : b ≠ 0 := fun h => h0 (by simp [h])
    have h0' : 0 ∉ t := fun h => h0 (by simp [h])
    rw [escapeLoop, if_neg hb0]
    split
    · rename_i hc
      have hc := (isCommonmarkChar_decode b t).1 hc
      have hlt := (commonmarkChars_lt b hc).1
      have h7 : b ≠ 7 := by rintro rfl; exact absurd hc (by decide)
      rw [runeCount_cut a 7 _ (by decide), runeCount_cons 7 _ (by decide), runeCount_cons b _ hlt, runeCount_cut a b t hlt,
        runeCount_cons b t hlt, List.count_cons_self, List.count_cons_of_ne (by exact h7), List.count_cons_of_ne (by exact h7)]
      have := ih [] h0'
      simp only [List.nil_append] at this
      omega
    · have := ih (a ++ [b]) h0'
      simp only [List.append_assoc, List.cons_append, List.nil_append] at this
      simp only [List.count_cons]
      split <;> omega

theorem escapeLoop_mem {t : Bytes} (h0 : 0 ∉ t) : ∀ b ∈ escapeLoop isCommonmarkChar t, b = 7 ∨ b ∈ t := by
  induction t with
  | nil => intro b hb; simp [escapeLoop] at hb
  | cons c t ih =>
    intro b hb
    have ih := ih (fun h => h0 (by simp [h]))
    rw [escapeLoop, if_neg (fun h => h0 (by simp [h]))] at hb
    split at hb
    · rcases List.mem_cons.1 hb with h | h
      · exact .inl h
      · rcases List.mem_cons.1 h with h | h
        · exact .inr (by simp [h])
        · rcases ih b h with h | h
          · exact .inl h
          · exact .inr (by simp [h])
    · rcases List.mem_cons.1 hb with h | h
      · exact .inr (by simp [h])
      · rcases ih b h with h | h
        · exact .inl h
        · exact .inr (by simp [h])

theorem escapeLoop_id {t : Bytes} (h0 : 0 ∉ t) (h : 7 ∉ escapeLoop isCommonmarkChar t) : escapeLoop isCommonmarkChar t = t := by
  induction t with
  | nil => rfl
  | cons c t ih =>
    rw [escapeLoop, if_neg (fun h => h0 (by simp [h]))] at h ⊢
    split at h
    · exact absurd (List.mem_cons_self ..) h
    · rename_i hc
      rw [if_neg hc, ih (fun h => h0 (by simp [h])) (fun h' => h (by simp [h']))]

theorem heading_escaped (level : Nat) (hl : level < 3) (t : Bytes) (hb : ¬ Spec.AllWhitespace t) (hn : 10 ∉ t) (h0 : 0 ∉ t) (h7 : 7 ∉ t) :
    heading true level (escapeContent .smart isCommonmarkChar t) =
      some (b!"\n\n" ++ escapeContent .smart isCommonmarkChar t ++ b!"\n" ++
        Spec.underline level (max 3 (Spec.characters t).length) ++ b!"\n\n") := by
  simp only [escapeContent]
  have hn' : 10 ∉ escapeLoop isCommonmarkChar t := fun h => by
    rcases escapeLoop_mem h0 _ h with h | h
    · exact absurd h (by decide)
    · exact hn h
  have hb' : ¬ (trimSpace (escapeLoop isCommonmarkChar t)).length = 0 := fun h => by
    have hw := (trimSpace_nil_iff _).1 (List.length_eq_zero_iff.1 h)
    rw [escapeLoop_id h0 (not_mem_ws hw (by decide))] at hw
    exact hb hw
  have e1 : trimConsecutiveNewlines (escapeLoop isCommonmarkChar t) = escapeLoop isCommonmarkChar t := by
    rw [trimConsecutiveNewlines, Page.trimNewlines_line _ _ _ hn']; rfl
  have e2 : escapeMultiLine (escapeLoop isCommonmarkChar t) = escapeLoop isCommonmarkChar t := by
    rw [escapeMultiLine, splitOn_of_no_sep hn']; rfl
  have ew : underlineWidth (escapeLoop isCommonmarkChar t) 3 = max 3 (Spec.characters t).length := by
    have h1 : visibleRunes (escapeLoop isCommonmarkChar t) = (Spec.characters t).length := by
      have h := runeCount_escape t [] h0
      have h' := characters_count t 0 (by simp)
      rw [List.count_eq_zero.2 h7, List.filter_eq_self.2] at h'
      · rw [List.count_eq_zero.2 h7] at h
        simp only [List.nil_append] at h
        rw [visibleRunes, Spec.characters]
        rw [runeCount] at h ⊢
        rw [runeCount] at h
        omega
      · intro x hx
        simpa using characters_ne h7 0 x hx
    rw [underlineWidth, splitOn_of_no_sep hn']
    simp only [List.foldl_cons, List.foldl_nil, h1]
    split <;> split <;> omega
  simp only [heading, setextUnderline, Spec.underline]
  rw [if_neg hb', if_pos (by simpa using hl), e1, e2, ew]

/-- **C88**, text.  The underline of a heading with the text `t` (on one line) is as long as the text is, with `<`
and `>` written as entities, whichever of its characters are escaped. -/
theorem c88_text (level : Nat) (hl : level < 3) (t : Bytes) (hb : ¬ Spec.AllWhitespace t) (hn : 10 ∉ t) (h0 : 0 ∉ t) (h7 : 7 ∉ t) :
    heading true level (baseTextTransform .smart isCommonmarkChar t) =
      some (b!"\n\n" ++ baseTextTransform .smart isCommonmarkChar t ++ b!"\n" ++
        Spec.underline level (max 3 (Spec.characters
          (t.flatMap fun b => if b = 60 then b!"&lt;" else if b = 62 then b!"&gt;" else [b])).length) ++ b!"\n\n") := by
  have e : (t.flatMap fun b => if b = 60 then b!"&lt;" else if b = 62 then b!"&gt;" else [b]) = entityReplace t := by
    rw [entityReplace, replaceBytes]
    congr 1
    funext b
    split
    · rfl
    · split <;> rfl
  rw [e, baseTextTransform]
  refine heading_escaped level hl _ (fun h => hb ?_) ?_ ?_ ?_
  · rw [← Page.entityReplace_id (s := t) (not_mem_ws h (by decide))]
    exact h
  · exact Page.not_mem_entity hn (by decide)
  · exact Page.not_mem_entity h0 (by decide)
  · exact Page.not_mem_entity h7 (by decide)

example : heading true 2 (baseTextTransform .smart isCommonmarkChar b!"*é* < #") =
    some (b!"\n\n" ++ [7] ++ b!"*é" ++ [7] ++ b!"* &lt; " ++ [7] ++ b!"#\n----------\n\n") := by decide
example : (10 : UInt8) ∉ b!"*é* < #" ∧ (0 : UInt8) ∉ b!"*é* < #" ∧ (7 : UInt8) ∉ b!"*é* < #" := by decide
example : ¬ Spec.AllWhitespace b!"*é* < #" := fun h => absurd ((trimSpace_nil_iff _).2 h) (by decide)

end Verif.Props
