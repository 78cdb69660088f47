import Verif.Proofs.EscapeInline
/-!
# Properties C01-C16: escaping

`out hs t` is what becomes of the text `t` of a document: `escapeContent` in the text transformer,
`unEscapeContent` after rendering, with the characters that the CommonMark plugin registers.
The theorems about CommonMark constructs hold for the handlers of the CommonMark plugin with or without
those of the strikethrough plugin (`IsStock`).
-/

namespace Verif.Props
open Verif Verif.Escape

/-- Escape and un-escape a text. -/
def out (hs : List Handler) (t : Bytes) : Bytes :=
  unEscapeContent .smart hs (escapeContent .smart isCommonmarkChar t)

/-- ASCII digits are digits: all that is assumed about `unicode.IsDigit`. -/
def DigitsOK (dig : Nat → Bool) : Prop := ∀ n, 48 ≤ n → n ≤ 57 → dig n = true

/-- The handlers used in the examples. -/
def stock : List Handler := commonmarkHandlers fun r => decide (48 ≤ r ∧ r ≤ 57)

example : DigitsOK (fun r => decide (48 ≤ r ∧ r ≤ 57)) := by intro n; simp_all
example : IsStock (fun r => decide (48 ≤ r ∧ r ≤ 57)) stock := .inl rfl

/-! ## C01 -/

/-- **C01.** Escaping followed by un-escaping only inserts backslashes, each one in front of a registered
character; for every set of registered characters and every list of handlers. -/
theorem c01_only_inserts (isMd : Nat → Bool) (hs : List Handler) (t : Bytes) (hM : 7 ∉ t) (h0 : 0 ∉ t) :
    Spec.Inserts (fun rest => isMd (decodeRune rest).1 = true) t
      (unEscapeContent .smart hs (escapeContent .smart isMd t)) := by
  simp only [escapeContent, escapeLoop_md isMd t h0]
  rw [unEscape_enc _ (mdToks_ne isMd t hM)]
  exact inserts_md isMd t [] 0

example : out stock b!"# a *b*" = b!"\\# a \\*b*" := by decide
example : (7 : UInt8) ∉ b!"# a *b*" ∧ (0 : UInt8) ∉ b!"# a *b*" := by decide

/-! ## C02 -/

/-- **C02.** The marker of the escape mechanism is never in the output of un-escaping, for every content
(also one that contains the marker) and every list of handlers. -/
theorem c02_no_marker (hs : List Handler) (s : Bytes) : 7 ∉ unEscapeContent .smart hs s := by
  have main : ∀ (n : Nat) (s : Bytes), s.length ≤ n → ∀ rev k, MARK ∉ U hs rev k s := by
    intro n
    induction n with
    | zero =>
      intro s h rev k
      have : s = [] := List.length_eq_zero_iff.1 (by omega)
      simp [this]
    | succ n ih =>
      intro s h rev k
      cases s with
      | nil => simp
      | cons b s =>
        simp at h
        cases k with
        | succ k =>
          rw [U_skip]
          split
          · exact ih s h _ _
          · rename_i hb; simp [Ne.symm hb, ih s h _ _]
        | zero =>
          by_cases hb : b = MARK
          · subst hb
            cases s with
            | nil => simp [U_mark_end]
            | cons c s =>
              rw [U_mark]
              split
              · exact ih (c :: s) h _ _
              · simp [ih (c :: s) h]
          · rw [U_raw _ _ _ hb]; simp [Ne.symm hb, ih s h _ _]
  exact main s.length s (Nat.le_refl _) [] 0

example : unEscapeContent .smart stock [7, 35, 7, 7, 32, 7] = b!"\\# " := by decide

/-! ## C03 -/

/-- **C03.** The escaped text has no NUL byte, for every set of registered characters. -/
theorem c03_no_nul (isMd : Nat → Bool) (t : Bytes) : 0 ∉ escapeContent .smart isMd t := by
  simp only [escapeContent]
  induction t with
  | nil => simp [escapeLoop]
  | cons b t ih =>
    simp only [escapeLoop]
    split
    · simp [ih]
    · rename_i hb
      split
      · simp [Ne.symm hb, ih]
      · simp [Ne.symm hb, ih]

/-- **C03.** Apart from the markers the escaped text is the text with every NUL replaced by U+FFFD. -/
theorem c03_rest_kept (isMd : Nat → Bool) (t : Bytes) :
    (escapeContent .smart isMd t).filter (· != 7) = (Spec.replaceNul t).filter (· != 7) := by
  simp only [escapeContent, Spec.replaceNul]
  induction t with
  | nil => simp [escapeLoop]
  | cons b t ih =>
    simp only [escapeLoop, List.flatMap_cons, List.filter_append, ← ih]
    split
    · simp
    · split
      · by_cases hb : b = 7 <;> simp [hb]
      · by_cases hb : b = 7 <;> simp [hb]

example : escapeContent .smart isCommonmarkChar [0, 97, 35] = [239, 191, 189, 97, 7, 35] := by decide

/-! ## C04 -/

/-- **C04.** With `EscapeModeDisabled` both directions return their input. -/
theorem c04_disabled (isMd : Nat → Bool) (hs : List Handler) (s : Bytes) :
    escapeContent .disabled isMd s = s ∧ unEscapeContent .disabled hs s = s := ⟨rfl, rfl⟩

/-! ## C05-C11: block structure -/

section
variable {dig : Nat → Bool} {hs : List Handler}

/-- **C05.** No line of escaped text is an ATX heading. -/
theorem c05_no_atx_heading (h : IsStock dig hs) (t : Bytes) (hM : 7 ∉ t) :
    ∀ line ∈ Spec.lines (out hs t), Spec.isAtxHeading line = false :=
  fun _ hl => atx_core fun _ _ hx hc hc' => text_line_marked h.good hM hl hx hc hc'

example : Spec.isAtxHeading b!"  ## a" = true := by decide
example : out stock b!"a\n  ## a\n####### b" = b!"a\n  \\## a\n####### b" := by decide
example : Spec.isAtxHeading (b!"##" ++ [13]) = true ∧ out stock (b!"##" ++ [13]) = b!"\\##" ++ [13] := by decide

/-- **C06.** No line of escaped text starts a block quote. -/
theorem c06_no_block_quote (h : IsStock dig hs) (t : Bytes) (hM : 7 ∉ t) :
    ∀ line ∈ Spec.lines (out hs t), Spec.isBlockQuote line = false :=
  fun _ hl => quote_core fun _ _ hx hc hc' => text_line_marked h.good hM hl hx hc hc'

example : Spec.isBlockQuote b!" >a" = true := by decide
example : out stock b!"a > b\n > c" = b!"a > b\n \\> c" := by decide

/-- **C07.** No line of escaped text is a bullet list item. -/
theorem c07_no_bullet_item (h : IsStock dig hs) (t : Bytes) (hM : 7 ∉ t) :
    ∀ line ∈ Spec.lines (out hs t), Spec.isBulletItem line = false :=
  fun _ hl => bullet_core fun _ _ hx hc hc' => text_line_marked h.good hM hl hx hc hc'

example : Spec.isBulletItem b!"+ a" = true ∧ Spec.isBulletItem b!" -" = true := by decide
example : out stock b!"a - b\n\n - c\n+" = b!"a - b\n\n \\- c\n\\+" := by decide
example : Spec.isBulletItem [43, 13] = true ∧ out stock [43, 13] = [92, 43, 13] := by decide

/-- **C08.** No line of escaped text is an ordered list item. -/
theorem c08_no_ordered_item (h : IsStock dig hs) (hd : DigitsOK dig) (t : Bytes) (hM : 7 ∉ t) :
    ∀ line ∈ Spec.lines (out hs t), Spec.isOrderedItem line = false :=
  fun _ hl => ordered_text h.good hd hM hl

example : Spec.isOrderedItem b!" 12. a" = true ∧ Spec.isOrderedItem b!"1)" = true := by decide
example : out stock b!"1. a\n 12)\n3.5" = b!"1\\. a\n 12\\)\n3.5" := by decide
example : Spec.isOrderedItem [49, 46, 13] = true ∧ out stock [49, 46, 13] = [49, 92, 46, 13] := by decide

/-- **C09.** No line of escaped text is a thematic break, if the text has no tab (the white space
collapsing removes them). -/
theorem c09_no_thematic_break_partial (h : IsStock dig hs) (t : Bytes) (hM : 7 ∉ t) (hT : 9 ∉ t) :
    ∀ line ∈ Spec.lines (out hs t), Spec.isThematicBreak line = false :=
  fun _ hl => divider_core (text_no_tab hM hT hl)
    fun _ _ hx hc hc' => text_line_marked h.good hM hl hx hc hc'

/-- The hypothesis of C09 is needed: with a tab the line stays a thematic break. -/
theorem c09_fails_with_tab : out stock b!"--\t-" = b!"--\t-" ∧ Spec.isThematicBreak b!"--\t-" = true := by
  decide

example : Spec.isThematicBreak b!" - - -" = true := by decide
example : out stock b!"a\n\n - - -\n***" = b!"a\n\n \\- - -\n\\*\\**" := by decide

/-- **C10.** No line of escaped text that follows a line with visible content is a setext underline. -/
theorem c10_no_setext_underline (h : IsStock dig hs) (t : Bytes) (hM : 7 ∉ t)
    (pre : List Bytes) (prev line : Bytes) (post : List Bytes)
    (hl : Spec.lines (out hs t) = pre ++ prev :: line :: post) (hp : Spec.isBlankLine prev = false) :
    Spec.isSetextUnderline line = false := by
  have hwf := textToks_wf t hM
  simp only [out, escapeContent, escapeLoop_eq] at hl
  rw [unEscape_enc _ (fun x hx => (hwf x hx).1)] at hl
  refine setext_core h.good hwf hl hp ?_
  intro m c hm hc
  exact (textToks_marked t _ hm).2 (by show c ∈ _; rcases hc with rfl | rfl <;> decide)

example : Spec.lines (out stock b!"a\n==") = [] ++ b!"a" :: b!"\\==" :: [] := by decide
example : Spec.isSetextUnderline b!"==" = true := by decide

/-- **C11.** No line of escaped text opens a fenced code block. -/
theorem c11_no_fence (h : IsStock dig hs) (t : Bytes) (hM : 7 ∉ t) :
    ∀ line ∈ Spec.lines (out hs t), Spec.isFence line = false :=
  fun _ hl => fence_core fun _ _ hx hc hc' => text_line_marked h.good hM hl hx hc hc'

example : Spec.isFence b!"~~~" = true := by decide
example : out stock b!"~~~\na\n ````" = b!"\\~~~\na\n \\````" := by decide

/-! ## C12: emphasis -/

/-- **C12**, for Go's notion of white space: every `*` and `_` that a parser does not read as escaped
belongs to a run that is followed by a character with the property White_Space or by the end. -/
theorem c12_followed_by_space (h : IsStock dig hs) (t : Bytes) (hM : 7 ∉ t) (c : UInt8)
    (hc : c = 42 ∨ c = 95) (A B : List (Bool × UInt8))
    (hr : Spec.readEscapes (out hs t) = A ++ (false, c) :: B) :
    Spec.afterRun c B = [] ∨ isSpaceRune (decodeRune (Spec.afterRun c B)).1 = true := by
  have hwf := textToks_wf t hM
  have ham := textToks_marked t
  rw [out, read_text h.good hM] at hr
  refine emphasis_core h.good hwf ?_ (allMarked_not_cont ham) ?_ hc hr
  · intro m hm; exact (ham _ hm).2 (by show c ∈ _; rcases hc with rfl | rfl <;> decide)
  · intro x hx hx0
    have : x.2 ∈ (textToks t).map Prod.snd := List.mem_map_of_mem hx
    rw [textToks_snd', hx0, List.mem_flatMap] at this
    obtain ⟨b, -, hb⟩ := this
    split at hb
    · revert hb; decide
    · rename_i hb0; simp at hb; exact hb0 hb.symm

/-- **C12**, partial: no `*` or `_` of the text can open emphasis (CommonMark's notion of white space), if
the text contains none of the four characters that Go calls white space but CommonMark does not:
U+000B, U+0085, U+2028 and U+2029.  Missing: texts with these characters, see `c12_fails`. -/
theorem c12_no_emphasis_partial (h : IsStock dig hs) (t : Bytes) (hM : 7 ∉ t)
    (hsep : ∀ s, s <:+ Spec.replaceNul t → (decodeRune s).1 ∉ [0x0B, 0x85, 0x2028, 0x2029])
    (c : UInt8) (hc : c = 42 ∨ c = 95) (A B : List (Bool × UInt8))
    (hr : Spec.readEscapes (out hs t) = A ++ (false, c) :: B) : Spec.canOpen c B = false := by
  have hsp := c12_followed_by_space h t hM c hc A B hr
  have hchars : (A ++ (false, c) :: B).map Prod.snd = Spec.replaceNul t := by
    rw [← hr, out, read_text h.good hM, W_snd, textToks_snd']; rfl
  have hsuf : Spec.afterRun c B <:+ Spec.replaceNul t := by
    rw [← hchars]
    simp only [Spec.afterRun, List.map_append, List.map_cons]
    refine List.IsSuffix.trans ?_ ((List.suffix_cons _ _).trans (List.suffix_append _ _))
    exact (List.dropWhile_suffix _).map _
  rcases hsp with hsp | hsp
  · simp [Spec.canOpen, hsp]
  · have := hsep _ hsuf
    simp only [List.mem_cons, List.not_mem_nil, or_false, not_or] at this
    simp only [Spec.canOpen, Bool.and_eq_false_iff, Bool.not_eq_false']
    right
    simp only [isSpaceRune, Spec.cmWhitespace] at hsp ⊢
    grind

/-- C12 fails as stated: a `*` in front of U+2028 (a line separator, which is not white space in the
sense of CommonMark) is not escaped and opens emphasis. -/
theorem c12_fails : out stock b!"*\u2028a*" = b!"*\u2028a*" ∧
    ∃ B, Spec.readEscapes (out stock b!"*\u2028a*") = [] ++ (false, 42) :: B ∧ Spec.canOpen 42 B = true := by
  exact ⟨by decide, (Spec.readEscapes (out stock b!"*\u2028a*")).tail, by decide, by decide⟩

example : out stock b!"a * b *c* ** d" = b!"a * b \\*c* \\** d" := by decide
example : ∀ s, s <:+ Spec.replaceNul b!"a *" → (decodeRune s).1 ∉ [0x0B, 0x85, 0x2028, 0x2029] := by
  intro s hs
  simp [Spec.replaceNul, List.suffix_cons_iff] at hs
  rcases hs with rfl | rfl | rfl | rfl <;> decide

/-! ## C13: backslashes -/

/-- **C13.** Reading the output with CommonMark's backslash escapes returns the text (NUL replaced). -/
theorem c13_reads_back (h : IsStock dig hs) (t : Bytes) (hM : 7 ∉ t) :
    (Spec.readEscapes (out hs t)).map Prod.snd = Spec.replaceNul t := by
  rw [out, read_text h.good hM, W_snd, textToks_snd']; rfl

example : out stock b!"a\\*b \\\\c" = b!"a\\\\\\*b \\\\\\\\c" := by decide

/-- **C13.** Every backslash of the text is read as escaped. -/
theorem c13_backslash_escaped (h : IsStock dig hs) (t : Bytes) (hM : 7 ∉ t) :
    ∀ x ∈ Spec.readEscapes (out hs t), x.2 = 92 → x.1 = true := by
  intro x hx hx2
  rw [out, read_text h.good hM] at hx
  have := backslash_escaped h.good (textToks_wf t hM)
    (fun m hm => (textToks_marked t _ hm).2 (by show BS ∈ _; decide)) x hx
  cases hx1 : x.1 with
  | true => rfl
  | false => exact absurd hx2 (this hx1)

/-! ## C14: code spans -/

/-- **C14**, partial: every backtick is read as escaped, if no line of the text starts with three
or more backticks and tildes.  Missing: such lines, see `c14_fails`. -/
theorem c14_no_code_span_partial (h : IsStock dig hs) (t : Bytes) (hM : 7 ∉ t) (h0 : 0 ∉ t)
    (hf : ∀ line ∈ Spec.lines t, Spec.startsWithFenceChars line = false) :
    ∀ x ∈ Spec.readEscapes (out hs t), x.2 = 96 → x.1 = true := by
  rw [out, read_text h.good hM]
  refine ticks_escaped h _ [] 0 (textToks_wf t hM) ?_ (no_fence_text hM h0 hf) (.inl rfl)
  intro m hm; exact (textToks_marked t _ hm).2 (by show (96 : UInt8) ∈ _; decide)

/-- C14 fails as stated: after an escaped fence the other backticks are left alone, and three of them form
a code span with the second line. -/
theorem c14_fails : (out stock b!"````\n```") = b!"\\`" ++ b!"```\n\\```" ∧
    Spec.readCodeSpan b!"```\n\\```" = some (b!" \\", []) := by decide

example : ∀ line ∈ Spec.lines b!"a `b` ``` c", Spec.startsWithFenceChars line = false := by decide
example : out stock b!"a `b` ```" = b!"a \\`b\\` \\`\\`\\`" := by decide

/-! ## C79: tildes, with the strikethrough plugin -/

/-- **C79**, partial: with the strikethrough plugin no run of tildes of the text can open a deletion
(white space in the sense of Go), if no line starts with three or more backticks and tildes.  A run that is
not escaped is a single tilde, at the end of the text or in front of white space.
Missing: lines that look like fences, see `c79_fails`. -/
theorem c79_tilde_followed_by_space_partial (h : IsStock dig hs) (hst : isStrikethrough ∈ hs) (t : Bytes)
    (hM : 7 ∉ t) (h0 : 0 ∉ t) (hf : ∀ line ∈ Spec.lines t, Spec.startsWithFenceChars line = false)
    (A B : List (Bool × UInt8)) (hr : Spec.readEscapes (out hs t) = A ++ (false, 126) :: B) :
    Spec.afterRun 126 B = B.map Prod.snd ∧
      (Spec.afterRun 126 B = [] ∨ isSpaceRune (decodeRune (Spec.afterRun 126 B)).1 = true) := by
  have hwf := textToks_wf t hM
  have ham := textToks_marked t
  rw [out, read_text h.good hM] at hr
  obtain ⟨ts1, ts2, h1, h2, h3⟩ := tildes_checked h _ [] 0 hwf
    (fun m hm => (ham _ hm).2 (by show (126 : UInt8) ∈ _; decide)) (no_fence_text hM h0 hf) (.inl rfl) A B hr
  have hn := checkElements_none h3 _ hst
  have hwf2 : WF ts2 := fun x hx => hwf x (by rw [h1]; simp [hx])
  simp only [isStrikethrough, ne_eq, not_true_eq_false, if_false] at hn
  rw [getNextAsRune_enc ts2 hwf2 (fun x hx => allMarked_not_cont ham x (by rw [h1]; simp [hx]))] at hn
  cases B with
  | nil => exact ⟨rfl, .inl rfl⟩
  | cons d B =>
    obtain ⟨e, b⟩ := d
    cases ts2 with
    | nil => simp at h2
    | cons x ts2 =>
      simp only [List.cons_ne_nil, if_false, ← h2] at hn
      have hb0 : b ≠ 0 := by
        intro hb
        have : (0 : UInt8) ∈ (textToks t).map Prod.snd := by
          rw [h1, List.map_append, List.map_cons, ← h2, hb]; simp
        rw [textToks_snd t h0] at this
        exact h0 this
      have hsp : isSpaceRune (decodeRune (b :: B.map Prod.snd)).1 = true := by
        by_cases hx : isSpaceRune (decodeRune (b :: B.map Prod.snd)).1 = true
        · exact hx
        · simp at hx
          simp [hx] at hn
          exact absurd (decodeRune_zero _ _ hn) hb0
      have hbc : b ≠ 126 := by
        rintro rfl
        rw [decodeRune_ascii _ _ (by decide)] at hsp
        revert hsp; decide
      have hne : ((e, b) == (false, 126)) = false := by simp [hbc]
      have hrun : Spec.afterRun 126 ((e, b) :: B) = b :: B.map Prod.snd := by
        simp [Spec.afterRun, hne]
      rw [hrun]
      exact ⟨rfl, .inr hsp⟩

/-- **C79**, partial: under the same condition no tilde of the text can open a deletion in CommonMark's
sense of white space, if the text contains none of U+000B, U+0085, U+2028 and U+2029 (as in C12).
Missing: lines that look like fences and these four characters. -/
theorem c79_no_deletion_partial (h : IsStock dig hs) (hst : isStrikethrough ∈ hs) (t : Bytes)
    (hM : 7 ∉ t) (h0 : 0 ∉ t) (hf : ∀ line ∈ Spec.lines t, Spec.startsWithFenceChars line = false)
    (hsep : ∀ s, s <:+ t → (decodeRune s).1 ∉ [0x0B, 0x85, 0x2028, 0x2029])
    (A B : List (Bool × UInt8)) (hr : Spec.readEscapes (out hs t) = A ++ (false, 126) :: B) :
    Spec.canOpen 126 B = false := by
  obtain ⟨hB, hsp⟩ := c79_tilde_followed_by_space_partial h hst t hM h0 hf A B hr
  have hchars : (A ++ (false, 126) :: B).map Prod.snd = t := by
    rw [← hr, out, read_text h.good hM, W_snd, textToks_snd t h0]
  have hsuf : Spec.afterRun 126 B <:+ t := by
    rw [← hchars, hB]
    simp only [List.map_append, List.map_cons]
    exact (List.suffix_cons _ _).trans (List.suffix_append _ _)
  rcases hsp with hsp | hsp
  · simp [Spec.canOpen, hsp]
  · have := hsep _ hsuf
    simp only [List.mem_cons, List.not_mem_nil, or_false, not_or] at this
    simp only [Spec.canOpen, Bool.and_eq_false_iff, Bool.not_eq_false']
    right
    simp only [isSpaceRune, Spec.cmWhitespace] at hsp ⊢
    grind

/-- C79 fails as stated: after an escaped fence the other tildes are left alone.  Two of them in front of
the `a` open a deletion, and two at the end of the second line close it. -/
theorem c79_fails : out (stock ++ [isStrikethrough]) b!"~~~a\n~~~" = b!"\\~~~a\n\\~~~" ∧
    ∃ B, Spec.readEscapes (out (stock ++ [isStrikethrough]) b!"~~~a\n~~~") =
      [(true, 126)] ++ (false, 126) :: (false, 126) :: B ∧ Spec.canOpen 126 B = true := by
  exact ⟨by decide, (Spec.readEscapes (out (stock ++ [isStrikethrough]) b!"~~~a\n~~~")).drop 3, by decide,
    by decide⟩

example : IsStock (fun r => decide (48 ≤ r ∧ r ≤ 57)) (stock ++ [isStrikethrough]) := .inr (.inl rfl)
example : ∀ line ∈ Spec.lines b!"a ~~b~~ ~ c ~", Spec.startsWithFenceChars line = false := by decide
example : out (stock ++ [isStrikethrough]) b!"a ~~b~~ ~ c ~" = b!"a \\~\\~b\\~~ ~ c ~" := by decide
example : out stock b!"a ~~b~~" = b!"a ~~b~~" := by decide

/-! ## C15: links and images -/

/-- **C15**, partial: no `[` that a parser does not read as escaped has a `]` after it on its line.
Missing: a `]` on a later line, see `c15_fails`. -/
theorem c15_no_link_partial (h : IsStock dig hs) (t : Bytes) (hM : 7 ∉ t) (A B : List (Bool × UInt8))
    (hr : Spec.readEscapes (out hs t) = A ++ (false, 91) :: B) :
    93 ∉ (B.map Prod.snd).takeWhile (· != 10) := by
  have hwf := textToks_wf t hM
  rw [out, read_text h.good hM] at hr
  obtain ⟨ts1, ts2, h1, h2, h3, h4⟩ := always_escaped h.good.ok hwf
    (fun m hm => (textToks_marked t _ hm).2 (by show (91 : UInt8) ∈ _; decide))
    (by unfold regionByte; decide) hr
  rw [h3]
  apply bracketLoop_none _ (fun x hx => hwf x (by rw [h1]; simp [hx]))
  cases hce : checkElements hs (MARK :: (encToks ts1).reverse) 91 (encToks ts2) with
  | none =>
    have := checkElements_none hce isImageOrLink (h.good.mem _ (by simp [commonmarkHandlers]))
    simpa [isImageOrLink] using this
  | some n => simp [hce] at h4

/-- C15 fails as stated: a link whose text goes over a line break is left alone. -/
theorem c15_fails : out stock b!"[a\nb](/c)" = b!"[a\nb](/c)" := by decide

example : out stock b!"[a](b) ![c] [d" = b!"\\[a](b) !\\[c] [d" := by decide

end
end Verif.Props
