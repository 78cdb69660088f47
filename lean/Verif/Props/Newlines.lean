import Verif.Props.Spaces
/-!
# Properties C21, C27, C31, C32: newlines, block quotes, multi-line links
-/

set_option linter.unusedSimpArgs false

namespace Verif.Props
open Verif Verif.Commonmark Verif.TextUtils

/-! ## C31 -/

/-- Newlines since the last visible byte, at most 2. -/
def okRun : Nat → Bytes → Bool
  | _, [] => true
  | k, b :: s => if b = 10 then k + 1 ≤ 2 && okRun (k + 1) s else if b = 32 then okRun k s else okRun 0 s

theorem okRun_spaces {sp : Bytes} (h : ∀ b ∈ sp, b = 32) (k : Nat) (s : Bytes) : okRun k (sp ++ s) = okRun k s := by
  induction sp with
  | nil => rfl
  | cons b sp ih =>
    have hb := h b (by simp)
    subst hb
    simp [okRun, ih (fun x hx => h x (by simp [hx]))]

theorem okRun_mono : ∀ (s : Bytes) (j k : Nat), j ≤ k → okRun k s = true → okRun j s = true := by
  intro s
  induction s with
  | nil => intro j k _ _; rfl
  | cons b s ih =>
    intro j k hjk h
    rw [okRun] at h ⊢
    split
    · rename_i hb
      rw [if_pos hb] at h
      simp at h ⊢
      exact ⟨by omega, ih (j+1) (k+1) (by omega) h.2⟩
    · rename_i hb
      rw [if_neg hb] at h
      split
      · rename_i h2; rw [if_pos h2] at h; exact ih j k hjk h
      · rename_i h2; rw [if_neg h2] at h; exact h

theorem okRun_go : ∀ (s : Bytes) (k : Nat) (buf : Bytes), (∀ b ∈ buf, b = 32) →
    okRun (min k 2) (trimNewlinesGo k buf s) = true := by
  intro s
  induction s with
  | nil =>
    intro k buf hb
    have := okRun_spaces hb (min k 2) []
    rw [List.append_nil] at this
    rw [trimNewlinesGo, this]; rfl
  | cons b s ih =>
    intro k buf hb
    rw [trimNewlinesGo]
    by_cases h10 : b = 10
    · rw [if_pos h10]
      have ih := ih (k+1) [] (by simp)
      by_cases hk : k + 1 ≤ 2
      · rw [if_pos hk, okRun_spaces hb, okRun, if_pos rfl]
        have e1 : min (k+1) 2 = k + 1 := by omega
        have e2 : min k 2 = k := by omega
        rw [e1] at ih; rw [e2, ih]; simp; omega
      · rw [if_neg hk]
        have e1 : min (k+1) 2 = min k 2 := by omega
        rw [e1] at ih; exact ih
    · rw [if_neg h10]
      by_cases h32 : b = 32
      · rw [if_pos h32]
        exact ih k _ (by simpa [or_imp, forall_and] using hb)
      · rw [if_neg h32, okRun_spaces hb, okRun, if_neg h10, if_neg h32]
        exact ih 0 [] (by simp)

/-- **C31**, first half: after the trimming there are no three newlines in a row, not even with spaces in between. -/
theorem c31_no_three_newlines (s a b sp1 sp2 : Bytes) (h1 : ∀ x ∈ sp1, x = 32) (h2 : ∀ x ∈ sp2, x = 32) :
    trimConsecutiveNewlines s ≠ a ++ (10 :: sp1 ++ 10 :: sp2 ++ 10 :: b) := by
  intro h
  have hok := okRun_go s 0 [] (by simp)
  rw [trimConsecutiveNewlines] at h
  rw [h] at hok
  have step : ∀ (a : Bytes) (k : Nat), okRun k (a ++ (10 :: sp1 ++ 10 :: sp2 ++ 10 :: b)) = false := by
    intro a
    induction a with
    | nil =>
      intro k
      cases hc : okRun k ([] ++ (10 :: sp1 ++ 10 :: sp2 ++ 10 :: b)) with
      | false => rfl
      | true =>
        exfalso
        have e : [] ++ (10 :: sp1 ++ 10 :: sp2 ++ 10 :: b) = 10 :: (sp1 ++ 10 :: (sp2 ++ 10 :: b)) := by simp
        rw [e, okRun, if_pos rfl, okRun_spaces h1, okRun, if_pos rfl, okRun_spaces h2, okRun, if_pos rfl] at hc
        simp at hc
    | cons x a ih =>
      intro k
      rw [List.cons_append, okRun]
      split
      · rw [ih, Bool.and_false]
      · split
        · exact ih _
        · exact ih _
  rw [step] at hok
  exact absurd hok (by decide)

/-- The line has something else than spaces. -/
def visibleLine (l : Bytes) : Bool := l.any (· != 32)

theorem spaces_not_visible {l : Bytes} (h : ∀ b ∈ l, b = 32) : visibleLine l = false := by
  simp only [visibleLine, List.any_eq_false]
  intro b hb; simp [h b hb]

theorem lines_head_append {p : Bytes} (hp : 10 ∉ p) {s l : Bytes} {ls : List Bytes} (h : splitOn 10 s = l :: ls) :
    splitOn 10 (p ++ s) = (p ++ l) :: ls := by
  induction p with
  | nil => exact h
  | cons b p ih =>
    simp at hp
    obtain ⟨l', ls', h1, h2⟩ := splitOn_other (Ne.symm hp.1) (p ++ s)
    rw [ih hp.2] at h1
    simp at h1
    rw [List.cons_append, h2, ← h1.1, ← h1.2]; rfl

theorem tcn_lines : ∀ (s : Bytes) (k : Nat) (buf : Bytes), (∀ b ∈ buf, b = 32) →
    ((splitOn 10 (trimNewlinesGo k buf s)).filter visibleLine = (splitOn 10 (buf ++ s)).filter visibleLine) ∧
    (k ≤ 1 → ∃ l ls ls', splitOn 10 (trimNewlinesGo k buf s) = l :: ls ∧ splitOn 10 (buf ++ s) = l :: ls' ∧
      ls.filter visibleLine = ls'.filter visibleLine) := by
  have no10 : ∀ {buf : Bytes}, (∀ b ∈ buf, b = 32) → (10 : UInt8) ∉ buf := by
    intro buf h h10; exact absurd (h _ h10) (by decide)
  intro s
  induction s with
  | nil =>
    intro k buf hb
    rw [trimNewlinesGo, List.append_nil]
    refine ⟨rfl, fun _ => ?_⟩
    cases h : splitOn 10 buf with
    | nil => exact absurd h (splitOn_nonempty _ _)
    | cons l ls => exact ⟨l, ls, ls, rfl, rfl, rfl⟩
  | cons b s ih =>
    intro k buf hb
    rw [trimNewlinesGo]
    by_cases h10 : b = 10
    · subst h10
      obtain ⟨ih1, -⟩ := ih (k+1) [] (by simp)
      rw [List.nil_append] at ih1
      have hv : ¬ visibleLine buf = true := by rw [spaces_not_visible hb]; decide
      rw [if_pos rfl, splitOn_cat _ _ _ (no10 hb), List.filter_cons (x := buf), if_neg hv]
      by_cases hk : k + 1 ≤ 2
      · rw [if_pos hk, splitOn_cat _ _ _ (no10 hb)]
        refine ⟨?_, fun _ => ⟨buf, _, _, rfl, rfl, ih1⟩⟩
        rw [List.filter_cons, if_neg hv]
        exact ih1
      · rw [if_neg hk]
        exact ⟨ih1, fun h => by omega⟩
    · rw [if_neg h10]
      by_cases h32 : b = 32
      · rw [if_pos h32]
        have := ih k (buf ++ [32]) (by simpa [or_imp, forall_and] using hb)
        have e : buf ++ [32] ++ s = buf ++ b :: s := by rw [h32]; simp
        rw [e] at this
        exact this
      · rw [if_neg h32]
        obtain ⟨-, ih2⟩ := ih 0 [] (by simp)
        obtain ⟨l, ls, ls', h1, h2, h3⟩ := ih2 (by omega)
        rw [List.nil_append] at h2
        have hp : (10 : UInt8) ∉ buf ++ [b] := by simp [no10 hb, Ne.symm h10]
        have e1 := lines_head_append hp h1
        have e2 := lines_head_append hp h2
        rw [List.append_assoc, List.singleton_append] at e1 e2
        rw [e1, e2]
        refine ⟨?_, fun _ => ⟨_, _, _, rfl, rfl, h3⟩⟩
        rw [List.filter_cons, List.filter_cons, h3]

/-- **C31**, second half: all lines with something visible are kept byte for byte and in order. -/
theorem c31_visible_lines_kept (s : Bytes) :
    (Spec.lines (trimConsecutiveNewlines s)).filter visibleLine = (Spec.lines s).filter visibleLine :=
  (tcn_lines s 0 [] (by simp)).1

/-- **C31**: bytes are only removed. -/
theorem c31_sublist (s : Bytes) : (trimConsecutiveNewlines s).Sublist s := by
  have main : ∀ (s : Bytes) (k : Nat) (buf : Bytes), (trimNewlinesGo k buf s).Sublist (buf ++ s) := by
    intro s
    induction s with
    | nil => intro k buf; simp [trimNewlinesGo]
    | cons b s ih =>
      intro k buf
      rw [trimNewlinesGo]
      split
      · rename_i hb
        split
        · subst hb
          exact (List.Sublist.refl buf).append (by simpa using ih (k+1) [])
        · have := ih (k+1) []
          rw [List.nil_append] at this
          exact this.trans ((List.sublist_cons_self b s).trans (List.sublist_append_right _ _))
      · split
        · rename_i hb
          have := ih k (buf ++ [32])
          rw [hb]
          simpa using this
        · exact (List.Sublist.refl buf).append (by simpa using ih 0 [])
  simpa [trimConsecutiveNewlines] using main s 0 []

example : trimConsecutiveNewlines b!"a \n \n\n  \n b\n\nc" = b!"a \n \n b\n\nc" := by decide

/-! ## C32 -/

/-- The line without the spaces at its end. -/
def stripEnd : Bytes → Bytes
  | [] => []
  | b :: l => if b = 32 ∧ stripEnd l = [] then [] else b :: stripEnd l

theorem replace_hard_lines {sp : Bytes} (hsp : ∀ b ∈ sp, b = 32) (s : Bytes) :
    (splitOn 10 (replaceAll (b!"  \n" ++ sp ++ [10]) b!"\n\n" s)).map stripEnd = (splitOn 10 s).map stripEnd := by
  have hne : (b!"  \n" ++ sp ++ [10]) ≠ [] := by simp
  have h10 : (10 : UInt8) ∉ sp := fun h => absurd (hsp _ h) (by decide)
  have hstrip : ∀ sp : Bytes, (∀ b ∈ sp, b = 32) → stripEnd sp = [] := by
    intro sp h
    induction sp with
    | nil => rfl
    | cons b sp ih => simp [stripEnd, h b (by simp), ih (fun x hx => h x (by simp [hx]))]
  revert s
  refine replaceAll_induct hne rfl ?_ ?_
  · intro s ih
    rw [replaceAll_match _ _ _ hne]
    have e1 : b!"\n\n" ++ replaceAll (b!"  \n" ++ sp ++ [10]) b!"\n\n" s = [] ++ 10 :: ([] ++ 10 :: replaceAll (b!"  \n" ++ sp ++ [10]) b!"\n\n" s) := rfl
    have e2 : b!"  \n" ++ sp ++ [10] ++ s = b!"  " ++ 10 :: (sp ++ 10 :: s) := by simp
    rw [e1, e2, splitOn_cat _ _ _ (by decide), splitOn_cat _ _ _ (by decide), splitOn_cat _ _ _ (by decide), splitOn_cat _ _ _ h10]
    simp only [List.map_cons, ih, hstrip sp hsp]
    rfl
  · intro b s hnp ih
    rw [replaceAll_nomatch hnp]
    by_cases hb : b = 10
    · subst hb; simp only [splitOn_sep, List.map_cons, ih]
    · obtain ⟨l, ls, h1, h2⟩ := splitOn_other hb s
      obtain ⟨l', ls', h1', h2'⟩ := splitOn_other hb (replaceAll (b!"  \n" ++ sp ++ [10]) b!"\n\n" s)
      rw [h1, h1'] at ih
      simp only [List.map_cons, List.cons.injEq] at ih
      rw [h2, h2']
      simp only [List.map_cons, stripEnd, ih]

/-- **C32**, first half: the trimming of hard line breaks removes only spaces at the ends of lines. -/
theorem c32_only_line_ends (s : Bytes) :
    (Spec.lines (trimUnnecessaryHardLineBreaks s)).map stripEnd = (Spec.lines s).map stripEnd := by
  simp only [trimUnnecessaryHardLineBreaks, Spec.lines]
  have h1 := replace_hard_lines (sp := []) (by simp)
  have h2 := replace_hard_lines (sp := [32, 32]) (by simp)
  have h3 := replace_hard_lines (sp := [32]) (by simp)
  simp only [List.cons_append, List.nil_append] at h1 h2 h3
  rw [h3, h2, h1]

/-- **C32**: bytes are only removed. -/
theorem c32_sublist (s : Bytes) : (trimUnnecessaryHardLineBreaks s).Sublist s := by
  have main : ∀ (pat : Bytes), b!"\n\n".Sublist pat → ∀ s, (replaceAll pat b!"\n\n" s).Sublist s := by
    intro pat hp
    have hne : pat ≠ [] := by rintro rfl; simp at hp
    refine replaceAll_induct hne (by simp) ?_ ?_
    · intro s ih
      rw [replaceAll_match _ _ _ hne]
      exact hp.append ih
    · intro b s hnp ih
      rw [replaceAll_nomatch hnp]
      exact ih.cons_cons b
  simp only [trimUnnecessaryHardLineBreaks]
  exact (main _ (by decide) _).trans ((main _ (by decide) _).trans (main _ (by decide) _))

example : trimUnnecessaryHardLineBreaks b!"a  \nb  \n\nc  \n  \nd" = b!"a  \nb\n\nc\n\nd" := by decide

/-- The second half of C32 fails: of four spaces in front of a blank line two are left. -/
theorem c32_counterexample : trimUnnecessaryHardLineBreaks b!"a    \n\nb" = b!"a  \n\nb" := by decide

/-- The second half of C32 fails also in the whole post-rendering, and with three spaces in the blank line. -/
theorem c32_counterexample_blank : postRenderTrimContent b!"a  \n   \nb" = b!"a  \n   \nb" := by decide

/-! ## C21 -/

theorem prefixLinesGo_lines (p : Bytes) (hp : 10 ∉ p) : ∀ s : Bytes, ∃ l ls, splitOn 10 s = l :: ls ∧
    splitOn 10 (prefixLinesGo p s) = l :: ls.map (p ++ ·) := by
  intro s
  induction s with
  | nil => exact ⟨[], [], rfl, rfl⟩
  | cons b s ih =>
    obtain ⟨l, ls, h1, h2⟩ := ih
    rw [prefixLinesGo]
    by_cases hb : b = 10
    · subst hb
      rw [if_pos rfl, splitOn_sep, splitOn_sep, lines_head_append hp h2, h1]
      exact ⟨[], l :: ls, rfl, rfl⟩
    · rw [if_neg hb]
      obtain ⟨l1, ls1, e1, e2⟩ := splitOn_other hb s
      obtain ⟨l2, ls2, e3, e4⟩ := splitOn_other hb (prefixLinesGo p s)
      rw [h1] at e1; rw [h2] at e3
      simp at e1 e3
      rw [e2, e4]
      exact ⟨_, _, rfl, by rw [← e1.1, ← e3.1, ← e1.2, ← e3.2]⟩

theorem prefixLines_lines (p s : Bytes) (hp : 10 ∉ p) :
    Spec.lines (prefixLines s p) = (Spec.lines s).map (p ++ ·) := by
  obtain ⟨l, ls, h1, h2⟩ := prefixLinesGo_lines p hp s
  simp only [Spec.lines, prefixLines]
  rw [lines_head_append hp h2, h1]; rfl

theorem visible_iff_strip (l : Bytes) : visibleLine l = !(stripEnd l).isEmpty := by
  induction l with
  | nil => rfl
  | cons b l ih =>
    simp only [visibleLine, List.any_cons] at ih ⊢
    rw [ih, stripEnd]
    by_cases hb : b = 32
    · subst hb
      cases h : stripEnd l <;> simp
    · simp [hb]

/-- What is left of a text if only its visible lines count, and of those not the spaces at the end. -/
def visibleText (s : Bytes) : List Bytes := ((Spec.lines s).map stripEnd).filter fun l => !l.isEmpty

theorem visibleText_trim (s : Bytes) :
    visibleText (trimUnnecessaryHardLineBreaks (trimConsecutiveNewlines s)) = visibleText s := by
  have key : ∀ ls : List Bytes, (ls.map stripEnd).filter (fun l => !l.isEmpty) = (ls.filter visibleLine).map stripEnd := by
    intro ls
    rw [List.filter_map]
    congr 1
    apply List.filter_congr
    intro l _; rw [visible_iff_strip]; rfl
  rw [visibleText, c32_only_line_ends, key, c31_visible_lines_kept, ← key]; rfl

/-- **C21** (partial).  The Markdown of a block quote is a block of lines that all begin with `> `; after these
prefixes come the visible lines of the trimmed content, in order.

Missing: the newlines of code blocks in the quote, which are hidden from the line prefixing by the code newline
marker; see `c21_counterexample`. -/
theorem c21_lines_prefixed_partial (content : Bytes) (h : ¬ Spec.AllWhitespace content) :
    ∃ q body mid, blockquote content = b!"\n\n" ++ q ++ b!"\n\n" ∧
      Spec.lines q = (Spec.lines body).map (b!"> " ++ ·) ∧
      Spec.Trimmed content mid ∧ visibleText body = visibleText mid := by
  have hne : trimSpace content ≠ [] := fun h' => h ((trimSpace_nil_iff _).1 h')
  refine ⟨_, trimUnnecessaryHardLineBreaks (trimConsecutiveNewlines (trimSpace content)), trimSpace content,
    ?_, prefixLines_lines b!"> " _ (by decide), trimSpace_spec content, visibleText_trim _⟩
  simp only [blockquote]
  rw [if_neg hne]

/-- **C21**, blank content gives nothing. -/
theorem c21_blank (content : Bytes) (h : Spec.AllWhitespace content) : blockquote content = [] := by
  simp only [blockquote]
  rw [if_pos ((trimSpace_nil_iff _).2 h)]

example : blockquote b!" a\n\n\nb " = b!"\n\n> a\n> \n> b\n\n" := by decide

/-- The full C21 fails: the second line of a code block in a block quote has no prefix. -/
theorem c21_counterexample :
    Spec.lines (postRender .smart (Escape.commonmarkHandlers fun _ => false) (blockquote (blockCode 96 [] b!"a\nb"))) =
      [b!"> ```", b!"> a", b!"b", b!"> ```"] := by decide

/-! ## C27 -/

/-- The line ends with a hard line break: it has visible content and two spaces at the end, or is only a
backslash.  (In front of the newline both are hard line breaks, and neither line is blank.) -/
def HardBreakLine (l : Bytes) : Prop := (¬ Spec.AllWhitespace l ∧ b!"  " <:+ l) ∨ l = b!"\\"

theorem last_word_suffix {l : Bytes} (h : Spec.AllWhitespace l) (hne : l ≠ []) : ∃ w ∈ Spec.whitespace, w <:+ l := by
  obtain ⟨ws, hws, rfl⟩ := h
  rcases List.eq_nil_or_concat ws with rfl | ⟨t, w, rfl⟩
  · simp at hne
  · rw [List.concat_eq_append] at *
    exact ⟨w, hws w (by simp), ⟨t.flatten, by simp⟩⟩

theorem AllWhitespace.of_append {x r : Bytes} (h : Spec.AllWhitespace (x ++ r)) (hr : Spec.AllWhitespace r) :
    Spec.AllWhitespace x := by
  have h1 : trimRight (x ++ r) = [] := trimRight_ws h []
  rw [trimRight_ws hr] at h1
  obtain ⟨r', hr', e, -⟩ := trimRight_spec x
  rw [h1] at e
  rw [e]; exact hr'

theorem tcn_visible {d : UInt8} (h1 : d ≠ 10) (h2 : d ≠ 32) (rest : Bytes) : ∀ (x : Bytes) (k : Nat) (buf : Bytes),
    ∃ x', trimNewlinesGo k buf (x ++ d :: rest) = x' ++ d :: trimNewlinesGo 0 [] rest := by
  intro x
  induction x with
  | nil => intro k buf; exact ⟨buf, by simp [trimNewlinesGo, h1, h2]⟩
  | cons b x ih =>
    intro k buf
    rw [List.cons_append, trimNewlinesGo]
    split
    · obtain ⟨x', e⟩ := ih (k+1) []
      split
      · exact ⟨buf ++ 10 :: x', by rw [e]; simp⟩
      · exact ⟨x', e⟩
    · split
      · exact ih _ _
      · obtain ⟨x', e⟩ := ih 0 []
        exact ⟨buf ++ b :: x', by rw [e]; simp⟩

theorem lines_last_suffix (s : Bytes) : ∃ init last, splitOn 10 s = init ++ [last] ∧ last <:+ s ∧
    (∀ x d, d ≠ 10 → s = x ++ [d] → ∃ last', last = last' ++ [d]) := by
  induction s with
  | nil => exact ⟨[], [], rfl, List.suffix_refl _, fun x d _ h => by simp at h⟩
  | cons b s ih =>
    obtain ⟨init, last, h1, h2, h3⟩ := ih
    have hlast : ∀ x d, d ≠ 10 → b :: s = x ++ [d] → s ≠ [] → ∃ last', last = last' ++ [d] := by
      intro x d hd e hs
      cases x with
      | nil => simp at e; exact absurd e.2 hs
      | cons y x => simp at e; exact h3 x d hd e.2
    by_cases hb : b = 10
    · subst hb
      refine ⟨[] :: init, last, by rw [splitOn_sep, h1]; rfl, h2.trans (List.suffix_cons _ _), ?_⟩
      intro x d hd e
      refine hlast x d hd e ?_
      rintro rfl
      cases x with
      | nil => simp at e; exact hd e.symm
      | cons y x => simp at e
    · obtain ⟨l, ls, e1, e2⟩ := splitOn_other hb s
      rw [h1] at e1
      cases init with
      | nil =>
        simp at e1
        refine ⟨[], b :: last, by rw [e2, e1.1, e1.2]; rfl, ?_, ?_⟩
        · have : last = s := by
            have hj := join_split 10 s
            rw [h1] at hj; simpa [joinWith] using hj
          rw [this]; exact List.suffix_refl _
        · intro x d hd e
          by_cases hs : s = []
          · subst hs
            have : last = [] := List.suffix_nil.1 h2
            subst this
            exact ⟨[], by cases x with
              | nil => simpa using e
              | cons y x => simp at e⟩
          · obtain ⟨l', hl'⟩ := hlast x d hd e hs
            exact ⟨b :: l', by rw [hl']; rfl⟩
      | cons i init =>
        simp at e1
        refine ⟨(b :: i) :: init, last, by rw [e2, ← e1.1, ← e1.2]; rfl, h2.trans (List.suffix_cons _ _), ?_⟩
        intro x d hd e
        refine hlast x d hd e ?_
        rintro rfl
        have := congrArg List.length h1
        simp [splitOn] at this

/-- Content that does not end with white space keeps its last line in the newline trimming. -/
theorem tcn_last_line {mid : Bytes} (hne : mid ≠ []) (hT : Spec.NoTrailingWhitespace mid) :
    ∃ init last, splitOn 10 (trimConsecutiveNewlines mid) = init ++ [last] ∧ ¬ Spec.AllWhitespace last := by
  obtain ⟨m0, d, rfl⟩ : ∃ m0 d, mid = m0 ++ [d] := by
    rcases List.eq_nil_or_concat mid with rfl | ⟨t, d, rfl⟩
    · exact absurd rfl hne
    · exact ⟨t, d, by rw [List.concat_eq_append]⟩
  have hd10 : d ≠ 10 := by rintro rfl; exact hT [10] (by decide) (List.suffix_append _ _)
  have hd32 : d ≠ 32 := by rintro rfl; exact hT [32] (by decide) (List.suffix_append _ _)
  obtain ⟨x, hx⟩ := tcn_visible hd10 hd32 [] m0 0 []
  have hx' : trimConsecutiveNewlines (m0 ++ [d]) = x ++ [d] := hx
  obtain ⟨init, last, h1, h2, h3⟩ := lines_last_suffix (trimConsecutiveNewlines (m0 ++ [d]))
  obtain ⟨init', last', g1, g2, g3⟩ := lines_last_suffix (m0 ++ [d])
  obtain ⟨p, hp⟩ := h3 x d hd10 hx'
  obtain ⟨p', hp'⟩ := g3 m0 d hd10 rfl
  have vis : ∀ p : Bytes, visibleLine (p ++ [d]) = true := by intro p; simp [visibleLine, hd32]
  have hv := c31_visible_lines_kept (m0 ++ [d])
  simp only [Spec.lines] at hv
  rw [h1, g1, hp, hp'] at hv
  rw [List.filter_append, List.filter_append, List.filter_cons, if_pos (vis p), List.filter_cons, if_pos (vis p')] at hv
  have := List.append_inj_right' hv rfl
  simp at this
  refine ⟨init, last, h1, fun hw => ?_⟩
  obtain ⟨w, hw1, hw2⟩ := last_word_suffix hw (by rw [hp]; simp)
  refine hT w hw1 (hw2.trans ?_)
  rw [hp, this, ← hp']
  exact g2

theorem escapeMultiLineGo_join : ∀ (init : List Bytes) (last : Bytes), trimLeft last ≠ [] →
    escapeMultiLineGo (init ++ [last]) = joinWith 10 (init.map (fun p => if trimLeft p = [] then b!"\\" else
      if b!"  ".isSuffixOf (trimLeft p) then trimLeft p else trimLeft p ++ b!"  ") ++ [trimLeft last]) := by
  intro init last hl
  induction init with
  | nil =>
    have : (trimLeft last).length ≠ 0 := by simpa using hl
    simp only [List.nil_append, escapeMultiLineGo, List.map_nil, joinWith]
    rw [if_neg this]; simp
  | cons p init ih =>
    have hcons : ∀ (a : Bytes) (L : List Bytes), L ≠ [] → joinWith 10 (a :: L) = a ++ 10 :: joinWith 10 L := by
      intro a L hL
      cases L with
      | nil => exact absurd rfl hL
      | cons b L => rfl
    rw [List.cons_append, escapeMultiLineGo, ih, List.map_cons, List.cons_append, hcons _ _ (by simp)]
    simp only [List.length_eq_zero_iff]
    rw [if_neg (show ¬ (init ++ [last] = []) by simp)]
    by_cases h1 : trimLeft p = []
    · rw [if_pos h1, if_pos h1]; rfl
    · rw [if_neg h1, if_neg h1]
      split <;> simp

/-- Multi-line content that does not end with white space: all lines but the last one end with a hard line break, and the
last one is not blank. -/
theorem escapeMultiLine_lines {content : Bytes} (hne : content ≠ []) (hT : Spec.NoTrailingWhitespace content) :
    ∃ init last, Spec.lines (escapeMultiLine (trimConsecutiveNewlines content)) = init ++ [last] ∧
      ¬ Spec.AllWhitespace last ∧ ∀ l ∈ init, HardBreakLine l := by
  obtain ⟨init, last, h1, h2⟩ := tcn_last_line hne hT
  have hlast : trimLeft last ≠ [] := fun h => h2 ((trimLeft_nil_iff _).1 h)
  simp only [escapeMultiLine]
  by_cases hi : init = []
  · subst hi
    have hlen : (splitOn 10 (trimConsecutiveNewlines content)).length = 1 := by rw [h1]; rfl
    rw [if_pos hlen]
    exact ⟨[], last, h1, h2, by simp⟩
  · have hlen : ¬ (splitOn 10 (trimConsecutiveNewlines content)).length = 1 := by
      rw [h1]; cases init with
      | nil => exact absurd rfl hi
      | cons a b => simp
    have hsplit : ∀ l ∈ init ++ [last], (10 : UInt8) ∉ l := by
      rw [← h1]; exact splitOn_no_sep 10 _
    have htl : ∀ p : Bytes, (10 : UInt8) ∉ p → (10 : UInt8) ∉ trimLeft p := by
      intro p hp
      obtain ⟨l, -, e, -⟩ := trimLeft_spec p
      intro h; apply hp; rw [e]; simp [h]
    have hnl : ∀ p : Bytes, trimLeft p ≠ [] → ¬ Spec.AllWhitespace (trimLeft p) := by
      intro p hp hw
      obtain ⟨l, hl, e, hno⟩ := trimLeft_spec p
      obtain ⟨ws, hws, hf⟩ := hw
      cases ws with
      | nil => simp at hf; exact hp hf
      | cons w ws => exact hno w (hws w (by simp)) ⟨ws.flatten, by rw [← hf]; rfl⟩
    rw [if_neg hlen, h1, escapeMultiLineGo_join init last hlast]
    refine ⟨init.map (fun p => if trimLeft p = [] then b!"\\" else
      if b!"  ".isSuffixOf (trimLeft p) then trimLeft p else trimLeft p ++ b!"  "), trimLeft last, ?_, hnl _ hlast, ?_⟩
    · apply split_join
      · simp
      · intro l hl
        simp only [List.mem_append, List.mem_map, List.mem_singleton] at hl
        rcases hl with ⟨p, hp, rfl⟩ | rfl
        · have := htl p (hsplit p (by simp [hp]))
          split
          · decide
          · split
            · exact this
            · simpa using this
        · exact htl _ (hsplit last (by simp))
    · intro l hl
      rw [List.mem_map] at hl
      obtain ⟨p, hp, rfl⟩ := hl
      split
      · right; rfl
      · rename_i hp'
        left
        split
        · rename_i hs
          exact ⟨hnl p hp', List.isSuffixOf_iff_suffix.1 hs⟩
        · refine ⟨?_, List.suffix_append _ _⟩
          intro hw
          exact hnl p hp' (AllWhitespace.of_append hw (Spec.AllWhitespace.spaces 2))

/-- **C27**, links.  For every content, the text of a link is empty or has no blank line, and every line break in it is
a hard line break. -/
theorem c27_link (content : Bytes) :
    (linkContent content).2.1 = [] ∨
    ∃ init last, Spec.lines (linkContent content).2.1 = init ++ [last] ∧
      ¬ Spec.AllWhitespace last ∧ ∀ l ∈ init, HardBreakLine l := by
  obtain ⟨-, -, -, -, h⟩ := c23_surrounding_spaces content
  simp only [linkContent]
  by_cases hne : (surroundingSpaces content).2.1 = []
  · left; rw [hne]; rfl
  · right; exact escapeMultiLine_lines hne h

example : (linkContent b!" a\n\nb  \nc ").2.1 = b!"a  \n\\\nb  \nc" := by decide

/-- **C27**, headings (partial).  The text of a setext heading has no blank line and only hard line breaks.
Missing: content that ends with white space, see `c27_counterexample`. -/
theorem c27_setext_partial (level : Nat) (hl : level < 3) (content : Bytes) (hne : content ≠ [])
    (hT : Spec.NoTrailingWhitespace content) :
    ∃ text w c init last, heading true level content = some (b!"\n\n" ++ text ++ [10] ++ List.replicate w c ++ b!"\n\n") ∧
      3 ≤ w ∧ c = (if level = 1 then 61 else 45) ∧
      Spec.lines text = init ++ [last] ∧ ¬ Spec.AllWhitespace last ∧ ∀ l ∈ init, HardBreakLine l := by
  obtain ⟨init, last, h1, h2, h3⟩ := escapeMultiLine_lines hne hT
  have hb : ¬ (trimSpace content).length = 0 := by
    intro h
    obtain ⟨w, hw, hs⟩ := last_word_suffix ((trimSpace_nil_iff _).1 (List.length_eq_zero_iff.1 h)) hne
    exact hT w hw hs
  refine ⟨_, underlineWidth (escapeMultiLine (trimConsecutiveNewlines content)) 3, _, init, last, ?_, ?_, rfl, h1, h2, h3⟩
  · simp only [heading, setextUnderline]
    rw [if_neg hb, if_pos (by simpa using hl)]
  · simp only [underlineWidth]; split <;> omega

example : heading true 1 b!"a\nb" = some b!"\n\na  \nb\n===\n\n" := by decide

/-- The full C27 fails for headings: `<h1>a<br></h1>` has a blank line in front of its underline. -/
theorem c27_counterexample : heading true 1 (b!"a" ++ hardBreak) = some b!"\n\na  \n\\\n\n===\n\n" := by decide

end Verif.Props
