import Verif.Proofs.Code
/-!
# Properties C16-C18: text as HTML, inline code
-/

namespace Verif.Props
open Verif Verif.Commonmark Verif.TextUtils

/-! ## C17 -/

/-- **C17.** Inline code that is not blank is a text between two fences of the same length, which is larger
than the length of every run of backticks in the text; the text is the content without white space at the
ends and with runs of spaces squeezed, and at most one space added at each end. -/
theorem c17_fence (content : Bytes) (hb : ¬ Spec.AllWhitespace content) :
    ∃ (n : Nat) (mid l r : Bytes), inlineCode content =
        List.replicate n 96 ++ (l ++ Spec.squeeze mid ++ r) ++ List.replicate n 96 ∧
      Spec.LongerThanRuns 96 n (l ++ Spec.squeeze mid ++ r) ∧
      Spec.Trimmed (Spec.asSpaces content) mid ∧ (l = [] ∨ l = [32]) ∧ (r = [] ∨ r = [32]) := by
  obtain ⟨mid, hT, hne, h⟩ := inlineCode_eq hb
  refine ⟨_, mid, _, _, h, ?_, hT, ?_, ?_⟩
  · exact inlineCode_longer mid
  · split <;> simp
  · split <;> simp

/-- **C17**, blank content: it is put between two single backticks and contains none. -/
theorem c17_fence_blank (content : Bytes) (hb : Spec.AllWhitespace content) :
    inlineCode content = [96] ++ content ++ [96] ∧ Spec.LongerThanRuns 96 1 content := by
  constructor
  · rw [inlineCode, if_pos ((trimSpace_nil_iff _).2 hb)]
  · intro k a b h
    obtain ⟨ws, hws, hw⟩ := hb
    cases k with
    | zero => omega
    | succ k =>
      exfalso
      have : (96 : UInt8) ∈ ws.flatten := by rw [hw, h]; simp
      rw [List.mem_flatten] at this
      obtain ⟨w, hw1, hw2⟩ := this
      have hno : ∀ w ∈ Spec.whitespace, (96 : UInt8) ∉ w := by decide
      exact hno w (hws w hw1) hw2

example : ¬ Spec.AllWhitespace b!"a `` b" := fun h => absurd ((trimSpace_nil_iff _).2 h) (by decide)
example : inlineCode b!"a ``  b" = b!"```a `` b```" := by decide

/-! ## C18 -/

/-- **C18** (partial).  A CommonMark parser reads the code span produced for a content that is not blank as
the content with line feeds and tabs as spaces, without white space at the ends and with runs of spaces
squeezed, and continues behind it.

Missing: if the content begins with a backtick but does not end with one (or the other way round), the space that was added next to
the backtick is not removed by the parser, which removes spaces only from both ends; see
`c18_counterexample`.  A blank content is not collapsed (`c17_fence_blank`). -/
theorem c18_code_span_partial (content rest : Bytes) (hb : ¬ Spec.AllWhitespace content) (h13 : 13 ∉ content)
    (hr : rest.head? ≠ some 96) :
    ∃ mid, Spec.Trimmed (Spec.asSpaces content) mid ∧
      Spec.readCodeSpan (inlineCode content ++ rest) = some
        ((if mid.head? = some 96 ∧ mid.getLast? ≠ some 96 then [32] else []) ++ Spec.squeeze mid ++
         (if mid.head? ≠ some 96 ∧ mid.getLast? = some 96 then [32] else []), rest) := by
  obtain ⟨mid, hT, hne, h⟩ := inlineCode_eq hb
  refine ⟨mid, hT, ?_⟩
  have h13' : ∀ b ∈ Spec.squeeze mid, b ≠ 10 ∧ b ≠ 13 := by
    intro b hb'
    obtain ⟨l, r, -, -, hs, -, -⟩ := hT
    have : b ∈ Spec.asSpaces content := by rw [hs]; simp [squeeze_mem mid b hb']
    rw [Spec.asSpaces, List.mem_map] at this
    obtain ⟨x, hx, rfl⟩ := this
    by_cases hc : x = 10 ∨ x = 9
    · rw [if_pos hc]; decide
    · rw [if_neg hc]
      refine ⟨fun h => hc (Or.inl h), fun h => h13 (h ▸ hx)⟩
  obtain ⟨_, _, _, _, _, hlead, htrail⟩ := hT
  have h1 := squeeze_head mid
  have h2 := squeeze_getLast mid (NoTrailing_getLast htrail)
  have h3 := NoLeading_head hlead
  have h4 := NoTrailing_getLast htrail
  have hl := inlineCode_longer mid
  rw [h]
  rw [← h1] at h3; rw [← h2] at h4
  rw [← h1, ← h2] at *
  generalize Spec.squeeze mid = code at *
  rw [readCodeSpan_fence (by omega) hl (by simp [hne]) ?_ ?_ hr]
  · refine congrArg some (Prod.ext ?_ rfl)
    exact stripCode_padded hne h13' h3 h4
  · by_cases hh : code.head? = some 96
    · simp [hh]
    · rw [if_neg hh, List.nil_append]
      cases code with
      | nil => exact absurd rfl hne
      | cons b s => simpa using hh
  · by_cases hh : code.getLast? = some 96
    · simp [hh]
    · rw [if_neg hh, List.append_nil, List.getLast?_append]
      cases hg : code.getLast? with
      | none => exact absurd (List.getLast?_eq_none_iff.1 hg) hne
      | some b => rw [hg] at hh; simpa using hh

example : Spec.readCodeSpan (inlineCode b!"  `a`  b` " ++ b!" text") = some (b!"`a` b`", b!" text") := by decide

/-- The full C18 fails: the code "`a" is read back as " `a". -/
theorem c18_counterexample : Spec.readCodeSpan (inlineCode b!"`a") = some (b!" `a", []) := by decide

/-! ## C16 -/

/-- **C16**, first half: after the text transformation of the base plugin and un-escaping there is no `<` and
no `>`, in either escape mode, whatever characters are registered for escaping and whatever the
un-escape handlers answer. -/
theorem c16_no_angle (mode : Escape.Mode) (isMd : Nat → Bool) (hs : List Escape.Handler) (t : Bytes) :
    60 ∉ Escape.unEscapeContent mode hs (baseTextTransform mode isMd t) ∧
    62 ∉ Escape.unEscapeContent mode hs (baseTextTransform mode isMd t) := by
  have hent : 60 ∉ entityReplace t ∧ 62 ∉ entityReplace t := by
    simp only [entityReplace, replaceBytes, List.mem_flatMap, not_exists, not_and]
    constructor
    all_goals
      intro b _
      by_cases h1 : b = 60
      · subst h1; decide
      · by_cases h2 : b = 62
        · subst h2; decide
        · simp [h1, h2, Ne.symm h1, Ne.symm h2]
  have hesc := escapeContent_mem mode isMd (entityReplace t)
  have hun := unEscapeContent_mem mode hs (baseTextTransform mode isMd t)
  constructor
  · intro h
    rcases hun _ h with h | h
    · rcases hesc _ h with h | h
      · exact hent.1 h
      · exact absurd h (by decide)
    · exact absurd h (by decide)
  · intro h
    rcases hun _ h with h | h
    · rcases hesc _ h with h | h
      · exact hent.2 h
      · exact absurd h (by decide)
    · exact absurd h (by decide)

/-- **C16**, second half (partial): decoding the entities returns the text.  Missing: texts with `&`, since `&` itself
is not replaced; see `c16_counterexample`. -/
theorem c16_decode_partial (t : Bytes) (h : 38 ∉ t) : Spec.decodeAngle (entityReplace t) = t := by
  simp only [Spec.decodeAngle]
  induction t with
  | nil => rfl
  | cons b t ih =>
    simp only [List.mem_cons, not_or] at h
    have ih := ih h.2
    simp only [entityReplace, replaceBytes, List.flatMap_cons] at *
    by_cases h1 : b = 60
    · subst h1; simpa [Spec.decodeAngleGo] using ih
    · by_cases h2 : b = 62
      · subst h2; simpa [Spec.decodeAngleGo] using ih
      · have h3 : 38 ≠ b := h.1
        simpa [h1, h2, Spec.decodeAngleGo, h3] using ih

example : Spec.decodeAngle (entityReplace b!"a < b > c") = b!"a < b > c" := by decide

/-- The full C16 fails: `<` and the text `&lt;` give the same Markdown. -/
theorem c16_counterexample : entityReplace b!"<" = entityReplace b!"&lt;" := by decide

end Verif.Props
