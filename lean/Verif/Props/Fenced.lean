import Verif.Proofs.Fenced
/-!
# Properties C19-C20: code blocks
-/

namespace Verif.Props
open Verif Verif.Commonmark Verif.TextUtils

/-- The block that stands for a code block in the Markdown: fence and info string, code, fence. -/
def fencedBlock (c : UInt8) (n : Nat) (info code : Bytes) : Bytes :=
  List.replicate n c ++ info ++ [10] ++ code ++ [10] ++ List.replicate n c

/-- `code` without one line feed at its end, if there is one. -/
def WithoutLastNewline (code code' : Bytes) : Prop :=
  code = code' ++ [10] ∨ (code = code' ∧ code.getLast? ≠ some 10)

theorem dropTrailingNewline_spec (code : Bytes) : WithoutLastNewline code (dropTrailingNewline code) := by
  simp only [WithoutLastNewline, dropTrailingNewline, isSuffixOf_one]
  split
  · rename_i h
    obtain ⟨x, rfl⟩ := getLast_concat_of h
    left; simp
  · rename_i h; right; exact ⟨rfl, h⟩

/-- **C19**, the fence: it has at least three characters and is longer than every run of the fence character in the
code; the block is on lines of its own, and its inner newlines are protected by the code newline
marker. -/
theorem c19_fence (c : UInt8) (info code : Bytes) : ∃ n code',
    WithoutLastNewline code code' ∧ 3 ≤ n ∧ Spec.LongerThanRuns c n code' ∧
    blockCode c info code = b!"\n\n" ++ fencedBlock c n info (replaceAll [10] codeNewline code') ++ b!"\n\n" := by
  have hl := occurrences_longer c (dropTrailingNewline code)
  refine ⟨if calculateCodeFenceOccurrences c (dropTrailingNewline code) + 1 < 3 then 3
    else calculateCodeFenceOccurrences c (dropTrailingNewline code) + 1,
    dropTrailingNewline code, dropTrailingNewline_spec code, ?_, ?_, ?_⟩
  · split <;> omega
  · intro k a b h
    have := hl k a b h
    split <;> omega
  · simp only [blockCode, calculateCodeFence, fencedBlock]
    simp

/-- **C19 and C20** (partial).  Wherever a code block is in the rendered document, after all post-render steps its fence,
info string and code are there byte for byte, as whole lines; and a CommonMark parser that reads
the lines from the opening fence on returns the info string and the lines of the code, and goes on behind the
closing fence.

The hypotheses on `info` are not guaranteed by the code, which takes the info string from the `class`
attribute: see `c19_counterexample_backtick` and `c19_counterexample_newline`.  The hypotheses on
`code` exclude the two internal markers: see `c20_counterexample_marker`. -/
theorem c20_survives_partial (mode : Escape.Mode) (hs : List Escape.Handler) (c : UInt8) (hc : c = 96 ∨ c = 126)
    (info code pre post : Bytes)
    (hi : 10 ∉ info ∧ 7 ∉ info ∧ c ∉ info ∧ 32 ∉ info ∧ 9 ∉ info ∧ ¬ codeNewline <:+: info)
    (hcode : 7 ∉ code ∧ ¬ codeNewline <:+: code) :
    ∃ n x y code', WithoutLastNewline code code' ∧
      postRender mode hs (pre ++ blockCode c info code ++ post) = x ++ fencedBlock c n info code' ++ y ∧
      (x = [] ∨ x.getLast? = some 10) ∧ (y = [] ∨ ∃ y', y = 10 :: y') ∧
      Spec.readFenced (Spec.lines (fencedBlock c n info code' ++ y)) =
        some { info := info, code := Spec.lines code', closed := true, rest := if y = [] then [] else Spec.lines (y.drop 1) } := by
  obtain ⟨n, code', hw, hn, hl, hb⟩ := c19_fence c info code
  have hsub : code' <+: code := by
    rcases hw with h | h
    · exact ⟨_, h.symm⟩
    · rw [h.1]; exact List.prefix_refl _
  have hf : Framed (fencedBlock c n info (replaceAll [10] codeNewline code')) (pre ++ blockCode c info code ++ post) := by
    refine ⟨pre ++ b!"\n\n", b!"\n\n" ++ post, ?_, Or.inr (by simp), Or.inr rfl⟩
    rw [hb]; simp
  have hi32 : info.getLast? ≠ some 32 := fun h => hi.2.2.2.1 (List.mem_of_getLast? h)
  obtain ⟨x, y, e, hx, hy⟩ := postRender_block mode hs hc hn hi.1 hi.2.1 hi32 hi.2.2.2.2.2
    (fun h => hcode.1 (hsub.subset h)) (fun h => hcode.2 (h.trans hsub.isInfix)) hf
  refine ⟨n, x, y, code', hw, e, hx, ?_, ?_⟩
  · rcases hy with h | h
    · exact Or.inl h
    · cases y with
      | nil => exact Or.inl rfl
      | cons b y => simp at h; subst h; exact Or.inr ⟨y, rfl⟩
  · have hrep : (10 : UInt8) ∉ List.replicate n c := by
      rw [List.mem_replicate]; rintro ⟨-, rfl⟩; revert hc; decide
    have hF : (10 : UInt8) ∉ List.replicate n c ++ info := by simp [hrep, hi.1]
    have hlines : Spec.lines (fencedBlock c n info code' ++ y) = (List.replicate n c ++ info) ::
        (Spec.lines code' ++ List.replicate n c :: (if y = [] then [] else Spec.lines (y.drop 1))) := by
      have hy' : splitOn 10 (List.replicate n c ++ y) = List.replicate n c :: (if y = [] then [] else Spec.lines (y.drop 1)) := by
        rcases hy with rfl | h
        · rw [List.append_nil, splitOn_of_no_sep hrep]; rfl
        · cases y with
          | nil => simp at h
          | cons b y =>
            simp at h; subst h
            rw [splitOn_cat _ _ _ hrep]; simp [Spec.lines]
      have e : fencedBlock c n info code' ++ y = (List.replicate n c ++ info) ++ 10 :: (code' ++ 10 :: (List.replicate n c ++ y)) := by
        simp [fencedBlock]
      rw [Spec.lines, e, splitOn_cat _ _ _ hF, splitOn_append, hy']
      rfl
    rw [hlines]
    exact readFenced_block hc hn ⟨hi.2.2.1, hi.2.2.2.1, hi.2.2.2.2.1⟩ hl _

/-- The language of a class attribute has no space, so it does not need the hypothesis `32 ∉ info`. -/
theorem c19_language_no_space (cls : Bytes) : 32 ∉ codeLanguage cls := by
  have hdrop : ∀ (old s : Bytes), ∀ b ∈ dropFirst old s, b ∈ s := by
    intro old s
    induction s with
    | nil => simp [dropFirst]
    | cons c s ih =>
      intro b hb
      rw [dropFirst] at hb
      split at hb
      · exact List.mem_of_mem_drop hb
      · rcases List.mem_cons.1 hb with rfl | hb
        · simp
        · exact List.mem_cons_of_mem _ (ih b hb)
  rw [codeLanguage]
  split
  · simp
  · rename_i part h
    intro hb
    exact splitOn_no_sep 32 cls part (List.mem_of_find?_eq_some h) (hdrop _ _ _ (hdrop _ _ _ hb))

/-- **C19**: the language is that of the first class `language-x` or `lang-x`, whichever classes come before and after it. -/
theorem c19_language_of_class (before after : List Bytes) (pre lang : Bytes) (hp : pre ∈ [b!"language-", b!"lang-"])
    (hl : 32 ∉ lang ∧ 45 ∉ lang) (hb : ∀ w ∈ before, 32 ∉ w ∧ ¬ b!"language-" <:+: w ∧ ¬ b!"lang-" <:+: w) (ha : ∀ w ∈ after, 32 ∉ w) :
    codeLanguage (joinWith 32 (before ++ (pre ++ lang) :: after)) = lang := by
  have hsub : ∀ (p s : Bytes), containsSub p s = true → p <:+: s := by
    intro p s
    induction s with
    | nil => intro h; simp only [containsSub, List.isEmpty_iff] at h; subst h; exact List.infix_rfl
    | cons b s ih =>
      intro h
      rw [containsSub, Bool.or_eq_true, List.isPrefixOf_iff_prefix] at h
      rcases h with h | h
      · exact h.isInfix
      · exact List.infix_cons (ih h)
  have hd : ∀ p l : Bytes, 45 ∈ p → 45 ∉ l → dropFirst p l = l := by
    intro p l h5
    induction l with
    | nil => intro _; rfl
    | cons b l ih =>
      intro hb
      rw [dropFirst, if_neg, ih (by simp at hb; exact hb.2)]
      intro hp
      rw [List.isPrefixOf_iff_prefix] at hp
      exact hb (hp.subset h5)
  have hs : splitOn SP (joinWith 32 (before ++ (pre ++ lang) :: after)) = before ++ (pre ++ lang) :: after := by
    refine splitOn_eq_of rfl (by simp) ?_
    intro w hw
    rcases List.mem_append.1 hw with hw | hw
    · exact (hb w hw).1
    · rcases List.mem_cons.1 hw with rfl | hw
      · simp only [List.mem_append, not_or]
        refine ⟨?_, hl.1⟩
        simp only [List.mem_cons, List.not_mem_nil, or_false] at hp
        rcases hp with rfl | rfl <;> decide
      · exact ha w hw
  have hf : (before ++ (pre ++ lang) :: after).find? (fun p => containsSub b!"language-" p || containsSub b!"lang-" p) = some (pre ++ lang) := by
    rw [List.find?_append, List.find?_eq_none.2, Option.none_or, List.find?_cons]
    · have : (containsSub b!"language-" (pre ++ lang) || containsSub b!"lang-" (pre ++ lang)) = true := by
        simp only [List.mem_cons, List.not_mem_nil, or_false] at hp
        rcases hp with rfl | rfl <;> simp [containsSub, List.isPrefixOf]
      simp only [this]
    · intro w hw hc
      rw [Bool.or_eq_true] at hc
      rcases hc with hc | hc
      · exact (hb w hw).2.1 (hsub _ _ hc)
      · exact (hb w hw).2.2 (hsub _ _ hc)
  rw [codeLanguage, hs, hf]
  simp only [List.mem_cons, List.not_mem_nil, or_false] at hp
  show dropFirst b!"lang-" (dropFirst b!"language-" (pre ++ lang)) = lang
  rcases hp with rfl | rfl
  · have e : dropFirst b!"language-" (b!"language-" ++ lang) = lang := by
      show dropFirst b!"language-" (108 :: (b!"anguage-" ++ lang)) = lang
      rw [dropFirst, if_pos (by simp [List.isPrefixOf])]
      rfl
    rw [e, hd _ _ (by decide) hl.2]
  · have e : dropFirst b!"language-" (b!"lang-" ++ lang) = b!"lang-" ++ lang := by
      have h : dropFirst b!"language-" lang = lang := hd _ _ (by decide) hl.2
      simp [dropFirst, List.isPrefixOf, h]
    rw [e]
    show dropFirst b!"lang-" (108 :: (b!"ang-" ++ lang)) = lang
    rw [dropFirst, if_pos (by simp [List.isPrefixOf])]
    rfl

example : codeLanguage b!"hljs lang-go numbered" = b!"go" := c19_language_of_class [b!"hljs"] [b!"numbered"] b!"lang-" b!"go" (by decide) (by decide)
  (by simp only [List.mem_singleton]; rintro w rfl; decide) (by simp only [List.mem_singleton]; rintro w rfl; decide)

example : postRender .smart (Escape.commonmarkHandlers fun _ => false)
      (b!"text" ++ blockCode 96 (codeLanguage b!"a language-go") b!"a\n\n\n```\n  \n\n" ++ b!"  end ") =
    b!"text\n\n````go\na\n\n\n```\n  \n\n````\n\n  end" := by decide

/-- The full C19 fails: a backtick in the class attribute makes the fence no fence. -/
theorem c19_counterexample_backtick :
    Spec.readFenced (Spec.lines (postRender .smart (Escape.commonmarkHandlers fun _ => false)
      (blockCode 96 (codeLanguage b!"language-x`y") b!"code"))) = none := by decide

/-- The full C19 fails: of a class attribute with a line feed the rest becomes code. -/
theorem c19_counterexample_newline :
    (Spec.readFenced (Spec.lines (postRender .smart (Escape.commonmarkHandlers fun _ => false)
      (blockCode 96 (codeLanguage b!"language-x\ny") b!"code")))).map (·.code) = some [b!"y", b!"code"] := by decide

/-- The full C20 fails: the private use character U+F002 of a code block becomes a line feed. -/
theorem c20_counterexample_marker :
    (Spec.readFenced (Spec.lines (postRender .smart (Escape.commonmarkHandlers fun _ => false)
      (blockCode 96 [] [97, 239, 128, 130, 98])))).map (·.code) = some [b!"a", b!"b"] := by decide

/-- The full C20 fails: a bell byte of a code block is dropped. -/
theorem c20_counterexample_bell :
    (Spec.readFenced (Spec.lines (postRender .smart (Escape.commonmarkHandlers fun _ => false)
      (blockCode 96 [] [97, 7, 98])))).map (·.code) = some [b!"ab"] := by decide

end Verif.Props
