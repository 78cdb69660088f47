import Verif.Proofs.PageRender
import Verif.Props.Config
import Verif.Props.Render
import Verif.Proofs.RenderEval
/-!
# C82: a page is read back as it was
-/

namespace Verif.Props
open Verif Verif.Escape Verif.Commonmark Verif.TextUtils Verif.Render

/-- The settings: those of the documentation, smart escaping, comments between lists.  The horizontal rule has no blank at its ends and does
not contain the bullet of lists (`+` is in no rule). -/
structure PageSettings (E : Env) : Prop where
  documented : Documented E.cfg
  smart : E.mode = .smart
  comments : E.cfg.disableListEndComment = false
  rule_ends : ∀ b, b = 32 ∨ b = 9 → E.cfg.horizontalRule.head? ≠ some b ∧ E.cfg.horizontalRule.getLast? ≠ some b
  rule_bullet : ∀ b ∈ E.cfg.bulletListMarker, b ∉ E.cfg.horizontalRule
  /-- `unicode.IsDigit` holds of the digits of ASCII and not of NUL and line feed -/
  digits : DigitsOK E.isDigit
  no_digit : E.isDigit 0 = false ∧ E.isDigit 10 = false
  /-- the elements of pages are block elements -/
  names : ∀ n ∈ [b!"p", b!"h1", b!"h2", b!"h3", b!"h4", b!"h5", b!"h6", b!"hr", b!"pre", b!"ul", b!"ol", b!"li", b!"html", b!"body",
    b!"blockquote"] ++ Spec.groupNames, E.tables.isBlock n = true
  /-- those of paragraphs are not -/
  inline : ∀ n ∈ [b!"strong", b!"b", b!"em", b!"i", b!"code", b!"a", b!"img"], E.tables.isBlock n = false
  /-- the only link style that is written (see `c82_counterexample_link_style`) -/
  inlined : E.cfg.linkStyle = b!"inlined"

/-- What of the settings matters to pages. -/
def pageStyle (E : Env) : Spec.Style where
  bullet := E.cfg.bulletListMarker
  em := E.cfg.emDelimiter.headD 0
  strong := E.cfg.strongDelimiter.headD 0
  resolve := E.assemble

theorem PageSettings.ok {E : Env} (h : PageSettings E) : Page.EnvOK E where
  smart := h.smart
  digits := h.digits
  d0 := h.no_digit.1
  d10 := h.no_digit.2
  names := ⟨h.names, h.inline⟩
  comments := h.comments
  bullet := h.documented.bullet
  fence := h.documented.fence
  em := h.documented.em
  strong := h.documented.strong
  inlined := h.inlined
  rule := by
    have ht := h.documented.rule
    have hbytes : ∀ b ∈ E.cfg.horizontalRule, b = 45 ∨ b = 95 ∨ b = 42 ∨ b = 32 ∨ b = 9 := by
      intro b hb
      simp only [Spec.isThematicBreak] at ht
      split at ht
      · simp at ht
      · rename_i c l hs
        simp only [Bool.and_eq_true, Bool.or_eq_true, beq_iff_eq] at ht
        by_cases hw : b = 32 ∨ b = 9
        · rcases hw with hw | hw <;> simp [hw]
        · have : b ∈ E.cfg.horizontalRule.filter fun b => b != 32 && b != 9 := by
            rw [List.mem_filter]
            simp only [not_or] at hw
            simp [hb, hw]
          have := List.all_eq_true.mp ht.1.2 b this
          rw [beq_iff_eq] at this
          subst this
          rcases ht.2 with (e | e) | e <;> simp [e]
    have hvis : ∀ b, (b = 45 ∨ b = 95 ∨ b = 42) → ∀ w ∈ Spec.whitespace, b ∉ w := by
      rintro b (rfl | rfl | rfl) <;> decide
    refine ⟨ht, ?_, ?_, hbytes, .inr h.rule_bullet⟩
    · cases hr : E.cfg.horizontalRule with
      | nil => rw [hr] at ht; simp [Spec.isThematicBreak] at ht
      | cons b r =>
        refine Page.noLeading_of_head (hvis b ?_) r
        have h1 := hbytes b (by rw [hr]; simp)
        have h2 := (h.rule_ends 32 (.inl rfl)).1
        have h3 := (h.rule_ends 9 (.inr rfl)).1
        rw [hr] at h2 h3
        simp at h2 h3
        simpa [h2, h3] using h1
    · rcases List.eq_nil_or_concat E.cfg.horizontalRule with hr | ⟨r, b, hr⟩
      · rw [hr] at ht; simp [Spec.isThematicBreak] at ht
      · rw [List.concat_eq_append] at hr
        rw [hr]
        refine Page.noTrailing_of_last (hvis b ?_) r
        have h1 := hbytes b (by rw [hr]; simp)
        have h2 := (h.rule_ends 32 (.inl rfl)).2
        have h3 := (h.rule_ends 9 (.inr rfl)).2
        rw [hr] at h2 h3
        simp at h2 h3
        simpa [h2, h3] using h1

theorem restore_mem {b : UInt8} (h10 : b ≠ 10) : ∀ s : Bytes, b ∈ restoreCodeNewlines s → b ∈ s := by
  refine replaceAll_induct (old := codeNewline) (by decide) ?_ ?_ ?_
  · intro h; exact h
  · intro s ih h
    rw [restoreCodeNewlines, replaceAll_match _ _ _ (by decide)] at h
    simp only [List.cons_append, List.nil_append, List.mem_cons] at h
    rcases h with h | h
    · exact absurd h h10
    · exact List.mem_append_right _ (ih h)
  · intro c s hn ih h
    rw [restoreCodeNewlines, replaceAll_nomatch hn, List.mem_cons] at h
    rcases h with h | h
    · simp [h]
    · exact List.mem_cons_of_mem _ (ih h)

theorem size_lines (s : Bytes) : Page.size (Spec.lines s) = s.length + 1 := by
  rw [Spec.lines]
  induction s with
  | nil => rfl
  | cons b s ih =>
    rw [splitOn]
    split
    · rw [Page.size, ih]; simp; omega
    · cases hs : splitOn 10 s with
      | nil => rw [hs] at ih; simp [Page.size] at ih
      | cons l ls =>
        rw [hs, Page.size] at ih
        simp only [Page.size, List.length_cons]
        omega

/-- **C82**, partial: the Markdown of a page is read as the paragraphs, headings, rules, code blocks, lists and quotes of the page, in the same order,
with the same texts, levels, languages, lines of code, numbers and nesting; and the emphasis, code, links and images in paragraphs and headings, and those in
emphasis and links, are read as emphasis, code, links and images in the same places, with the same texts, destinations and titles.  Missing: the texts, settings, numbers and empty blocks of the
counterexamples below, for which it is false, and pages with other elements. -/
theorem c82_page_partial {E : Env} (hE : PageSettings E) (headNodes : List Node) {bs : List Spec.Block}
    (h : Spec.PageOK (pageStyle E) bs) :
    ∃ md, convertNode E (Spec.htmlPage headNodes bs) = some md ∧ Spec.readMarkdown md = some (Spec.mdL E.assemble bs) := by
  have hok := hE.ok
  obtain ⟨s, ps, e, hs⟩ := (Page.shows hok).2.1 bs h.2 h.1 false
  obtain ⟨s', e', hl⟩ : ∃ s', renderNode E false false (preRender E (Spec.htmlPage headNodes bs)) = some s' ∧ Page.Laid 0 0 (ps.map Page.Piece.raw) s' := by
    rw [Page.preRender_page hok.names hok.comments h, renderNode, Page.render_one, Page.render_plain hok (by decide), Page.render_one,
      Page.render_plain hok (by decide), e]
    have hl := hs.laid.wrap.wrap
    simp only [Option.map_some, fallback]
    split
    · exact ⟨_, rfl, hl.wrap.weaken (Nat.zero_le _) (Nat.zero_le _)⟩
    · exact ⟨_, rfl, hl.weaken (Nat.zero_le _) (Nat.zero_le _)⟩
  rw [convertNode, e', Option.map_some]
  refine ⟨_, rfl, ?_⟩
  rw [hE.smart, postRender, postRenderTrimContent]
  by_cases hps : ps = []
  · subst hps
    rw [hl.trim_nil, ← hs.md]
    rfl
  · rw [(Page.laid_out (Page.stock E) hok.d0 hok.d10 hl hps hs.ok).2]
    have hmem : ∀ b, b ≠ 10 → (∀ p ∈ ps, b ∉ p.out (handlers E)) → b ∉ restoreCodeNewlines (Page.glue (ps.map (Page.Piece.out (handlers E)))) := by
      intro b h10 hb hm
      rcases Page.glue_mem (restore_mem h10 _ hm) with h' | ⟨x, hx, h'⟩
      · exact h10 h'
      · obtain ⟨p, hp, rfl⟩ := List.mem_map.1 hx
        exact hb p hp h'
    have hread := Page.reads_seq ps hps hs.ok hs.chain.apart [] (.inl rfl)
    have hsize := size_lines (restoreCodeNewlines (Page.glue (ps.map (Page.Piece.out (handlers E)))))
    rw [Spec.readMarkdown, if_neg, Page.fin_join ps hps, ← hs.md]
    · rw [Page.fin_join ps hps] at hsize
      have := hread (2 * (restoreCodeNewlines (Page.glue (ps.map (Page.Piece.out (handlers E))))).length + 4)
      rw [List.append_nil, hsize] at this
      exact this (by omega)
    · rintro (h' | h')
      · exact hmem 13 (by decide) (fun p hp => (hs.ok p hp).bytes.1) h'
      · exact hmem 0 (by decide) (fun p hp => (hs.ok p hp).bytes.2) h'

/-! ## A page that meets the hypotheses -/

/-- Options: the defaults. -/
def pageEnv : Env where
  cfg := Config.newPlugin []
  mode := .smart
  assemble := id
  tables := ⟨fun n => n ∈ Page.blockNames, fun n => n ∈ [b!"a", b!"b", b!"code", b!"span"]⟩
  isDigit := fun r => 48 ≤ r && r ≤ 57

theorem pageEnv_ok : PageSettings pageEnv where
  documented := ⟨by decide, by decide, by decide, by decide, by decide, by decide, by decide⟩
  smart := rfl
  comments := rfl
  rule_ends := by rintro b (rfl | rfl) <;> decide
  rule_bullet := by decide
  digits := by intro n h1 h2; simp [pageEnv, h1, h2]
  no_digit := by decide
  names := by decide
  inline := by decide
  inlined := by decide

/-- Bold text with italic text in it, code, a link with code, an image and bold text in it, italic text and an image. -/
def sampleRich : List (Spec.Inl × Bytes) :=
  [(.emph b!"strong" b!"b " [(.emph b!"em" b!"n" [], b!" [")], b!"&, "), (.code b!"c*`d", b!" * "),
    (.link b!"/e?f=1" b!"g\"h" b!"i*  ]" [(.code b!"o", []), (.image b!"p" [] [], b!" "), (.emph b!"b" b!"q" [], [])], b!"\n"),
    (.emph b!"i" b!"j" [], b!"k"), (.image b!"l" [] b!"m[", b!" ")]

/-- A link with bold text in it, and an image. -/
def sampleHeading : List (Spec.Inl × Bytes) :=
  [(.link b!"q" b!"r s" [] [(.emph b!"b" b!"t" [], [])], b!" #u "), (.image b!"v" [] b!"w x", [])]

/-- `<h1>A #</h1>`, a paragraph with elements, the text `1. b`, a list with a nested list and code in its items, an ordered list from nine on with text, a link and an image directly in its item, a rule, a group
and a quote with a quote in it. -/
def samplePage : List Spec.Block := [
  .heading 1 b!"A  #",
  .rich b!"a* " sampleRich,
  .text b!"\n1. b < c\n",
  .richHeading 2 b!"# n " sampleHeading,
  .list .bullet b!"\n" [
    [.text b!"*d* ", .list .bullet b!" " [[.paragraph b!"# e"], [.paragraph b!" "]]],
    [.paragraph b!"f", .code b!"go" b!"```\n\n  g\n"]],
  .list (.ordered (some b!"9")) [] [[.run b!"# n " sampleHeading], [.rule, .text b!"- - -"]],
  .rule,
  .group b!"div" [.paragraph b!"_i_ [j](k)"],
  .quote [.paragraph b!"l* *m*", .heading 2 b!"n", .richHeading 3 b!"# n " sampleHeading, .code b!"c" b!"- q\n",
    .list .bullet [] [[.text b!"1. r"]], .quote [.rich b!"a* " sampleRich]]]

/-- A text, by a check. -/
theorem textOK {bullet v : Bytes} (h1 : (0 ∉ v ∧ 7 ∉ v ∧ ¬ [239, 128, 130] <:+: v ∧ Spec.hasEntity v = false) ∧
    (∀ w ∈ [[11], [194, 133], [226, 128, 168], [226, 128, 169]], ¬ w <:+: v) ∧ (∀ w ∈ Spec.whitespace, ¬ w <+: v ∧ ¬ w <:+ v) ∧
    Spec.startsWithFenceChars v = false ∧ v ≠ bullet ++ bullet) : Spec.TextOK bullet v where
  no_nul := h1.1.1
  no_bell := h1.1.2.1
  no_mark := h1.1.2.2.1
  no_entity := h1.1.2.2.2
  no_sep := h1.2.1
  leading := fun w hw => (h1.2.2.1 w hw).1
  trailing := fun w hw => (h1.2.2.1 w hw).2
  no_fence := h1.2.2.2.1
  no_bullets := h1.2.2.2.2

theorem charsOK {v : Bytes} (h : 0 ∉ v ∧ 7 ∉ v ∧ ¬ [239, 128, 130] <:+: v ∧ Spec.hasEntity v = false ∧
    ∀ w ∈ [[11], [194, 133], [226, 128, 168], [226, 128, 169]], ¬ w <:+: v) : Spec.CharsOK v :=
  ⟨h.1, h.2.1, h.2.2.1, h.2.2.2.1, h.2.2.2.2⟩

theorem innerOK {first : Bytes} {rest : List (Spec.Inl × Bytes)} (h : Spec.CharsOK (Spec.oneSpace first))
    (h' : (first ≠ [] ∨ rest.isEmpty = false) ∧ (∀ w ∈ Spec.whitespace, ¬ w <+: Spec.oneSpace first) ∧
      ∀ w ∈ Spec.whitespace, ¬ w <:+ Spec.oneSpace (Spec.lastText first rest)) : Spec.InnerOK first rest where
  nonempty := h'.1.imp id (by rintro h rfl; cases h)
  chars := h
  leading := h'.2.1
  trailing := h'.2.2

/-- Emphasis, by a check. -/
theorem emphOK {st : Spec.Style} {ctx : List Spec.Around} {v1 name first : Bytes} {rest : List (Spec.Inl × Bytes)} {v2 : Bytes}
    (h1 : name ∈ [b!"strong", b!"b", b!"em", b!"i"]) (h2 : st.around name ∉ ctx)
    (h3 : (v1.getLast? = some 32 ∧ v2 ≠ []) ∨ ctx.all (fun a => a == .bracket) = true) (h4 : v2.head? ≠ some (st.delim name))
    (h5 : Spec.edge v1.getLast? = true ∨ st.delim name = 42 ∧ (Spec.oneSpace first).head?.any Spec.isWordByte = true)
    (h6 : Spec.edge v2.head? = true ∨ st.delim name = 42 ∧ (Spec.oneSpace (Spec.lastText first rest)).getLast?.any Spec.isWordByte = true)
    (h7 : first ≠ [] ∨ rest.head?.any (fun x => x.1.isCode) = false) (h8 : rest.getLast?.any (fun x => x.1.isCode) = false)
    (h9 : first ≠ [] ∨ rest.head?.any (fun x => x.1.isLink) = false) : Spec.EmphOK st ctx v1 name first rest v2 where
  tag := h1
  once := h2
  same := by
    intro n hn
    rcases h3 with h3 | h3
    · exact h3
    · rw [List.all_eq_true] at h3
      exact absurd (h3 _ hn) (by simp)
  behind := h4
  left := h5
  right := h6
  code_first := by
    rintro rfl x hx
    rw [hx] at h7
    simpa using h7
  code_last := by
    intro x hx _
    rw [hx] at h8
    simpa using h8
  no_link := by
    rintro rfl x rfl _
    simpa using h9

theorem textIn {ctx : List Spec.Around} {v : Bytes} (h : (∀ w ∈ Spec.whitespace, ∀ c ∈ [(42 : UInt8), 95], ¬ (c :: w) <:+: v) ∧ ctx.all (fun a =>
    match a with | .delim c _ => c == 42 || c == 95 | _ => true) = true ∨ ctx.all (fun a => a == .bracket) = true) : Spec.TextIn ctx v := by
  intro c n hc w hw
  rcases h with ⟨h, h'⟩ | h
  · rw [List.all_eq_true] at h'
    exact h w hw c (by simpa using h' _ hc)
  · rw [List.all_eq_true] at h
    exact absurd (h _ hc) (by simp)

theorem between_of {i : Spec.Inl} {t : Bytes} {rest : List (Spec.Inl × Bytes)} (h : t ≠ [] ∨ rest.head?.any (fun x => i.isEmph && x.1.isEmph || i.isCode && x.1.isCode) = false) :
    Spec.between i t rest := by
  rintro rfl x hx
  rw [hx] at h
  simp only [ne_eq, not_true, Option.any_some, Bool.or_eq_false_iff, false_or] at h
  exact h

theorem attrOK {s : Bytes} (h : (∀ b ∈ s, 32 ≤ b ∧ b ≠ 60 ∧ b ≠ 92 ∧ b ≠ 96) ∧ ¬ [239, 128, 130] <:+: s ∧ Spec.hasEntity s = false) :
    Spec.AttrOK s := ⟨h.1, h.2.1, h.2.2⟩

theorem addressOK {f : Bytes → Bytes} {s : Bytes} (h : Spec.AttrOK (f s)) (h1 : (∀ w ∈ Spec.whitespace, ¬ w <+: s) ∧ ∀ w ∈ Spec.whitespace, ¬ w <:+ s)
    (h2 : s ≠ [] ∧ f s ≠ []) (h3 : Spec.PlainDestination (f s)) : Spec.AddressOK f s :=
  { h with leading := h1.1, trailing := h1.2, nonempty := h2.1, resolved := h2.2, plain := h3 }

/-- Code, by a check. -/
theorem spanCodeOK {c : Bytes} (h : c ≠ [] ∧ (∀ b ∈ c, 32 ≤ b) ∧ ¬ [32, 32] <:+: c ∧ ¬ [239, 128, 130] <:+: c ∧
    (∀ w ∈ Spec.whitespace, ¬ w <+: c ∧ ¬ w <:+ c) ∧ (c.head? = some 96 ↔ c.getLast? = some 96)) : Spec.SpanCodeOK c :=
  ⟨h.1, h.2.1, h.2.2.1, h.2.2.2.1, fun w hw => (h.2.2.2.2.1 w hw).1, fun w hw => (h.2.2.2.2.1 w hw).2, h.2.2.2.2.2⟩

/-- The parts of a check of elements. -/
macro "check_elements" : tactic => `(tactic| (
  repeat' (first
    | exact trivial
    | apply And.intro
    | exact charsOK (by decide)
    | exact textIn (by decide)
    | exact between_of (by decide)
    | exact emphOK (by decide) (by decide) (by decide) (by decide) (by decide) (by decide) (by decide) (by decide) (by decide)
    | exact innerOK (charsOK (by decide)) (by decide)
    | exact spanCodeOK (by decide)
    | exact addressOK (attrOK (by decide)) (by decide) (by decide) (by unfold Spec.PlainDestination; decide)
    | exact attrOK (by decide)
    | (unfold Spec.NoTrailingWhitespace; decide)
    | decide)))

theorem sample_rich : Spec.RichOK (pageStyle pageEnv) b!"a* " sampleRich where
  nonempty := by decide
  chars := charsOK (by decide)
  leading := by unfold Spec.NoLeadingWhitespace; decide
  no_fence := by decide
  elements := by
    simp only [sampleRich, Spec.RestOK, Spec.Inl.OK]
    check_elements
  visible := .inl (by unfold Spec.visibleText; decide)

theorem sample_heading : Spec.RichOK (pageStyle pageEnv) b!"# n " sampleHeading where
  nonempty := by decide
  chars := charsOK (by decide)
  leading := by unfold Spec.NoLeadingWhitespace; decide
  no_fence := by decide
  elements := by
    simp only [sampleHeading, Spec.RestOK, Spec.Inl.OK]
    check_elements
  visible := .inl (by unfold Spec.visibleText; decide)

theorem sample_headingOK : Spec.HeadingOK sampleHeading where
  single := by
    simp only [sampleHeading, Spec.singleRest, Spec.Inl.single, and_true]
    decide
  last := by
    intro x hx
    simp [sampleHeading] at hx
    subst hx
    decide

theorem noStart {v : Bytes} (h : Spec.isAtxHeading v = false ∧ Spec.isBulletItem v = false ∧ Spec.isOrderedItem v = false ∧ Spec.isThematicBreak v = false) :
    Spec.NoStart v := ⟨h.1, h.2.1, h.2.2.1, h.2.2.2⟩

theorem samplePage_ok : Spec.PageOK (pageStyle pageEnv) samplePage := by
  refine ⟨by decide, ?_⟩
  simp only [samplePage, Spec.BlocksOK, Spec.Block.OK, Spec.ItemsOK, Spec.quotableL, Spec.Block.quotable, Spec.oneLineItems, Spec.oneLineL, Spec.Block.oneLine, and_true]
  repeat' (first
    | exact trivial | apply And.intro | exact textOK (by decide) | exact noStart (by decide) | (intro h; first | exact absurd h (by decide) | exact noStart (by decide)) | exact sample_rich | exact sample_heading | exact sample_headingOK | exact ⟨by decide, by decide, by decide, by decide, by decide, by decide⟩ | decide)

/-- The Markdown of the page. -/
example : convertNode pageEnv (Spec.htmlPage [] samplePage) = some (b!"# A \\#\n\n" ++
    b!"a* **b *n* \\[**&, ``c*`d`` * [i* \\]`o`![](p) **q**](/e?f=1 'g\"h') *j*k![m\\[](l)\n\n1\\. b &lt; c\n\n" ++
    b!"## # n [**t**](q \"r s\") #u ![w x](v)\n\n" ++
    b!"- \\*d*\n  \n  - \\# e\n- f\n  \n  ````go\n  ```\n  \n    g\n  ````\n\n<!--THE END-->\n\n" ++
    b!"09. \\# n [**t**](q \"r s\") #u ![w x](v)\n10. * * *\n    \n    \\- - -\n\n* * *\n\n\\_i_ \\[j](k)\n\n" ++
    b!"> l* \\*m*\n> \n> ## n\n> \n> ### # n [**t**](q \"r s\") #u ![w x](v)\n> \n> ```c\n> - q\n> ```\n> \n> - 1\\. r\n> \n> " ++
    b!"> a* **b *n* \\[**&, ``c*`d`` * [i* \\]`o`![](p) **q**](/e?f=1 'g\"h') *j*k![m\\[](l)") := by
  simp only [convertNode, preRender, strikePreRender, DomUtils.handlePreRender, mergeAdjacent_eq]; decide +kernel

/-! ## What is excluded -/

/-- A text of two bullets in a list is a thematic break: `<ul><li>--</li></ul>`. -/
theorem c82_counterexample_bullets :
    convertNode pageEnv (Spec.htmlPage [] [.list .bullet [] [[.text b!"--"]]]) = some b!"- --" ∧ Spec.isThematicBreak b!"- --" = true := by
  refine ⟨?_, by decide⟩
  simp only [convertNode, preRender, strikePreRender, DomUtils.handlePreRender, mergeAdjacent_eq]; decide +kernel

/-- Around an empty heading texts are glued together: `a<h1> </h1>b`. -/
theorem c82_counterexample_heading :
    convertNode pageEnv (Spec.htmlPage [] [.text b!"a", .heading 1 b!" ", .text b!"b"]) = some b!"ab" := by
  simp only [convertNode, preRender, strikePreRender, DomUtils.handlePreRender, mergeAdjacent_eq]; decide +kernel

/-- Around an empty list texts are glued together: `a<ul></ul>b`. -/
theorem c82_counterexample_list :
    convertNode pageEnv (Spec.htmlPage [] [.text b!"a", .list .bullet [] [], .text b!"b"]) = some b!"ab" := by
  simp only [convertNode, preRender, strikePreRender, DomUtils.handlePreRender, mergeAdjacent_eq]; decide +kernel

/-- The options with another horizontal rule. -/
def ruleEnv : Env := { pageEnv with cfg := Config.newPlugin [fun c => { c with horizontalRule := b!"---" }] }

/-- A rule of the bullets of lists, alone in a list, is not in a list: `<ul><li><hr></li></ul>` with the rule `---`, a documented setting. -/
theorem c82_counterexample_rule :
    Documented ruleEnv.cfg ∧ convertNode ruleEnv (Spec.htmlPage [] [.list .bullet [] [[.rule]]]) = some b!"- ---" ∧
      Spec.isThematicBreak b!"- ---" = true := by
  refine ⟨⟨by decide, by decide, by decide, by decide, by decide, by decide, by decide⟩, ?_, by decide⟩
  simp only [convertNode, preRender, strikePreRender, DomUtils.handlePreRender, mergeAdjacent_eq]; decide +kernel

/-- A number with ten digits is no list marker: `<ol start="1234567890"><li>a</li></ol>`. -/
theorem c82_counterexample_number :
    convertNode pageEnv (Spec.htmlPage [] [.list (.ordered (some b!"1234567890")) [] [[.text b!"a"]]]) = some b!"1234567890. a" ∧
      Spec.readMarker b!"1234567890. a" = none := by
  refine ⟨?_, by decide⟩
  simp only [convertNode, preRender, strikePreRender, DomUtils.handlePreRender, mergeAdjacent_eq]; decide +kernel

/-- A mixture of tildes and backticks at the start is only escaped once: ``<p>~`~`</p>`` has a code span in its Markdown. -/
theorem c82_counterexample_fence :
    convertNode pageEnv (Spec.htmlPage [] [.paragraph b!"~`~`"]) = some (b!"\\~" ++ b!"`~`") ∧ Spec.readCodeSpan b!"`~`" = some (b!"~", []) := by
  refine ⟨?_, by decide⟩
  simp only [convertNode, preRender, strikePreRender, DomUtils.handlePreRender, mergeAdjacent_eq]; decide +kernel

/-- An entity in a text is read as the character: `<p>&amp;amp;</p>`, the text `&amp;`. -/
theorem c82_counterexample_entity :
    convertNode pageEnv (Spec.htmlPage [] [.paragraph b!"&amp;"]) = some b!"&amp;" ∧ Spec.readMarkdown b!"&amp;" = none := by
  refine ⟨?_, by rfl⟩
  simp only [convertNode, preRender, strikePreRender, DomUtils.handlePreRender, mergeAdjacent_eq]; decide +kernel

/-- Two spaces in the title of an image in a heading become one: `<h1>a <img src="x" title="b  c"></h1>`. -/
theorem c82_title_in_heading_counterexample :
    convertNode pageEnv (Spec.htmlPage [] [.richHeading 1 b!"a " [(.image b!"x" b!"b  c" [], [])]]) = some b!"# a ![](x \"b c\")" ∧
      Spec.readInline b!"a ![](x \"b c\")" = some [.text b!"a ", .image b!"x" b!"b c" []] := by
  refine ⟨?_, by decide +kernel⟩
  simp only [convertNode, preRender, strikePreRender, DomUtils.handlePreRender, mergeAdjacent_eq]; decide +kernel

/-- The options with another link style. -/
def linkEnv : Env := { pageEnv with cfg := Config.newPlugin [fun c => { c with linkStyle := b!"referenced_index" }] }

/-- With the other link styles that the validation accepts there are no links at all: `<p><a href="/b">a</a></p>`. -/
theorem c82_counterexample_link_style :
    Documented linkEnv.cfg ∧ convertNode linkEnv (Spec.htmlPage [] [.rich [] [(.link b!"/b" [] b!"a" [], [])]]) = some b!"a" := by
  refine ⟨⟨by decide, by decide, by decide, by decide, by decide, by decide, by decide⟩, ?_⟩
  simp only [convertNode, preRender, strikePreRender, DomUtils.handlePreRender, mergeAdjacent_eq]; decide +kernel

/-- A delimiter with a space behind it is not escaped, but ends emphasis: `<p><em>2* 3</em></p>`. -/
theorem c82_counterexample_emphasis :
    convertNode pageEnv (Spec.htmlPage [] [.rich [] [(.emph b!"em" b!"2* 3" [], [])]]) = some b!"*2* 3*" ∧
      Spec.readInline b!"*2* 3" = some [.em [.text b!"2"], .text b!" 3"] := by
  refine ⟨?_, by decide +kernel⟩
  simp only [convertNode, preRender, strikePreRender, DomUtils.handlePreRender, mergeAdjacent_eq]; decide +kernel

/-- A delimiter alone is not escaped in emphasis either: `<p>* <b>*</b></p>`; nothing is emphasized by the Markdown. -/
theorem c82_counterexample_delimiter :
    convertNode pageEnv (Spec.htmlPage [] [.rich b!"* " [(.emph b!"b" b!"*" [], [])]]) = some b!"\\* *****" ∧
      Spec.readInline b!"\\* *****" = some [.text b!"* *****"] := by
  refine ⟨?_, by decide +kernel⟩
  simp only [convertNode, preRender, strikePreRender, DomUtils.handlePreRender, mergeAdjacent_eq]; decide +kernel

/-- Between a letter and punctuation a delimiter does not open emphasis (it is not left-flanking): `<p>a<b>"b"</b>c</p>`. -/
theorem c82_counterexample_flanking :
    convertNode pageEnv (Spec.htmlPage [] [.rich b!"a" [(.emph b!"b" b!"\"b\"" [], b!"c")]]) = some b!"a**\"b\"**c" ∧
      Spec.readInline b!"a**\"b\"**c" = none := by
  refine ⟨?_, by decide +kernel⟩
  simp only [convertNode, preRender, strikePreRender, DomUtils.handlePreRender, mergeAdjacent_eq]; decide +kernel

/-- The options with underscores. -/
def underscoreEnv : Env := { pageEnv with cfg := Config.newPlugin [fun c => { c with emDelimiter := b!"_" }] }

/-- The underscore is no delimiter in a word: `<p>a<em>b</em>c</p>`. -/
theorem c82_counterexample_word :
    Documented underscoreEnv.cfg ∧ convertNode underscoreEnv (Spec.htmlPage [] [.rich b!"a" [(.emph b!"em" b!"b" [], b!"c")]]) = some b!"a_b_c" ∧
      Spec.readInline b!"a_b_c" = none := by
  refine ⟨⟨by decide, by decide, by decide, by decide, by decide, by decide, by decide⟩, ?_, by decide +kernel⟩
  simp only [convertNode, preRender, strikePreRender, DomUtils.handlePreRender, mergeAdjacent_eq]; decide +kernel

/-- Bold text directly behind italic text is merged with it and is no longer bold: `<p><em>a</em><b>b</b></p>`. -/
theorem c82_counterexample_adjacent :
    convertNode pageEnv (Spec.htmlPage [] [.rich [] [(.emph b!"em" b!"a" [], []), (.emph b!"b" b!"b" [], [])]]) = some b!"*ab*" ∧
      Spec.readInline b!"*ab*" = some [.em [.text b!"ab"]] := by
  refine ⟨?_, by rfl⟩
  simp only [convertNode, preRender, strikePreRender, DomUtils.handlePreRender, mergeAdjacent_eq]; decide +kernel

/-- Code that is all of a bold text in a word gets spaces around it: `<p>x<b><code>c</code></b>y</p>`. -/
theorem c82_counterexample_bold_code :
    convertNode pageEnv (Spec.htmlPage [] [.rich b!"x" [(.emph b!"b" [] [(.code b!"c", [])], b!"y")]]) = some b!"x **`c`** y" ∧
      Spec.readInline b!"x **`c`** y" = some [.text b!"x ", .strong [.code b!"c"], .text b!" y"] := by
  refine ⟨?_, by rfl⟩
  simp only [convertNode, preRender, strikePreRender, DomUtils.handlePreRender, mergeAdjacent_eq]; decide +kernel

/-- A link that is all of a bold text is not in bold text, its text is: `<p><b><a href="/u">c</a></b></p>`. -/
theorem c82_counterexample_bold_link :
    convertNode pageEnv (Spec.htmlPage [] [.rich [] [(.emph b!"b" [] [(.link b!"/u" [] b!"c" [], [])], [])]]) = some b!"[**c**](/u)" ∧
      Spec.readInline b!"[**c**](/u)" = some [.link b!"/u" [] [.strong [.text b!"c"]]] := by
  refine ⟨?_, by rfl⟩
  simp only [convertNode, preRender, strikePreRender, DomUtils.handlePreRender, mergeAdjacent_eq]; decide +kernel

/-- Bold text in bold text is once bold: `<p><b>a<b>b</b>c</b></p>`. -/
theorem c82_counterexample_twice :
    convertNode pageEnv (Spec.htmlPage [] [.rich [] [(.emph b!"b" b!"a" [(.emph b!"b" b!"b" [], b!"c")], [])]]) = some b!"**abc**" ∧
      Spec.readInline b!"**abc**" = some [.strong [.text b!"abc"]] := by
  refine ⟨?_, by rfl⟩
  simp only [convertNode, preRender, strikePreRender, DomUtils.handlePreRender, mergeAdjacent_eq]; decide +kernel

/-- In a quote nothing is at the start of a line, for the escaping: `<blockquote><p># a</p><p>1. b</p></blockquote>` is a quote with a heading
and a list in its Markdown. -/
theorem c82_counterexample_quote :
    convertNode pageEnv (Spec.htmlPage [] [.quote [.paragraph b!"# a", .paragraph b!"1. b"]]) = some b!"> # a\n> \n> 1. b" ∧
      Spec.readMarkdown b!"> # a\n> \n> 1. b" =
        some [.quote [.heading 1 [.text b!"a"], .list (some 1) [[.paragraph [.text b!"b"]]]]] := by
  refine ⟨?_, by rfl⟩
  simp only [convertNode, preRender, strikePreRender, DomUtils.handlePreRender, mergeAdjacent_eq]; decide +kernel

/-- Code of several lines leaves the quote (C21): `<blockquote><pre><code>a\nb</code></pre></blockquote>`. -/
theorem c82_counterexample_quoted_code :
    convertNode pageEnv (Spec.htmlPage [] [.quote [.code [] b!"a\nb"]]) = some b!"> ```\n> a\nb\n> ```" := by
  simp only [convertNode, preRender, strikePreRender, DomUtils.handlePreRender, mergeAdjacent_eq]; decide +kernel

/-- Around an empty quote texts are glued together: `a<blockquote></blockquote>b`. -/
theorem c82_counterexample_empty_quote :
    convertNode pageEnv (Spec.htmlPage [] [.text b!"a", .quote [], .text b!"b"]) = some b!"ab" := by
  simp only [convertNode, preRender, strikePreRender, DomUtils.handlePreRender, mergeAdjacent_eq]; decide +kernel

end Verif.Props
