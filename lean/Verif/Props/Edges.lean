import Verif.Proofs.EdgeTree
import Verif.Props.RenderTables
/-!
# C33 and C94: white space in the Markdown of a whole document

A document that does not contain the characters which the converter uses for itself, the bell character and U+F002.
-/

namespace Verif.Props
open Verif Verif.Spec Verif.Render Verif.Commonmark Verif.TextUtils

/-- The character U+F002. -/
def privateMark : Bytes := [0xEF, 0x80, 0x82]

/-- Neither the bell character nor U+F002. -/
def NoMarks (d : Bytes) : Prop := 7 ∉ d ∧ ¬ privateMark <:+: d

/-- The texts and attributes of a document do not have these characters. -/
structure Unmarked (doc : Node) : Prop where
  texts : ∀ i ∈ items [] doc, ∀ d, i.what = .text d → NoMarks d
  attrs : ∀ i ∈ items [] doc, ∀ n a, i.what = .elem n a → ∀ p ∈ a, NoMarks p.2

/-- The options put no such characters into the Markdown. -/
structure UnmarkedOptions (E : Env) : Prop where
  delimiters : ∀ d ∈ [E.cfg.emDelimiter, E.cfg.strongDelimiter, E.cfg.horizontalRule], 7 ∉ d
  strike : ∀ d, E.strike = some d → 7 ∉ d
  urls : ∀ u, Utf8 u → NoMarks u → NoMarks (E.assemble u)

theorem privateMark_mem {d : Bytes} (h : Utf8 d) (hi : privateMark <:+: d) : codeNewline ∈ Inner.inner d := by
  obtain ⟨a, b, rfl⟩ := hi
  have hp : Utf8 privateMark := by unfold Utf8; decide
  have hs : StartsCharacter (privateMark ++ b) := by
    intro x hx
    have e : (239 : UInt8) = x := by simpa [privateMark] using hx
    subst e; decide
  rw [List.append_assoc] at h ⊢
  have h1 : Utf8 (privateMark ++ b) := fun c hc => h c (by rw [Chars.chars_append a hs]; exact List.mem_append_right _ hc)
  have h2 : Utf8 b := Chars.utf8_suffix h1 hp
  rw [Inner.vis_append h1, Inner.vis_append h2]
  exact List.mem_append_right _ (List.mem_append_left _ (by decide))

theorem clean_iff {d : Bytes} (h : Utf8 d) : Edge.Clean d ↔ NoMarks d := by
  constructor
  · rintro ⟨⟨-, h2⟩, h3⟩
    exact ⟨h3, fun hi => h2 (privateMark_mem h hi)⟩
  · rintro ⟨h1, h2⟩
    refine ⟨⟨h, fun hm => h2 ?_⟩, h1⟩
    have hm := (List.mem_filter.1 hm).1
    obtain ⟨x, y, e⟩ := List.append_of_mem hm
    refine ⟨x.flatten, y.flatten, ?_⟩
    have := Chars.chars_flatten d
    rw [e] at this
    rw [← this]
    simp [privateMark, codeNewline]

theorem envTidy {E : Env} (hv : Config.validate E.cfg = none) (hd : PlainDelimiters E.cfg) (hs : PlainStrike E) (ha : ∀ u, Utf8 u → Utf8 (E.assemble u))
    (hu : UnmarkedOptions E) : Edge.EnvTidy E := by
  have ho := envOk hv hd hs ha
  have de := hd E.cfg.emDelimiter (by simp)
  have ds := hd E.cfg.strongDelimiter (by simp)
  have dr := hd E.cfg.horizontalRule (by simp)
  rw [Config.validate] at hv
  split at hv
  · simp at hv
  split at hv
  · simp at hv
  split at hv
  · simp at hv
  split at hv
  · simp at hv
  rename_i h4
  split at hv
  · simp at hv
  rename_i h5
  refine ⟨ho, ⟨hu.delimiters _ (by simp), Inner.plain_ascii fun b hb => (de b hb).1⟩, ⟨hu.delimiters _ (by simp), Inner.plain_ascii fun b hb => (ds b hb).1⟩,
    Edge.clean_ascii (fun b hb => (dr b hb).1) (hu.delimiters _ (by simp)), ?_, ?_,
    fun u hc => (clean_iff (ha u hc.1.1)).2 (hu.urls u hc.1.1 ((clean_iff hc.1.1).1 hc)),
    fun d e => ⟨hu.strike d e, Inner.plain_ascii fun b hb => ((hs d e).2 b hb).1⟩⟩
  · have : E.cfg.bulletListMarker ∈ [b!"-", b!"+", b!"*"] := Decidable.not_not.1 h4
    simp at this
    rcases this with h | h | h <;> rw [h] <;> exact Edge.clean_ascii (by decide) (by decide)
  · have : E.cfg.codeBlockFence ∈ [b!"```", b!"~~~"] := Decidable.not_not.1 h5
    simp at this
    rcases this with h | h <;> rw [h] <;> decide

/-- What is rendered, before the last steps. -/
theorem rendered_tidy {np : Bool} {E : Env} {doc : Node} (hp : Page doc) (hv : Config.validate E.cfg = none) (hd : PlainDelimiters E.cfg)
    (hs : PlainStrike E) (ha : ∀ u, Utf8 u → Utf8 (E.assemble u)) (hu : UnmarkedOptions E) (hn : Unmarked doc)
    (hm : E.mode = .smart ∨ ∀ i ∈ items [] doc, ∀ d, i.what = .text d → 35 ∉ d)
    (hpre : np = true → ∀ i ∈ items [] doc, ∀ n a, i.what = .elem n a → n ≠ b!"pre") {out : Bytes}
    (e : renderNode E false false (preRender E doc) = some out) : Edge.Tidy np out := by
  refine Edge.render_tidy (envTidy hv hd hs ha hu) hp hm ?_ e
  intro i hi
  refine ⟨fun d hd => (clean_iff (hp.texts i hi d hd)).2 (hn.texts i hi d hd), fun n a he => ⟨fun p hpm => ?_, fun h => hpre h i hi n a he⟩⟩
  exact (clean_iff (hp.attrs i hi n a he p hpm)).2 (hn.attrs i hi n a he p hpm)

/-- **C33** for whole documents (partial: the document and the options have no bell character and no U+F002; the default escape mode, or no
`#` in the texts): the Markdown neither begins nor ends with white space.  This is for all four stock plugins and all tables. -/
theorem c33_document_partial {E : Env} {doc : Node} (hp : Page doc) (hv : Config.validate E.cfg = none) (hd : PlainDelimiters E.cfg)
    (hs : PlainStrike E) (ha : ∀ u, Utf8 u → Utf8 (E.assemble u)) (hu : UnmarkedOptions E) (hn : Unmarked doc)
    (hm : E.mode = .smart ∨ ∀ i ∈ items [] doc, ∀ d, i.what = .text d → 35 ∉ d) {md : Bytes} (h : convertNode E doc = some md) :
    NoLeadingWhitespace md ∧ NoTrailingWhitespace md := by
  rw [convertNode, Option.map_eq_some_iff] at h
  obtain ⟨out, e, rfl⟩ := h
  have ht := (rendered_tidy (np := false) hp hv hd hs ha hu hn hm (by simp) e).trimSpace
  refine c33_trimmed_partial _ _ _ (fun _ => ht.marks) ⟨?_, ?_⟩
  · rintro ⟨t, et⟩
    apply ht.edge.1
    rw [← et] at ht ⊢
    have hc : Utf8 codeNewline := by unfold Utf8; decide
    rw [Inner.vis_append (Chars.utf8_suffix ht.utf8 hc)]
    rfl
  · rintro ⟨t, et⟩
    apply ht.edge.2
    rw [← et] at ht ⊢
    have hc : Utf8 codeNewline := by unfold Utf8; decide
    rw [Inner.vis_append hc]
    exact List.getLast?_concat ..

/-! ## Blank lines -/

theorem okRun_filter : ∀ (s : Bytes) (k : Nat), okRun k (s.filter (· ≠ 32)) = okRun k s
  | [], _ => rfl
  | b :: s, k => by
    by_cases hb : b = 32
    · subst hb
      rw [List.filter_cons_of_neg (by simp), okRun_filter s k, okRun, if_neg (by decide), if_pos rfl]
    · rw [List.filter_cons_of_pos (by simpa using hb), okRun, okRun, okRun_filter s (k + 1), if_neg hb, if_neg hb, okRun_filter s 0]

theorem filter_replace {pat : Bytes} (hne : pat ≠ []) (hf : pat.filter (· ≠ 32) = b!"\n\n") : ∀ s : Bytes,
    (replaceAll pat b!"\n\n" s).filter (· ≠ 32) = s.filter (· ≠ 32) := by
  refine replaceAll_induct hne rfl ?_ ?_
  · intro s ih
    rw [replaceAll_match _ _ _ hne, List.filter_append, List.filter_append, ih, hf]
    rfl
  · intro b s hn ih
    rw [replaceAll_nomatch hn, List.filter_cons, List.filter_cons, ih]

theorem okRun_hardBreaks (s : Bytes) (k : Nat) : okRun k (trimUnnecessaryHardLineBreaks s) = okRun k s := by
  rw [trimUnnecessaryHardLineBreaks, ← okRun_filter, filter_replace (by decide) (by decide), filter_replace (by decide) (by decide),
    filter_replace (by decide) (by decide), okRun_filter]

theorem okRun_visible {c : UInt8} (h : 32 < c) (k : Nat) (s : Bytes) : okRun k (c :: s) = okRun 0 s := by
  rw [okRun, if_neg (visible_ne h).1, if_neg (visible_ne h).2.1]

theorem okRun_changes : ∀ (s : Bytes) (chs : List Bool) (k : Nat), MarkersPlaced s → okRun k (Escape.applyChanges chs s) = okRun k s := by
  intro s
  induction s with
  | nil => intro chs k _; simp [Escape.applyChanges]
  | cons a s ih =>
    intro chs k hm
    cases chs with
    | nil => rfl
    | cons ch chs =>
      rw [Escape.applyChanges]
      by_cases ha : a = 7
      · rw [if_neg (by simpa using ha)]
        subst ha
        obtain ⟨c, y, rfl, h1, h2⟩ := hm [] s rfl
        have hr : okRun k (7 :: c :: y) = okRun 0 y := by rw [okRun, if_neg (by decide), if_neg (by decide), okRun_visible h1]
        rw [hr]
        cases ch with
        | true => rw [if_pos rfl, okRun_visible (by decide), ih _ _ hm.tail, okRun_visible h1]
        | false => rw [if_neg (by simp), ih _ _ hm.tail, okRun_visible h1]
      · rw [if_pos ha, okRun, okRun, ih _ _ hm.tail, ih _ _ hm.tail, ih _ _ hm.tail]

theorem okRun_three {s a b sp1 sp2 : Bytes} (h1 : ∀ x ∈ sp1, x = 32) (h2 : ∀ x ∈ sp2, x = 32) (h : okRun 0 s = true) :
    s ≠ a ++ (10 :: sp1 ++ 10 :: sp2 ++ 10 :: b) := by
  rintro rfl
  have step : ∀ (a : Bytes) (k : Nat), okRun k (a ++ (10 :: sp1 ++ 10 :: sp2 ++ 10 :: b)) = false := by
    intro a
    induction a with
    | nil =>
      intro k
      have e : [] ++ (10 :: sp1 ++ 10 :: sp2 ++ 10 :: b) = 10 :: (sp1 ++ 10 :: (sp2 ++ 10 :: b)) := by simp
      rw [e, okRun, if_pos rfl, okRun_spaces h1, okRun, if_pos rfl, okRun_spaces h2, okRun, if_pos rfl]
      simp
    | cons x a ih =>
      intro k
      rw [List.cons_append, okRun, ih, ih, ih]
      simp
  rw [step] at h
  exact absurd h (by decide)

/-- **C94** (partial: the document and the options have no bell character and no U+F002; the default escape mode, or no `#` in the texts):
the Markdown of a document without `pre` elements has at most one blank line in a row, where a line of spaces is blank, too. -/
theorem c94_one_blank_line_partial {E : Env} {doc : Node} (hp : Page doc) (hv : Config.validate E.cfg = none) (hd : PlainDelimiters E.cfg)
    (hs : PlainStrike E) (ha : ∀ u, Utf8 u → Utf8 (E.assemble u)) (hu : UnmarkedOptions E) (hn : Unmarked doc)
    (hm : E.mode = .smart ∨ ∀ i ∈ items [] doc, ∀ d, i.what = .text d → 35 ∉ d)
    (hpre : ∀ i ∈ items [] doc, ∀ n a, i.what = .elem n a → n ≠ b!"pre") {md : Bytes} (h : convertNode E doc = some md)
    (a sp1 sp2 b : Bytes) (h1 : ∀ x ∈ sp1, x = 32) (h2 : ∀ x ∈ sp2, x = 32) : md ≠ a ++ (10 :: sp1 ++ 10 :: sp2 ++ 10 :: b) := by
  rw [convertNode, Option.map_eq_some_iff] at h
  obtain ⟨out, e, rfl⟩ := h
  have ht := (rendered_tidy (np := true) hp hv hd hs ha hu hn hm (fun _ => hpre) e).trimSpace.newlines
  have hr : okRun 0 (trimConsecutiveNewlines (trimSpace out)) = true := okRun_go _ 0 [] (by simp)
  rw [postRender, postRenderTrimContent]
  generalize trimConsecutiveNewlines (trimSpace out) = s at ht hr
  have hb := ht.hardBreaks
  rw [← okRun_hardBreaks] at hr
  generalize trimUnnecessaryHardLineBreaks s = s2 at hb hr
  have ho := Edge.tidy_un E.mode (handlers E) hb
  have hr2 : okRun 0 (Escape.unEscapeContent E.mode (handlers E) s2) = true := by
    cases E.mode with
    | disabled => exact hr
    | smart =>
      rw [Escape.unEscapeContent.eq_def]
      exact (okRun_changes _ _ _ hb.marks).trans hr
  have hid : restoreCodeNewlines (Escape.unEscapeContent E.mode (handlers E) s2) = Escape.unEscapeContent E.mode (handlers E) s2 := by
    rw [restoreCodeNewlines]
    exact replaceAll_id fun hi => ho.code rfl (privateMark_mem ho.utf8 hi)
  rw [hid]
  exact okRun_three h1 h2 hr2

/-! ## Documents that meet the hypotheses -/

theorem containsSub_of_infix {p : Bytes} (hp : p ≠ []) : ∀ s : Bytes, p <:+: s → containsSub p s = true
  | [], h => absurd (List.infix_nil.1 h) hp
  | b :: s, h => by
    rw [containsSub, Bool.or_eq_true, List.isPrefixOf_iff_prefix]
    rcases List.infix_cons_iff.1 h with h | h
    · exact Or.inl h
    · exact Or.inr (containsSub_of_infix hp s h)

theorem unmarked_of {doc : Node} (h : ∀ i ∈ items [] doc, (∀ d ∈ i.what.text?, 7 ∉ d ∧ containsSub privateMark d = false) ∧
    ∀ p ∈ (match i.what with | .elem _ a => a | _ => []), 7 ∉ p.2 ∧ containsSub privateMark p.2 = false) : Unmarked doc where
  texts := by
    intro i hi d hd
    have := (h i hi).1 d (by rw [hd]; rfl)
    exact ⟨this.1, fun hm => by rw [containsSub_of_infix (by decide) _ hm] at this; simp at this⟩
  attrs := by
    intro i hi n a ha p hp
    have := (h i hi).2
    rw [ha] at this
    exact ⟨(this p hp).1, fun hm => by have := (this p hp).2; rw [containsSub_of_infix (by decide) _ hm] at this; simp at this⟩

theorem demoEnv_unmarked (mode : Escape.Mode) : UnmarkedOptions (demoEnv mode) := by
  refine ⟨?_, fun d h => absurd h (by simp [demoEnv]), fun u _ h => h⟩
  show ∀ d ∈ [(Config.newPlugin []).emDelimiter, (Config.newPlugin []).strongDelimiter, (Config.newPlugin []).horizontalRule], 7 ∉ d
  decide

example : Unmarked demoPage := unmarked_of (by decide +kernel)

/-- `<h1>T</h1><p>  a *b*<br> <br>c</p><div></div><ul><li> d</li></ul><blockquote><p>e</p><p>f</p></blockquote> ` -/
def blankPage : Node := .document [.elem b!"html" [] [.elem b!"body" [] [
  .elem b!"h1" [] [.text b!"T"],
  .elem b!"p" [] [.text b!"  a *b*", .elem b!"br" [] [], .text b!" ", .elem b!"br" [] [], .text b!"c"],
  .elem b!"div" [] [],
  .elem b!"ul" [] [.elem b!"li" [] [.text b!" d"]],
  .elem b!"blockquote" [] [.elem b!"p" [] [.text b!"e"], .elem b!"p" [] [.text b!"f"]],
  .text b!" "]]]

theorem blankPage_ok : Page blankPage where
  texts := by
    intro i hi d hd
    have : ∀ i ∈ items [] blankPage, ∀ d ∈ i.what.text?, Utf8 d := by unfold Utf8; decide +kernel
    exact this i hi d (by rw [hd]; rfl)
  attrs := by
    intro i hi n a ha
    have : ∀ i ∈ items [] blankPage, ∀ p ∈ (match i.what with | .elem _ a => a | _ => []), Utf8 p.2 := by unfold Utf8; decide +kernel
    have := this i hi
    rw [ha] at this
    exact this
  void := by decide +kernel
  document := by decide +kernel
  root := by decide

example : Unmarked blankPage := unmarked_of (by decide +kernel)

example : ∀ i ∈ items [] blankPage, ∀ n a, i.what = .elem n a → n ≠ b!"pre" := by
  have : ∀ i ∈ items [] blankPage, i.what.name ≠ b!"pre" := by decide +kernel
  intro i hi n a he
  have := this i hi
  rwa [he] at this

theorem blankPage_converted : convertNode (demoEnv .smart) blankPage = some b!"# T\n\na \\*b*\n\nc\n\n- d\n\n> e\n> \n> f" := by
  simp only [convertNode, preRender, strikePreRender, DomUtils.handlePreRender, mergeAdjacent_eq]
  decide +kernel

/-! ## The hypotheses are needed -/

/-- C94 fails for a document with a bell character: the paragraph between two others vanishes, but not its blank lines. -/
theorem c94_counterexample_bell :
    convertNode (demoEnv .smart) (.elem b!"body" [] [.elem b!"p" [] [.text b!"a"], .elem b!"p" [] [.text [7]], .elem b!"p" [] [.text b!"b"]]) =
      some b!"a\n\n\n\nb" := by
  simp only [convertNode, preRender, strikePreRender, DomUtils.handlePreRender, mergeAdjacent_eq]
  decide +kernel

/-- The blank lines of code stay, of course. -/
theorem c94_pre_keeps_blank_lines :
    convertNode (demoEnv .smart) (.elem b!"pre" [] [.text b!"a\n\n\nb"]) = some b!"```\na\n\n\nb\n```" := by
  simp only [convertNode, preRender, strikePreRender, DomUtils.handlePreRender, mergeAdjacent_eq]
  decide +kernel

/-- C33 fails for a document with a bell character at its end. -/
theorem c33_counterexample_document :
    convertNode (demoEnv .smart) (.elem b!"p" [] [.text [97, 32, 7]]) = some b!"a " := by
  simp only [convertNode, preRender, strikePreRender, DomUtils.handlePreRender, mergeAdjacent_eq]
  decide +kernel

end Verif.Props
