import Verif.Proofs.DomAll
import Verif.Proofs.DomListEnd
/-!
# Properties of the normalisation of the HTML tree (C36-C42, C70)
-/

namespace Verif.Props
open Verif Verif.DomUtils Verif.Spec Verif.Dom

/-! ## C36: adjacent lists stay separate -/

/-- Whenever one list follows another directly (only ends, comments, and beginnings other than `li` and `hr` in between), the
result has an end comment between them. -/
theorem c36_separated (doc : Node) (x y mid : List Tag) (l l' : Bytes)
    (h : tags (addListEndComments doc) = x ++ .stop l :: (mid ++ .start l' :: y))
    (hl : isList l) (hl' : isList l') (hm : ∀ t ∈ mid, t.between) : .comment b!"THE END" ∈ mid := by
  have hg := addListEnd_good.1 doc [] [] rfl (fun _ => rfl)
  rw [events_tags.1] at hg
  exact separated_of_good hg x l mid l' y h hl hl' hm

/-- Nothing but end comments is added, and nothing is moved. -/
theorem c36_nothing_else (doc : Node) :
    (items [] (addListEndComments doc)).filter (fun i => i.what ≠ .comment b!"THE END") =
      (items [] doc).filter (fun i => i.what ≠ .comment b!"THE END") :=
  addListEnd_items.1 doc [] []

/-- Where all lists are separated already, nothing is added at all. -/
theorem c36_only_if_needed (doc : Node) (h : ∀ (x y mid : List Tag) (l l' : Bytes),
      tags doc = x ++ .stop l :: (mid ++ .start l' :: y) → isList l → isList l' → (∀ t ∈ mid, t.between) →
      .comment b!"THE END" ∈ mid) : addListEndComments doc = doc := by
  refine addListEnd_id.1 doc [] ?_
  rw [events_tags.1]
  exact good_of_separated _ fun x l mid l' y he hl hl' hm => h x y mid l l' he hl hl' hm

/-- `<ul><li>a</li></ul><div><ol><li>b</li></ol></div>` -/
example : addListEndComments (.elem b!"body" [] [.elem b!"ul" [] [.elem b!"li" [] [.text b!"a"]],
      .elem b!"div" [] [.elem b!"ol" [] [.elem b!"li" [] [.text b!"b"]]]]) =
    .elem b!"body" [] [.elem b!"ul" [] [.elem b!"li" [] [.text b!"a"]], .comment b!"THE END",
      .elem b!"div" [] [.elem b!"ol" [] [.elem b!"li" [] [.text b!"b"]]]] := by rfl

/-- A list at the end of a list item, before the next list: the comment is inserted behind the outer list only. -/
example : addListEndComments (.elem b!"body" [] [.elem b!"ul" [] [.elem b!"li" [] [.elem b!"ul" [] []]], .elem b!"ul" [] []]) =
    .elem b!"body" [] [.elem b!"ul" [] [.elem b!"li" [] [.elem b!"ul" [] []]], .comment b!"THE END", .elem b!"ul" [] []] := by rfl

/-! ## C37: list children are list items -/

/-- After the normalisation, every child of a list is an item or a blank text. -/
theorem c37_items (doc x : Node) (hx : x ∈ nodes (moveListItems doc)) (hl : isList x.name) (c : Node) (hc : c ∈ x.children) :
    (∃ a ks, c = .elem b!"li" a ks) ∨ ∃ d, c = .text d ∧ AllWhitespace d := by
  rcases moveListItems_ok.1 doc x hx hl c hc with h | h
  · left
    cases c with
    | elem n a ks =>
      have : n = b!"li" := by simpa [isLi] using h
      exact ⟨a, ks, by rw [this]⟩
    | _ => simp [isLi] at h
  · right
    obtain ⟨d, rfl, hd⟩ := isEmptyText_txts c h
    exact ⟨d, rfl, (trimSpace_nil_iff d).1 hd⟩

/-- The texts that are not blank stay as they are, in document order. -/
theorem c37_text (doc : Node) :
    (texts (moveListItems doc)).filter (fun d => trimSpace d ≠ []) = (texts doc).filter (fun d => trimSpace d ≠ []) := by
  have := moveListItems_solid.1 doc
  rw [← texts_txts, ← texts_txts, solid, solid] at this
  have e : (fun d : Bytes => decide (trimSpace d ≠ [])) = fun d : Bytes => !(trimSpace d).isEmpty := by
    funext d
    cases trimSpace d <;> rfl
  rw [e]
  simpa using this

/-- `<ul>a<li>b</li> <p>c</p></ul>` -/
example : moveListItems (.elem b!"ul" [] [.text b!"a", .elem b!"li" [] [.text b!"b"], .text b!" ", .elem b!"p" [] [.text b!"c"]]) =
    .elem b!"ul" [] [.elem b!"li" [] [.text b!"a"],
      .elem b!"li" [] [.text b!"b", .elem b!"p" [] [.text b!"c"]], .text b!" "] := by rfl

/-- The blank text between the items changed its place, so the text as a whole is not exactly the same. -/
theorem c37_counterexample_blank : ∃ doc, text (moveListItems doc) ≠ text doc :=
  ⟨.elem b!"ul" [] [.elem b!"li" [] [.text b!"b"], .text b!" ", .elem b!"p" [] [.text b!"c"]], by decide⟩

/-! ## C38: removed tags leave nothing behind -/

/-- Exactly the nodes of removed kinds and what they contain disappear: of the other nodes all survive, with their surroundings, and
so does the text. -/
theorem c38_removed (remove : Bytes → Bool) (doc : Node) (h : remove doc.name = false) :
    nonTexts (preRenderRemove remove doc) =
      (nonTexts doc).filter (fun i => remove i.what.name = false ∧ ∀ a ∈ i.anc, remove a = false) ∧
    text (preRenderRemove remove doc) =
      (((items [] doc).filter fun i => remove i.what.name = false ∧ ∀ a ∈ i.anc, remove a = false).filterMap fun i => i.what.text?).flatten := by
  have he := (removeIn_items remove).1 doc [] rfl h
  have hk : keepItem remove = fun i : Item => decide (remove i.what.name = false ∧ ∀ a ∈ i.anc, remove a = false) := by
    funext i
    rw [Bool.eq_iff_iff]
    simp [keepItem]
  constructor
  · have := mergeText_nonText.1 (removeIn remove doc) []
    rw [he, hk] at this
    rw [preRenderRemove, h, if_neg (by simp)]
    rw [nonTexts, nonTexts, List.filter_filter]
    refine this.trans ?_
    rw [nonTextOf, List.filter_filter]
    exact List.filter_congr fun i _ => Bool.and_comm _ _
  · have := mergeText_text.1 (removeIn remove doc) []
    rw [he, hk] at this
    rw [preRenderRemove, h, if_neg (by simp)]
    exact this

/-- With the names of the base plugin: no comment, `head`, `script`, `style`, ... is left, at any depth. -/
theorem c38_base (remove : Bytes → Bool) (hb : ∀ n ∈ baseRemoves, remove n = true) (doc : Node) (h : remove doc.name = false)
    (i : Item) (hi : i ∈ items [] (preRenderRemove remove doc)) :
    i.what.name ∉ [b!"#comment", b!"head", b!"script", b!"style", b!"link", b!"meta", b!"iframe", b!"noscript", b!"input", b!"textarea"] := by
  intro hm
  have hr := hb _ hm
  have : i ∈ nonTexts (preRenderRemove remove doc) := by
    rw [nonTexts, List.mem_filter]
    refine ⟨hi, ?_⟩
    cases hw : i.what with
    | text d => rw [hw] at hm; revert hm; simp [What.name]
    | _ => rfl
  rw [(c38_removed remove doc h).1, List.mem_filter] at this
  simp [hr] at this

/-- `<div><script>x</script>a<!-- c -->b</div>` -/
example : preRenderRemove (baseRemoves.contains ·) (.elem b!"div" [] [.elem b!"script" [] [.text b!"x"], .text b!"a", .comment b!"c", .text b!"b"]) =
    .elem b!"div" [] [.text b!"ab"] := by rfl

/-! ## C39: no redundant nesting -/

theorem sameOK_boldItalic : SameOK bothBoldOrItalic := by
  constructor
  · intro a b
    simp only [bothBoldOrItalic, Bool.or_eq_true, Bool.and_eq_true]
    rintro (⟨h1, h2⟩ | ⟨h1, h2⟩)
    · exact .inl ⟨h2, h1⟩
    · exact .inr ⟨h2, h1⟩
  · intro a b c
    have hbi : ∀ x, isBold x = true → isItalic x = true → False := by
      intro x
      simp only [isBold, isItalic, decide_eq_true_eq]
      rintro (rfl | rfl) (h | h) <;> simp at h
    simp only [bothBoldOrItalic, Bool.or_eq_true, Bool.and_eq_true]
    rintro (⟨h1, h2⟩ | ⟨h1, h2⟩) (⟨h3, h4⟩ | ⟨h3, h4⟩)
    · exact .inl ⟨h1, h4⟩
    · exact absurd (hbi _ h2 h3) id
    · exact absurd (hbi _ h3 h2) id
    · exact .inr ⟨h1, h4⟩

theorem sameOK_link : SameOK bothLink := by
  constructor
  · intro a b; simp only [bothLink, Bool.and_eq_true]; exact fun h => ⟨h.2, h.1⟩
  · intro a b c; simp only [bothLink, Bool.and_eq_true]; exact fun h h' => ⟨h.1, h'.2⟩

theorem noNested_removeRedundant (same : Bytes → Bytes → Bool) (h0 : same b!"#text" b!"#text" = false ∧
      same b!"#comment" b!"#comment" = false ∧ same b!"#doctype" b!"#doctype" = false ∧ same b!"#document" b!"#document" = false)
    (doc : Node) : NoNested same (items [] (removeRedundant same doc)) := by
  have h := (redundant_none same h0).1 doc []
  have : removeRedundantIn same [] doc = [removeRedundant same doc] := by
    cases doc <;> simp [removeRedundantIn, removeRedundant]
  rw [this, itemsL_singleton] at h
  exact h

/-- After the normalisation no bold element is inside a bold element, and no italic one inside an italic one. -/
theorem c39_no_nesting_partial (doc : Node) (i : Item) (hi : i ∈ items [] (removeRedundant bothBoldOrItalic doc)) :
    (i.what.name ∈ [b!"strong", b!"b"] → ∀ a ∈ i.anc, a ∉ [b!"strong", b!"b"]) ∧
    (i.what.name ∈ [b!"em", b!"i"] → ∀ a ∈ i.anc, a ∉ [b!"em", b!"i"]) := by
  have h := noNested_removeRedundant bothBoldOrItalic (by decide) doc i hi
  constructor
  · intro hn a ha hm
    have h1 : isBold i.what.name = true := by simpa [isBold] using hn
    have h2 : isBold a = true := by simpa [isBold] using hm
    have := h (by simp [bothBoldOrItalic, h1]) a ha
    simp [bothBoldOrItalic, h1, h2] at this
  · intro hn a ha hm
    have h1 : isItalic i.what.name = true := by simpa [isItalic] using hn
    have h2 : isItalic a = true := by simpa [isItalic] using hm
    have := h (by simp [bothBoldOrItalic, h1]) a ha
    simp [bothBoldOrItalic, h1, h2] at this

/-- The same for links. -/
theorem c39_no_nested_links (doc : Node) (i : Item) (hi : i ∈ items [] (removeRedundant bothLink doc)) :
    i.what.name = b!"a" → ∀ x ∈ i.anc, x ≠ b!"a" := by
  have h := noNested_removeRedundant bothLink (by decide) doc i hi
  intro hn x hx hm
  have := h (by simp [bothLink, isLink, hn]) x hx
  simp [bothLink, isLink, hn, hm] at this

theorem removeRedundant_textsWith {α : Type} (same : Bytes → Bytes → Bool) (ok : SameOK same) (f : List Bytes → α)
    (hf : ∀ a b, SameKinds same a b → f a = f b) (doc : Node) :
    textsWith f (items [] (removeRedundant same doc)) = textsWith f (items [] doc) := by
  have h := (redundant_texts same ok f hf).1 doc [] [] (fun _ => rfl)
  have : removeRedundantIn same [] doc = [removeRedundant same doc] := by
    cases doc <;> simp [removeRedundantIn, removeRedundant]
  rw [this, itemsL_singleton] at h
  exact h

/-- Every text stays as it is, in document order, and is bold or italic exactly if it was before. -/
theorem c39_text (doc : Node) :
    textsWith (fun anc => (anc.any (· ∈ [b!"strong", b!"b"]), anc.any (· ∈ [b!"em", b!"i"]))) (items [] (removeRedundant bothBoldOrItalic doc)) =
      textsWith (fun anc => (anc.any (· ∈ [b!"strong", b!"b"]), anc.any (· ∈ [b!"em", b!"i"]))) (items [] doc) := by
  refine removeRedundant_textsWith _ sameOK_boldItalic _ ?_ doc
  intro a b h
  have h1 := h b!"b"
  have h2 := h b!"i"
  have e1 : bothBoldOrItalic b!"b" = fun x : Bytes => decide (x ∈ [b!"strong", b!"b"]) := by
    funext x
    have hx : isBold b!"b" = true := by decide
    have hi : isItalic b!"b" = false := by decide
    simp [bothBoldOrItalic, hi, isBold]
  have e2 : bothBoldOrItalic b!"i" = fun x : Bytes => decide (x ∈ [b!"em", b!"i"]) := by
    funext x
    have hx : isBold b!"i" = false := by decide
    have hi : isItalic b!"i" = true := by decide
    simp [bothBoldOrItalic, hx, isItalic]
  rw [e1] at h1
  rw [e2] at h2
  simp only [h1, h2]

/-- `<b>a<i>b<strong>c</strong></i></b>` -/
example : removeRedundant bothBoldOrItalic (.elem b!"b" [] [.text b!"a", .elem b!"i" [] [.text b!"b", .elem b!"strong" [] [.text b!"c"]]]) =
    .elem b!"b" [] [.text b!"a", .elem b!"i" [] [.text b!"b", .text b!"c"]] := by rfl

/-! ## C40: merging adjacent inline elements -/

/-- Merging keeps every text, in document order; a text is inside of an element of the merged kind exactly if it was before.  (That
every text stays in its block is not true, see below.) -/
theorem c40_text_partial (doc : Node) :
    textsWith (fun anc => anc.any (· ∈ [b!"strong", b!"b", b!"em", b!"i"])) (items [] (mergeAdjacent isBoldOrItalic doc)) =
      textsWith (fun anc => anc.any (· ∈ [b!"strong", b!"b", b!"em", b!"i"])) (items [] doc) := by
  have e : isBoldOrItalic = fun x : Bytes => decide (x ∈ [b!"strong", b!"b", b!"em", b!"i"]) := by
    funext x
    simp [isBoldOrItalic, isBold, isItalic, Bool.decide_or, Bool.or_assoc]
  have := mergeAdjacent_ftxts isBoldOrItalic mergeOK_boldItalic doc
  have h1 := (ftxts_items isBoldOrItalic).1 doc []
  have h2 := (ftxts_items isBoldOrItalic).1 (mergeAdjacent isBoldOrItalic doc) []
  simp only [List.any_nil] at h1 h2
  rw [← h1, ← h2] at this
  rw [e] at this ⊢
  exact this

/-- The same for inline code. -/
theorem c40_code_partial (doc : Node) :
    textsWith (fun anc => anc.any (· ∈ [b!"code", b!"var", b!"samp", b!"kbd", b!"tt"])) (items [] (mergeAdjacent isInlineCode doc)) =
      textsWith (fun anc => anc.any (· ∈ [b!"code", b!"var", b!"samp", b!"kbd", b!"tt"])) (items [] doc) := by
  have e : isInlineCode = fun x : Bytes => decide (x ∈ [b!"code", b!"var", b!"samp", b!"kbd", b!"tt"]) := by
    funext x
    simp [isInlineCode]
  have := mergeAdjacent_ftxts isInlineCode mergeOK_code doc
  have h1 := (ftxts_items isInlineCode).1 doc []
  have h2 := (ftxts_items isInlineCode).1 (mergeAdjacent isInlineCode doc) []
  simp only [List.any_nil] at h1 h2
  rw [← h1, ← h2] at this
  rw [e] at this ⊢
  exact this

/-- `<b>a</b><span><b>b</b></span>c` -/
example : mergeAdjacent isBoldOrItalic (.elem b!"p" [] [.elem b!"b" [] [.text b!"a"], .elem b!"span" [] [.elem b!"b" [] [.text b!"b"]], .text b!"c"]) =
    .elem b!"p" [] [.elem b!"b" [] [.text b!"a", .text b!"b"], .elem b!"span" [] [], .text b!"c"] := by
  simp [mergeAdjacent, mergeAdjacentF, mergeStep, collectFrames, collectL, collectNode, isBoldOrItalic, isBold, isItalic, Node.name, Node.children, withChildren]

/-- Text is moved out of its block: in `<div><p><b>a</b><b>b</b></p><b>c</b></div>` the `c` that follows the paragraph ends up in it. -/
theorem c40_counterexample_block : mergeAdjacent isBoldOrItalic
      (.elem b!"div" [] [.elem b!"p" [] [.elem b!"b" [] [.text b!"a"], .elem b!"b" [] [.text b!"b"]], .elem b!"b" [] [.text b!"c"]]) =
    .elem b!"div" [] [.elem b!"p" [] [.elem b!"b" [] [.text b!"a", .text b!"b", .text b!"c"]]] := by
  simp [mergeAdjacent, mergeAdjacentF, mergeStep, collectFrames, collectL, collectNode, isBoldOrItalic, isBold, isItalic, Node.name, Node.children, withChildren]

/-- Italic text becomes bold: `<b>a</b><i>b</i>`. -/
theorem c40_counterexample_kind : mergeAdjacent isBoldOrItalic
      (.elem b!"p" [] [.elem b!"b" [] [.text b!"a"], .elem b!"i" [] [.text b!"b"]]) =
    .elem b!"p" [] [.elem b!"b" [] [.text b!"a", .text b!"b"]] := by
  simp [mergeAdjacent, mergeAdjacentF, mergeStep, collectFrames, collectL, collectNode, isBoldOrItalic, isBold, isItalic, Node.name, Node.children, withChildren]

/-! ## C41: blocks inside headings and links -/

/-- The blocks of Markdown. -/
def markdownBlocks : List Bytes := [b!"html", b!"head", b!"body", b!"blockquote", b!"ul", b!"ol", b!"li",
  b!"hr", b!"pre", b!"h1", b!"h2", b!"h3", b!"h4", b!"h5", b!"h6"]

/-- What cannot contain blocks in Markdown. -/
def noBlocksInside : List Bytes := [b!"hr", b!"pre", b!"h1", b!"h2", b!"h3", b!"h4", b!"h5", b!"h6",
  b!"span", b!"code", b!"b", b!"strong", b!"i", b!"em", b!"a", b!"img", b!"br"]

/-- After the normalisation no heading, link, emphasis or code contains a block. -/
theorem c41_no_blocks (doc : Node) (i : Item) (hi : i ∈ items [] (leafAlternatives doc)) (n : Bytes) (a : List (Bytes × Bytes))
    (hn : i.what = .elem n a) (hb : n ∈ markdownBlocks) : ∀ x ∈ i.anc, x ∉ noBlocksInside := by
  have h := leaf_outside.1 doc [] rfl i
  rw [leafAlternatives_eq, itemsL_singleton] at h
  have hall : ∀ n ∈ markdownBlocks, isBlockName n = true := by decide
  have hall2 : ∀ n ∈ noBlocksInside, isNarrow n = true := by decide
  have := h hi (by rw [hn]; exact hall n hb)
  intro x hx hm
  rw [List.any_eq_false] at this
  exact this x hx (hall2 x hm)

/-- Apart from white space and quotation marks the text stays the same (if horizontal rules have no content, which the parser
guarantees). -/
theorem c41_text (doc : Node) (h : ∀ x ∈ nodes doc, x.name = b!"hr" → x.children = []) :
    ((texts (leafAlternatives doc)).flatMap visible).filter (· ≠ 34) = ((texts doc).flatMap visible).filter (· ≠ 34) := by
  have := leaf_txts.1 doc h false false
  rw [leafAlternatives_eq, txtsL_singleton] at this
  rw [texts_txts, texts_txts]
  exact this

/-- Quotation marks and spaces are only added around quotations inside of such elements: without them the texts are unchanged. -/
theorem c41_text_exact (doc : Node) (h : ∀ x ∈ nodes doc, x.name = b!"hr" → x.children = [])
    (hq : ∀ i ∈ items [] doc, ∀ a, i.what = .elem b!"blockquote" a → ∀ x ∈ i.anc, x ∉ noBlocksInside ∧ x ≠ b!"#text") :
    texts (leafAlternatives doc) = texts doc := by
  have := leaf_txts_exact.1 doc h false false [] rfl (by
    intro i hi he
    cases hw : i.what with
    | elem n a =>
      rw [hw] at he
      have hn : n = b!"blockquote" := by simpa [isElem] using he
      subst hn
      rw [List.any_eq_false]
      intro x hx
      obtain ⟨h1, h2⟩ := hq i hi a hw x hx
      intro hnar
      have hmem : x ∈ noBlocksInside ∨ x = b!"#text" := by
        simp only [isNarrow, getStructure, Bool.or_eq_true] at hnar
        split at hnar
        · simp at hnar
        split at hnar
        · rename_i hm
          left
          have : ∀ y ∈ [b!"hr", b!"pre", b!"h1", b!"h2", b!"h3", b!"h4", b!"h5", b!"h6"], y ∈ noBlocksInside := by decide
          exact this x hm
        split at hnar
        · rename_i hm
          have : ∀ y ∈ [b!"#text", b!"span", b!"code", b!"b", b!"strong", b!"i", b!"em", b!"a", b!"img", b!"br"],
              y ∈ noBlocksInside ∨ y = b!"#text" := by decide
          exact this x hm
        · simp at hnar
      rcases hmem with h | h
      · exact h1 h
      · exact h2 h
    | _ => rw [hw] at he; simp [isElem] at he)
  rw [leafAlternatives_eq, txtsL_singleton] at this
  rw [texts_txts, texts_txts]
  exact this

/-- `<h1>a<blockquote>b<ul><li>c</li></ul></blockquote><hr></h1>` -/
example : leafAlternatives (.elem b!"h1" [] [.text b!"a", .elem b!"blockquote" [] [.text b!"b", .elem b!"ul" [] [.elem b!"li" [] [.text b!"c"]]], .elem b!"hr" [] []]) =
    .elem b!"h1" [] [.text b!"a", .text b!" \"", .elem b!"span" [] [.text b!"b", .elem b!"span" [] [.elem b!"span" [] [.text b!"c"]]], .text b!"\" "] := by rfl

/-! ## C42: adjacent texts -/

/-- Afterwards no two texts stand next to each other. -/
theorem c42_no_adjacent (doc x : Node) (hx : x ∈ nodes (mergeText doc)) (pre post : List Node) (d d' : Bytes) :
    x.children ≠ pre ++ .text d :: .text d' :: post :=
  (noAdj_iff x.children).1 (mergeText_noAdj.1 doc x hx) pre d d' post

/-- The text and all other nodes stay the same. -/
theorem c42_text (doc : Node) : text (mergeText doc) = text doc ∧ nonTexts (mergeText doc) = nonTexts doc :=
  ⟨mergeText_text.1 doc [], mergeText_nonText.1 doc []⟩

/-- Merging twice is merging once. -/
theorem c42_idempotent (doc : Node) : mergeText (mergeText doc) = mergeText doc :=
  mergeText_id.1 (mergeText doc) (mergeText_noAdj.1 doc)

/-- `a`, `b`, `<i>c</i>`, `d`, `e` -/
example : mergeText (.elem b!"p" [] [.text b!"a", .text b!"b", .elem b!"i" [] [.text b!"c"], .text b!"d", .text b!"e"]) =
    .elem b!"p" [] [.text b!"ab", .elem b!"i" [] [.text b!"c"], .text b!"de"] := by rfl

/-! ## C70: the normalisation as a whole -/

/-- All steps of the CommonMark plugin together keep every visible character of the text, in document order, apart from quotation
marks (which replace block quotations where Markdown has none). -/
theorem c70_text (T : NameTables) (doc : Node) (h : ∀ x ∈ nodes doc, x.name = b!"hr" → x.children = []) :
    ((texts (handlePreRender T doc)).flatMap visible).filter (· ≠ 34) = ((texts doc).flatMap visible).filter (· ≠ 34) := by
  have := handlePreRender_vis T doc h
  rw [texts_txts, texts_txts]
  exact this

/-- A document for the theorem: `<h1>a<blockquote>b</blockquote></h1>`. -/
example : ((texts (.elem b!"h1" [] [.text b!"a ", .elem b!"blockquote" [] [.text b!" b"]])).flatMap visible).filter (· ≠ 34) = b!"ab" := by decide

end Verif.Props
