import Verif.Proofs.PageRich
import Verif.Proofs.PageTree
/-!
# Rendering paragraphs with elements in them
-/
namespace Verif.Page
open Verif Verif.Escape Verif.Spec Verif.Commonmark Verif.TextUtils Verif.Render Verif.DomUtils

/-- The settings that matter. -/
def styleOf (E : Env) : Style := ⟨E.cfg.bulletListMarker, E.cfg.emDelimiter.headD 0, E.cfg.strongDelimiter.headD 0, E.assemble⟩

/-- What is asked of the configuration. -/
structure EnvOK (E : Env) : Prop where
  smart : E.mode = .smart
  digits : Props.DigitsOK E.isDigit
  d0 : E.isDigit 0 = false
  d10 : E.isDigit 10 = false
  names : BlockNames E
  comments : E.cfg.disableListEndComment = false
  bullet : E.cfg.bulletListMarker ∈ [b!"-", b!"+", b!"*"]
  fence : E.cfg.codeBlockFence ∈ [b!"```", b!"~~~"]
  rule : RuleOK E.cfg.bulletListMarker E.cfg.horizontalRule
  em : E.cfg.emDelimiter ∈ [b!"*", b!"_"]
  strong : E.cfg.strongDelimiter ∈ [b!"**", b!"__"]
  inlined : E.cfg.linkStyle = b!"inlined"

section
variable {E : Env} (hE : EnvOK E)
include hE

theorem EnvOK.style : StyleOK (styleOf E) := by
  have h1 := hE.em
  have h2 := hE.strong
  simp only [List.mem_cons, List.not_mem_nil, or_false] at h1 h2
  refine ⟨?_, ?_⟩
  · rcases h1 with h | h <;> simp [styleOf, h]
  · rcases h2 with h | h <;> simp [styleOf, h]

/-- A text, in a link or not. -/
theorem render_text_any (l s : Bool) (v : Bytes) : renderNode E l s (.text v) = some (linkTextTransform l (encToks (textToks (entityReplace v)))) := by
  rw [renderNode, baseTextTransform, hE.smart, escapeContent, escapeLoop_eq]

theorem delimiter_eq {name : Bytes} (h : name ∈ [b!"strong", b!"b", b!"em", b!"i"]) : delimiterOf E name = delims (styleOf E) name := by
  have h1 := hE.em
  have h2 := hE.strong
  simp only [List.mem_cons, List.not_mem_nil, or_false] at h h1 h2
  have key : ∀ em strong : Bytes, (em = b!"*" ∨ em = b!"_") → (strong = b!"**" ∨ strong = b!"__") →
      (if isBold name then strong else if isItalic name then em else []) =
        List.replicate (if name ∈ strongNames then 2 else 1) (if name ∈ strongNames then strong.headD 0 else em.headD 0) := by
    rintro em strong h1 h2
    rcases h with rfl | rfl | rfl | rfl <;> rcases h1 with rfl | rfl <;> rcases h2 with rfl | rfl <;> decide
  rw [delimiterOf, delims, Style.delim, key _ _ h1 h2]
  rfl
end

theorem trimRight_id {s : Bytes} (h : NoTrailingWhitespace s) : trimRight s = s := by
  obtain ⟨r, ⟨ws, hws, rfl⟩, e, -⟩ := trimRight_spec s
  rcases List.eq_nil_or_concat ws with rfl | ⟨ws', w, rfl⟩
  · simpa using e.symm
  · exfalso
    rw [List.concat_eq_append] at *
    exact h w (hws w (by simp)) ⟨trimRight s ++ ws'.flatten, by
      conv => rhs; rw [e]
      simp⟩

theorem trimLeft_id {s : Bytes} (h : NoLeadingWhitespace s) : trimLeft s = s := by
  obtain ⟨r, ⟨ws, hws, rfl⟩, e, -⟩ := trimLeft_spec s
  cases ws with
  | nil => simpa using e.symm
  | cons w ws =>
    exfalso
    exact h w (hws w (by simp)) ⟨ws.flatten ++ trimLeft s, by
      conv => rhs; rw [e]
      simp⟩

theorem surroundingSpaces_id {s : Bytes} (h1 : NoLeadingWhitespace s) (h2 : NoTrailingWhitespace s) : surroundingSpaces s = ([], s, []) := by
  simp only [surroundingSpaces, trimRight_id h2, trimLeft_id h1]
  simp

theorem delimited_line {d s : Bytes} (h1 : NoLeadingWhitespace s) (h2 : NoTrailingWhitespace s) (hne : s ≠ []) (h10 : 10 ∉ s) :
    delimited d s = d ++ (s ++ d) := by
  rw [delimited, delimiterForEveryLine, splitOn_of_no_sep h10]
  simp [delimiterForLine, surroundingSpaces_id h1 h2, joinWith, hne]

/-- What a text in an element is rendered as. -/
structure LineOf (X : List Tok) : Prop where
  leading : NoLeadingWhitespace (encX X)
  trailing : NoTrailingWhitespace (encX X)
  nonempty : encX X ≠ []
  no_nl : 10 ∉ encX X

theorem line_of {X : List Tok} (hX : Fine X) (hne : X.map Tok.byte ≠ []) (h1 : NoLeadingWhitespace (X.map Tok.byte))
    (h2 : NoTrailingWhitespace (X.map Tok.byte)) : LineOf X := by
  have e : encX X = encBy MARK (flatX X) := by rw [← enc_flat, encToks_by]
  have hsnd := flat_snd X
  have hesc := escT_snd X
  have hl : NoLeadingWhitespace ((flatX X).map Prod.snd) := by
    rw [hsnd]; exact encBy_noLeading ws_bs (by rw [hesc]; exact h1)
  have ht : NoTrailingWhitespace ((flatX X).map Prod.snd) := by
    rw [hsnd]; exact encBy_noTrailing ws_bs (by rw [hesc]; exact h2)
  refine ⟨?_, ?_, ?_, ?_⟩
  · rw [e]; exact encBy_noLeading ws_mark hl
  · rw [e]; exact encBy_noTrailing ws_mark ht
  · intro h0
    cases X with
    | nil => exact hne rfl
    | cons x X =>
      have : encX (x :: X) = x.enc ++ encX X := rfl
      rw [this] at h0
      cases x <;> simp [Tok.enc] at h0
  · rw [e]
    intro hm
    rcases encBy_mem hm with hm | hm
    · exact absurd hm (by decide)
    · rw [hsnd] at hm
      rcases encBy_mem hm with hm | hm
      · exact absurd hm (by decide)
      · rw [escT_snd, List.mem_map] at hm
        obtain ⟨y, hy, ey⟩ := hm
        refine hX.bytes y hy ?_
        rw [ey]; decide

theorem attr_no_nl {s : Bytes} (h : AttrOK s) : replaceAll [NL] [SP] s = s := by
  refine replaceAll_id ?_
  intro hi
  have := h.chars NL (hi.subset (by simp))
  exact absurd this.1 (by decide)

section
variable {E : Env} (hE : EnvOK E)
include hE

omit hE in
theorem renderL_append (l s : Bool) (a b : List Node) : renderL E l s (a ++ b) = (renderL E l s a).bind fun x => (renderL E l s b).map (x ++ ·) := by
  induction a with
  | nil => simp [renderL]
  | cons n a ih =>
    rw [List.cons_append, renderL, renderL, ih]
    cases renderNode E l s n <;> cases renderL E l s a <;> cases renderL E l s b <;> simp

/-- A text. -/
theorem render_seg (k s : Bool) {v : Bytes} (hc : CharsOK v) (hn : Seen v) : renderL E k s (textNodes v) = some (encX (segX k v)) := by
  rw [textNodes]
  split
  · next h => subst h; cases k <;> rfl
  · rw [renderL, renderL, render_text_any hE]
    simp only [Option.bind_some, Option.map_some, List.append_nil, Option.some.injEq]
    cases k with
    | false => simp [linkTextTransform, segX, textX, enc_embed]
    | true =>
      have hwf : WF (textToks (entityReplace v)) := by
        have := (textX_seg hc hn).fine.wf
        rwa [textX, flat_embed] at this
      rw [linkTextTransform, if_pos rfl, Links.replaceClose_enc _ hwf, ← flat_close, enc_flat]; rfl

omit hE in
theorem content_line (hS : StyleOK (styleOf E)) (k : Bool) {ctx : List Around} {first : Bytes} {rest : List (Inl × Bytes)} (hin : InnerOK first rest)
    (hrest : RestOK (styleOf E) ctx (oneSpace first) rest) : LineOf (segX k (oneSpace first) ++ restX (styleOf E) k rest) := by
  have hr := rest_facts hS k rest hrest
  obtain ⟨q1, q2⟩ := content_leading hS (k := k) hin hrest
  exact line_of ((segX_seg k hin.chars (oneSpace_seen first)).fine.append hr.fine) q1 q2 (content_trailing hin.chars (oneSpace_seen first) hr hin.last)

omit hE in
theorem seen_last {t : Bytes} {rest : List (Inl × Bytes)} (h : NoTrailingWhitespace (oneSpace (lastText t rest))) : seenText t rest = oneSpace t := by
  cases rest with
  | nil =>
    rw [seenText]
    have : (oneSpace t).getLast? ≠ some 32 := trailing_last (by simpa [lastText] using h)
    simp only [shownLast]
    rw [if_neg this]
  | cons x rest => rfl

omit hE in
theorem last_nil {t : Bytes} {rest : List (Inl × Bytes)} (h : rest ≠ []) : lastText t rest = lastText [] rest := by
  rw [lastText, lastText]
  cases e : rest.getLast? with
  | none => exact absurd (List.getLast?_eq_none_iff.1 e) h
  | some x => rfl

mutual
/-- An element. -/
theorem render_inl : (i : Inl) → ∀ {ctx : List Around} {v1 v2 : Bytes}, i.OK (styleOf E) ctx v1 v2 → ∀ k s : Bool,
    renderNode E k s (treeInl i) = some (encX (inlX (styleOf E) k i))
  | .emph name first rest => by
    intro h k s
    rw [Inl.OK] at h
    obtain ⟨hem, hin, -, hrest⟩ := h
    have hl := content_line hE.style k hin hrest
    have hn := hem.tag
    have hb : isBoldOrItalic name = true := by
      simp only [List.mem_cons, List.not_mem_nil, or_false] at hn
      rcases hn with rfl | rfl | rfl | rfl <;> decide
    rw [treeInl, renderNode, hb]
    simp only [if_true]
    have e : renderL E k (s || isProblematicParent name) (textNodes (oneSpace first) ++ treeIn rest) =
        some (encX (segX k (oneSpace first) ++ restX (styleOf E) k rest)) := by
      rw [renderL_append, render_seg hE k _ hin.chars (oneSpace_seen first), encX_append]
      by_cases h0 : rest = []
      · subst h0; rw [treeIn, restX]; rfl
      · rw [render_in rest hrest (by rw [← last_nil (t := first) h0]; exact hin.trailing)]; rfl
    rw [e, delimiter_eq hE hn, Option.map_some, delimited_line hl.leading hl.trailing hl.nonempty hl.no_nl, inlX]
    simp only [encX_append, encX_raw, List.append_assoc]
  | .code c => by
    intro h k s
    rw [treeInl, renderNode]
    simp [isBoldOrItalic, isBold, isItalic, DomUtils.isInlineCode, codeText, codeTextL, inlX, encX_raw]
  | .link href title first rest => by
    intro h k s
    rw [Inl.OK] at h
    obtain ⟨ha, htt, -, hin, -, hrest⟩ := h
    have hl := content_line hE.style true hin hrest
    have e : ∀ k s, renderL E k s (textNodes (oneSpace first) ++ treeIn rest) =
        some (encX (segX k (oneSpace first) ++ restX (styleOf E) k rest)) := by
      intro k s
      rw [renderL_append, render_seg hE k _ hin.chars (oneSpace_seen first), encX_append]
      by_cases h0 : rest = []
      · subst h0; rw [treeIn, restX]; rfl
      · rw [render_in rest hrest (by rw [← last_nil (t := first) h0]; exact hin.trailing)]; rfl
    generalize hC : textNodes (oneSpace first) ++ treeIn rest = C at e
    generalize hX : segX true (oneSpace first) ++ restX (styleOf E) true rest = X at hl
    have e1 : ∀ s, renderL E true s C = some (encX X) := by intro s; rw [e, hX]
    have ehref : (Node.elem b!"a" ((b!"href", href) :: attrIf b!"title" title) C).attrOr b!"href" [] = href := by
      simp [Node.attrOr, Node.attr?]
    have etitle : (Node.elem b!"a" ((b!"href", href) :: attrIf b!"title" title) C).attrOr b!"title" [] = title := by
      by_cases h0 : title = []
      · simp [Node.attrOr, Node.attr?, attrIf, h0]
      · simp [Node.attrOr, Node.attr?, attrIf, h0]
    obtain ⟨o, hro⟩ : ∃ o, ∀ s, renderL E k s C = some o := ⟨_, fun s => e k s⟩
    have hc10 : (splitOn NL (encX X)) = [encX X] := splitOn_of_no_sep hl.no_nl
    have hcont : linkContent (encX X) = ([], encX X, []) := by
      rw [linkContent, surroundingSpaces_id hl.leading hl.trailing]
      simp only
      rw [trimConsecutiveNewlines, trimNewlines_line _ _ _ hl.no_nl, List.nil_append, escapeMultiLine, hc10]
      rfl
    have hlen : (trimSpace (encX X)).length ≠ 0 := by
      rw [trimSpace_id hl.leading hl.trailing]; simpa using hl.nonempty
    have hres : E.assemble href ≠ [] := ha.resolved
    have elink : ∀ x y : Bool, Commonmark.link x y (E.assemble href) title (encX X) =
        some (91 :: (encX X ++ linkEnd (E.assemble href) title)) := by
      intro x y
      rw [Commonmark.link, if_neg (fun h => hres h.1), if_neg (fun h => hlen h.1), attr_no_nl htt, hcont]
      simp [hres, linkEnd]
    have eboth : ∀ o, renderLink E (Node.elem b!"a" ((b!"href", href) :: attrIf b!"title" title) C) (encX X) o =
        91 :: (encX X ++ linkEnd (E.assemble href) title) := by
      intro o
      rw [renderLink, if_pos hE.inlined, ehref, etitle, trimSpace_id ha.leading ha.trailing, elink]; rfl
    rw [treeInl, hC, renderNode]
    simp only [isBoldOrItalic, isBold, isItalic, DomUtils.isInlineCode, isHeading]
    simp only [e1, hro, eboth]
    have e2 : encX (inlX (styleOf E) k (.link href title first rest)) = 91 :: (encX X ++ linkEnd (E.assemble href) title) := by
      have : inlX (styleOf E) k (.link href title first rest) = [.raw 91] ++ (X ++ rawX (linkEnd (E.assemble href) title)) := by
        rw [inlX, ← hX]; simp [styleOf]
      rw [this, encX_append, encX_append, encX_raw]; rfl
    rw [e2]
    simp
    exact eboth _
  | .image src title alt => by
    intro h k s
    rw [Inl.OK] at h
    obtain ⟨ha, htt, hal, -⟩ := h
    have ehref : (Node.elem b!"img" ((b!"src", src) :: (attrIf b!"title" title ++ attrIf b!"alt" alt)) []).attrOr b!"src" [] = src := by
      simp [Node.attrOr, Node.attr?]
    have etitle : (Node.elem b!"img" ((b!"src", src) :: (attrIf b!"title" title ++ attrIf b!"alt" alt)) []).attrOr b!"title" [] = title := by
      by_cases h0 : title = [] <;> by_cases h1 : alt = [] <;> simp [Node.attrOr, Node.attr?, attrIf, h0, h1]
    have ealt : (Node.elem b!"img" ((b!"src", src) :: (attrIf b!"title" title ++ attrIf b!"alt" alt)) []).attrOr b!"alt" [] = alt := by
      by_cases h0 : title = [] <;> by_cases h1 : alt = [] <;> simp [Node.attrOr, Node.attr?, attrIf, h0, h1]
    rw [treeInl, renderNode]
    simp only [isBoldOrItalic, isBold, isItalic, DomUtils.isInlineCode, isHeading, renderL, Option.map_some]
    rw [renderImage, ehref, etitle, ealt, image, trimSpace_id ha.leading ha.trailing]
    simp only [if_neg ha.nonempty, attr_no_nl htt, attr_no_nl hal, Option.getD_some]
    rw [inlX, encX_raw, linkEnd]
    simp [styleOf]

/-- Elements with texts behind them, in an element. -/
theorem render_in : (rest : List (Inl × Bytes)) → ∀ {ctx : List Around} {v1 : Bytes}, RestOK (styleOf E) ctx v1 rest →
    NoTrailingWhitespace (oneSpace (lastText [] rest)) → ∀ k s : Bool, renderL E k s (treeIn rest) = some (encX (restX (styleOf E) k rest))
  | [] => by intro _ _ k s; rw [treeIn, restX]; rfl
  | (i, t) :: rest => by
    intro h ht k s
    rw [lastText_cons] at ht
    have e := seen_last ht
    have hh := h.head
    rw [treeIn, renderL, render_inl i hh.elem, renderL_append, ← e, render_seg hE k s hh.chars (seenText_seen t rest), restX, encX_append, encX_append]
    by_cases h0 : rest = []
    · subst h0; rw [treeIn, restX]; simp [renderL, encX]
    · rw [render_in rest hh.next (by rw [← last_nil (t := t) h0]; exact ht)]
      simp
end

theorem render_rest : ∀ {rest : List (Inl × Bytes)} {ctx : List Around} {v1 : Bytes}, RestOK (styleOf E) ctx v1 rest →
    renderL E false false (treeRest shown rest) = some (encX (restX (styleOf E) false rest))
  | [], _, _, _ => by rw [restX]; rfl
  | [(i, t)], _, _, h => by
    rw [treeRest, renderL, render_inl hE i h.head.elem, restX, restX, List.append_nil, encX_append, seenText]
    by_cases ht : t = []
    · subst ht
      have : shownLast [] = [] := rfl
      rw [this, segX_nil]
      simp [renderL, encX]
    · rw [if_neg ht, renderL, renderL, render_text_any hE, lastOf_shown]
      simp [linkTextTransform, segX, textX, enc_embed]
  | (i, t) :: x :: rest, _, _, h => by
    have ih := render_rest h.head.next
    have hc : CharsOK (oneSpace t) := h.head.chars
    rw [treeRest, renderL, render_inl hE i h.head.elem, renderL_append, render_seg hE _ _ hc (oneSpace_seen t), ih]
    · have e : restX (styleOf E) false ((i, t) :: x :: rest) = inlX (styleOf E) false i ++ (segX false (oneSpace t) ++ restX (styleOf E) false (x :: rest)) := by
        rw [restX, seenText]
      rw [e, encX_append, encX_append]
      simp
    · simp

theorem render_rich {first : Bytes} {rest : List (Inl × Bytes)} (h : RichOK (styleOf E) first rest) :
    renderL E false false (textNodes (shownFirst first) ++ treeRest shown rest) = some (encX (richX (styleOf E) first rest)) := by
  rw [richX, encX_append, renderL_append, render_rest hE h.elements, render_seg hE _ _ h.chars (shownFirst_seen first)]
  simp [segX]

end

end Verif.Page
