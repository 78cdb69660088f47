import Verif.Proofs.PageRichRender
import Verif.Proofs.PageRichHeading
import Verif.Proofs.PageItems
import Verif.Proofs.PageQuoteLine
/-!
# Rendering a page: the pieces of each block
-/
namespace Verif.Page
open Verif Verif.Escape Verif.Spec Verif.Commonmark Verif.TextUtils Verif.Render Verif.DomUtils

theorem stock (E : Env) : IsStock E.isDigit (handlers E) := by
  rw [IsStock, handlers]
  split
  · exact .inr (.inl rfl)
  · exact .inl (by simp)

/-- The elements that have no renderer of their own. -/
def plainNames : List Bytes := [b!"p", b!"li", b!"html", b!"body"] ++ groupNames

theorem plain_block : ∀ n ∈ plainNames, n ∈ blockNames := by decide

theorem plain_facts : ∀ n ∈ plainNames, isBoldOrItalic n = false ∧ n ≠ b!"hr" ∧ n ≠ b!"br" ∧ n ≠ b!"ul" ∧ n ≠ b!"ol" ∧ n ≠ b!"pre" ∧
    DomUtils.isInlineCode n = false ∧ n ≠ b!"blockquote" ∧ isHeading n = false ∧ n ≠ b!"img" ∧ n ≠ b!"a" ∧ isStrike n = false ∧ n ≠ b!"table" ∧
    n ≠ b!"tr" ∧ isProblematicParent n = false := by decide

section
variable {E : Env} (hE : EnvOK E)

theorem render_append (l s : Bool) (a b : List Node) :
    renderL E l s (a ++ b) = (renderL E l s a).bind fun x => (renderL E l s b).map (x ++ ·) := by
  induction a with
  | nil => simp [renderL]
  | cons n a ih =>
    rw [List.cons_append, renderL, renderL, ih]
    cases renderNode E l s n with
    | none => rfl
    | some x =>
      cases renderL E l s a with
      | none => rfl
      | some y =>
        cases renderL E l s b with
        | none => rfl
        | some z => simp

theorem render_one (n : Node) : renderL E false false [n] = renderNode E false false n := by
  rw [renderL, renderL]
  cases renderNode E false false n <;> simp

include hE in
theorem render_plain {n : Bytes} (hn : n ∈ plainNames) (a : List (Bytes × Bytes)) (cs : List Node) :
    renderNode E false false (.elem n a cs) = (renderL E false false cs).map fun x => b!"\n\n" ++ x ++ b!"\n\n" := by
  obtain ⟨h1, h2, h3, h4, h5, h6, h7, h8, h9, h10, h11, h12, h13, h14, h15⟩ := plain_facts n hn
  rw [renderNode, h1, h7, h9, h12, h15]
  simp only [h2, h3, h4, h5, h6, h8, h10, h11, h13, h14, if_false, Bool.false_eq_true, or_self, false_and, Bool.or_false]
  congr 1
  funext x
  rw [fallback, isBlock_name hE.names (plain_block n hn), if_pos rfl]

include hE in
theorem render_text (v : Bytes) : renderNode E false false (.text v) = some (encToks (textToks (entityReplace v))) := by
  rw [renderNode, linkTextTransform, baseTextTransform, hE.smart, escapeContent, escapeLoop_eq]; rfl

/-! ## Lists do not follow each other -/

/-- The lists among pieces are apart; `sl` says that a list may be the first of it, `x` that a list follows. -/
structure Chain (x sl : Bool) (ps : List Piece) : Prop where
  apart : ListsApart ps
  last : x = true → ∀ p, ps.getLast? = some p → p.isList = false
  first : ∀ p, ps.head? = some p → p.isList = true → sl = true
  empty : ps = [] → sl = x

theorem Chain.nil (x : Bool) : Chain x x [] := ⟨trivial, by simp, by simp, fun _ => rfl⟩

theorem Chain.one (x : Bool) {p : Piece} (h : p.isList = false) : Chain x false [p] :=
  ⟨trivial, by simp [h], by simp [h], by simp⟩

theorem Chain.append {x y z : Bool} : ∀ {ps qs : List Piece}, Chain y z ps → Chain x y qs → Chain x z (ps ++ qs)
  | [], qs, h1, h2 => by
    have := h1.empty rfl
    subst this
    simpa using h2
  | [p], qs, h1, h2 => by
    refine ⟨?_, ?_, by simpa using h1.first, by simp⟩
    · cases qs with
      | nil => trivial
      | cons q qs =>
        refine ⟨?_, h2.apart⟩
        rintro ⟨a, b⟩
        have := h1.last (h2.first q rfl b) p rfl
        rw [a] at this; cases this
    · intro hx r hr
      cases qs with
      | nil => exact h1.last (by rw [h2.empty rfl, hx]) r hr
      | cons q qs => exact h2.last hx r (by simpa using hr)
  | p :: p' :: ps, qs, h1, h2 => by
    have ih := Chain.append (ps := p' :: ps) (z := p'.isList) (qs := qs)
      ⟨h1.apart.2, fun h r hr => h1.last h r (by simpa using hr), by simp, by simp⟩ h2
    refine ⟨⟨h1.apart.1, ih.apart⟩, fun hx r hr => ih.last hx r (by simpa using hr), by simpa using h1.first, by simp⟩

/-! ## Blocks -/

/-- What is rendered, as pieces; `one` and `q` are `oneLine` and `quotable` of the blocks. -/
structure Shows (E : Env) (a c : Nat) (x sl : Bool) (mds : List Md) (one q : Prop) (s : Bytes) (ps : List Piece) : Prop where
  laid : Laid a c (ps.map Piece.raw) s
  ok : ∀ p ∈ ps, p.OK (handlers E) E.cfg.bulletListMarker
  md : ps.flatMap Piece.md = mds
  seen : ps ≠ [] → mds ≠ []
  chain : Chain x sl ps
  flat : one → ∀ p ∈ ps, p.flat
  quoted : q → ∀ p ∈ ps, QOK (handlers E) E.cfg.bulletListMarker p

/-- A piece that is not a list. -/
theorem shows_one {x : Bool} {one q : Prop} {p : Piece} (hp : p.OK (handlers E) E.cfg.bulletListMarker) (hl : p.isList = false) (hm : p.md ≠ [])
    (hf : one → p.flat) (hq : q → QOK (handlers E) E.cfg.bulletListMarker p) :
    Shows E 2 2 x false p.md one q (b!"\n\n" ++ p.raw ++ b!"\n\n") [p] :=
  ⟨(Laid.one p.raw).wrap, by simpa using hp, by simp, fun _ => hm, Chain.one x hl, by simpa using hf, by simpa using hq⟩

theorem text_of {bullet t : Bytes} (h : TextOK bullet (shown t)) (hne : shown t ≠ []) : Text bullet (shown t) :=
  { toTextOK := h, toSeen := shown_seen t, nonempty := hne }

include hE in
/-- A text. -/
theorem shows_text {t : Bytes} (h : TextOK E.cfg.bulletListMarker (shown t)) (x : Bool) :
    ∃ s ps, renderL E false false (textIf shown t) = some s ∧
      Shows E 0 0 x (if shown t = [] then x else false) (if shown t = [] then [] else [.paragraph [.text (shown t)]]) True (NoStart (shown t)) s ps := by
  rw [textIf]
  by_cases hne : shown t = []
  · rw [if_pos hne, if_pos hne, if_pos hne]
    exact ⟨[], [], rfl, Laid.empty _ rfl, by simp, rfl, by simp, Chain.nil x, by simp, by simp⟩
  · rw [if_neg hne, if_neg hne, if_neg hne, render_one, render_text hE]
    refine ⟨_, [paraPiece (shown t)], rfl, Laid.one _, ?_, rfl, by simp, Chain.one x rfl, fun _ => ?_, fun hno => ?_⟩
    · simpa using para_ok (stock E) hE.digits hE.bullet (text_of h hne)
    · simpa using flat_text (text_of h hne)
    · simpa using qok_text (stock E) hE.bullet (text_of h hne) hno

/-- The element of a heading. -/
theorem render_level {n : Nat} (h1 : 1 ≤ n) (h6 : n ≤ 6) (cs : List Node) :
    renderNode E false false (.elem [104, UInt8.ofNat (48 + n)] [] cs) =
      (renderL E false false cs).bind (heading (E.cfg.headingStyle = b!"setext") n) := by
  have key : ∀ m, m = 1 ∨ m = 2 ∨ m = 3 ∨ m = 4 ∨ m = 5 ∨ m = 6 → ∀ k : Bytes, k = [104, UInt8.ofNat (48 + m)] →
      isBoldOrItalic k = false ∧ k ≠ b!"hr" ∧ k ≠ b!"br" ∧ k ≠ b!"ul" ∧ k ≠ b!"ol" ∧ k ≠ b!"pre" ∧
      DomUtils.isInlineCode k = false ∧ k ≠ b!"blockquote" ∧ isHeading k = true ∧ isProblematicParent k = false ∧ headingLevel k = m := by
    rintro m (rfl | rfl | rfl | rfl | rfl | rfl) k rfl <;> decide
  generalize hk : [104, UInt8.ofNat (48 + n)] = k
  obtain ⟨h1, h2, h3, h4, h5, h6, h7, h8, h9, h10, h11⟩ := key n (level_cases h1 h6) k hk.symm
  rw [renderNode, h1, h7, h9, h10, h11]
  simp only [h2, h3, h4, h5, h6, h8, if_false, Bool.false_eq_true, or_self, Bool.or_false, if_true]

include hE in
/-- A heading. -/
theorem shows_heading {n : Nat} {t : Bytes} (h : (Block.heading n t).OK (styleOf E)) (x : Bool) :
    ∃ s ps, renderL E false false (tree shown true x (.heading n t)) = some s ∧
      Shows E 2 2 x false ((Block.heading n t).md E.assemble) True (n < 3 → NoStart (shown t)) s ps := by
  rw [Block.OK] at h
  obtain ⟨h1, h6, hne, hok⟩ := h
  have ht := text_of hok hne
  have hnode : renderNode E false false (.elem [104, UInt8.ofNat (48 + n)] [] (textIf shown t)) =
      heading (E.cfg.headingStyle = b!"setext") n (encToks (textToks (entityReplace (shown t)))) := by
    rw [render_level h1 h6, textIf, if_neg hne, render_one, render_text hE]
    rfl
  have hlen : (trimSpace (encToks (textToks (entityReplace (shown t))))).length ≠ 0 := by
    have := (solid_line ht.enc_ne ht.enc_leading ht.enc_trailing (ht.enc_not (b := 10) (by decide) ht.u_nl) ht.enc_code)
    have hl := (Laid.one (encToks (textToks (entityReplace (shown t))))).clean (by simp) (by simpa using this)
    simpa using hl.1
  rw [tree, render_one, hnode, heading, if_neg hlen, Block.md, if_neg hne]
  by_cases hs : (decide (E.cfg.headingStyle = b!"setext") && decide (n < 3)) = true
  · rw [if_pos hs]
    have hn : n = 1 ∨ n = 2 := by
      simp at hs; omega
    obtain ⟨T, eT, hT⟩ := setext_heading (stock E) hE.digits hE.bullet ht n
    refine ⟨_, [⟨T, [.heading n [.text (shown t)]], false⟩], rfl, ?_⟩
    rw [eT]
    have hc : ¬ codeNewline <:+: (textToks (entityReplace (shown t))).map Prod.snd := by rw [ht.toks_snd]; exact ht.u_mark
    exact shows_one (setext_ok hn hT) rfl (by simp) (fun _ => flat_setext hT hc)
      (fun hno => qok_setext hn hT hc (para_quoted (stock E) hE.bullet ht (hno (by omega))))
  · rw [if_neg hs]
    obtain ⟨T, eT, hT⟩ := atx_heading (stock E) ht h1 h6
    refine ⟨_, [⟨T, [.heading n [.text (shown t)]], false⟩], eT, ?_⟩
    exact shows_one (atx_ok h1 hE.bullet hT) rfl (by simp) (fun _ => hT.code) (fun _ => qok_atx h1 (stock E) hE.bullet hT)

include hE in
/-- A heading with elements. -/
theorem shows_richHeading {n : Nat} {first : Bytes} {rest : List (Inl × Bytes)} (h : (Block.richHeading n first rest).OK (styleOf E)) (x : Bool) :
    ∃ s ps, renderL E false false (tree shown true x (.richHeading n first rest)) = some s ∧
      Shows E 2 2 x (startsList x [.richHeading n first rest]) ((Block.richHeading n first rest).md E.assemble) True (n < 3 → NoStart (shownFirst first)) s ps := by
  have one : ∀ {T : Toks} {md : List Span} {sl : Bool} {o q : Prop}, (Piece.mk T [.heading n md] false).OK (handlers E) E.cfg.bulletListMarker →
      (o → (Piece.mk T [.heading n md] false).flat) → (q → QOK (handlers E) E.cfg.bulletListMarker (Piece.mk T [.heading n md] false)) →
      Shows E 2 2 x sl [.heading n md] o q (b!"\n\n" ++ encToks T ++ b!"\n\n") [⟨T, [.heading n md], false⟩] := by
    intro T md sl o q hp hf hq
    exact ⟨(Laid.one (encToks T)).wrap, by simpa using hp, by simp, by simp, ⟨trivial, by simp, by simp, by simp⟩, by simpa using hf, by simpa using hq⟩
  rw [Block.OK] at h
  obtain ⟨h1, h6, hok, hh⟩ := h
  have hX : encX (richX (styleOf E) first rest) = encToks (flatX (richX (styleOf E) first rest)) := (enc_flat _).symm
  obtain ⟨r1, r2, r3, r4, r5⟩ := rich_enc hE.style hok
  have hlen : (trimSpace (encToks (flatX (richX (styleOf E) first rest)))).length ≠ 0 := by
    have hl := (Laid.one (encToks (flatX (richX (styleOf E) first rest)))).clean (by simp) (by simpa using solid_line r1 r2 r3 r4 r5)
    simpa using hl.1
  rw [tree, render_one, render_level h1 h6, render_rich hE hok, Option.bind_some, hX, heading, if_neg hlen, Block.md]
  by_cases hs : (decide (E.cfg.headingStyle = b!"setext") && decide (n < 3)) = true
  · rw [if_pos hs]
    have hn : n = 1 ∨ n = 2 := by
      simp at hs; omega
    obtain ⟨T, eT, hT⟩ := setext_rich (stock E) hE.digits hE.style hE.bullet hok n
    refine ⟨_, [⟨T, [.heading n (textSpans (shownFirst first) ++ spansRest E.assemble rest)], false⟩], rfl, ?_⟩
    rw [eT]
    exact one (setext_ok hn hT) (fun _ => flat_setext hT (rich_flat hE.style hok))
      (fun hno => qok_setext hn hT (rich_flat hE.style hok) (rich_quoted (stock E) hE.style hE.bullet hok (hno (by omega))))
  · rw [if_neg hs]
    obtain ⟨T, eT, hT⟩ := atx_rich (stock E) hE.style hok hh h1 h6
    refine ⟨_, [⟨T, [.heading n (textSpans (shownFirst first) ++ spansRest E.assemble rest)], false⟩], eT, ?_⟩
    exact one (atx_ok h1 hE.bullet hT) (fun _ => hT.code) (fun _ => qok_atx h1 (stock E) hE.bullet hT)

theorem lang_of {lang : Bytes} (h : ∀ b ∈ lang, isLetter b ∨ isDigit b ∨ b = 35 ∨ b = 43 ∨ b = 46 ∨ b = 95) :
    codeLanguage (b!"language-" ++ lang) = lang := by
  have hne : ∀ b ∈ lang, b ≠ 32 ∧ b ≠ 45 := by
    intro b hb
    have := h b hb
    revert this
    exact forall_u8 (P := fun b => (isLetter b ∨ isDigit b ∨ b = 35 ∨ b = 43 ∨ b = 46 ∨ b = 95) → b ≠ 32 ∧ b ≠ 45) (by decide +kernel) b
  have h32 : (32 : UInt8) ∉ b!"language-" ++ lang := by
    intro hm
    rcases List.mem_append.1 hm with hm | hm
    · revert hm; decide
    · exact (hne _ hm).1 rfl
  have hc : containsSub b!"language-" (b!"language-" ++ lang) = true := by
    simp [containsSub, List.isPrefixOf]
  have hd : ∀ l : Bytes, 45 ∉ l → dropFirst b!"lang-" l = l := by
    intro l
    induction l with
    | nil => intro _; rfl
    | cons b l ih =>
      intro hb
      rw [dropFirst, if_neg, ih (by simp at hb; exact hb.2)]
      intro hp
      rw [List.isPrefixOf_iff_prefix] at hp
      exact hb (hp.subset (by decide))
  rw [codeLanguage, splitOn_of_no_sep h32, List.find?_cons, hc]
  simp only [Bool.true_or]
  have : dropFirst b!"language-" (b!"language-" ++ lang) = lang := by
    show dropFirst b!"language-" (108 :: (b!"anguage-" ++ lang)) = lang
    rw [dropFirst, if_pos (by simp [List.isPrefixOf])]
    rfl
  rw [this, hd]
  exact fun hm => (hne _ hm).2 rfl

include hE in
/-- A code block. -/
theorem shows_code {lang c : Bytes} (h : CodeOK lang c) (x : Bool) :
    ∃ s ps, renderL E false false (tree shown true x (.code lang c)) = some s ∧
      Shows E 2 2 x false ((Block.code lang c).md E.assemble) ((codeLines c).length = 1) ((codeLines c).length = 1) s ps := by
  let code : Node := .elem b!"code" (if lang = [] then [] else [(b!"class", b!"language-" ++ lang)]) [.text c]
  have hcode : codeText (.elem b!"pre" [] [code]) = c := by
    simp [code, codeText, codeTextL]
  have hinfo : codeInfo [] (.elem b!"pre" [] [code]) = lang := by
    have e0 : codeLanguage [] = [] := by decide
    by_cases hl : lang = []
    · subst hl
      simp [code, codeInfo, codeInfoL, Node.attrOr, Node.attr?, e0]
    · have := lang_of h.lang_chars
      simp only [code, codeInfo, codeInfoL, Node.attrOr, Node.attr?, e0, if_neg hl]
      refine Eq.trans ?_ this
      simp [e0]
  have hnode : renderNode E false false (.elem b!"pre" [] [code]) = some (blockCode (E.cfg.codeBlockFence.headD 0) lang c) := by
    rw [renderNode, hcode, hinfo]
    simp [isBoldOrItalic, isBold, isItalic]
  have hfence : E.cfg.codeBlockFence.headD 0 = 96 ∨ E.cfg.codeBlockFence.headD 0 = 126 := by
    have := hE.fence
    simp only [List.mem_cons, List.not_mem_nil, or_false] at this
    rcases this with e | e <;> rw [e] <;> decide
  obtain ⟨n, code', hw, hn, hr, hb⟩ := Props.c19_fence (E.cfg.codeBlockFence.headD 0) lang c
  have hsub : code' <:+: c ∧ codeLines c = lines code' := by
    rcases hw with rfl | ⟨rfl, hl⟩
    · refine ⟨⟨[], [10], by simp⟩, ?_⟩
      rw [codeLines, if_pos (by simp)]; simp
    · exact ⟨List.infix_refl _, by rw [codeLines, if_neg hl]⟩
  have hok := code_ok (hs := handlers E) hE.bullet hfence hn h.lang_chars hr (fun hm => h.no_nul (hsub.1.subset hm))
    (fun hm => h.no_bell (hsub.1.subset hm)) (fun hm => h.no_cr (hsub.1.subset hm)) (fun hm => h.no_mark (hm.trans hsub.1))
  have hflat : (codeLines c).length = 1 → ¬ codeNewline <:+: Props.fencedBlock (E.cfg.codeBlockFence.headD 0) n lang (replaceAll [10] codeNewline code') := by
    intro h1
    rw [hsub.2, lines] at h1
    have h10 : 10 ∉ code' := by
      intro hm
      obtain ⟨a, b, rfl⟩ := List.append_of_mem hm
      rw [splitOn_append, List.length_append] at h1
      have ha := List.length_pos_iff.2 (splitOn_nonempty 10 a)
      have hb' := List.length_pos_iff.2 (splitOn_nonempty 10 b)
      omega
    have hid : replaceAll [10] codeNewline code' = code' := by
      apply replaceAll_id
      intro hi
      exact h10 (hi.subset (by simp))
    rw [hid, Props.fencedBlock]
    have hf : (239 : UInt8) ∉ List.replicate n (E.cfg.codeBlockFence.headD 0) := by
      intro hm
      have := (List.mem_replicate.1 hm).2
      rcases hfence with e | e <;> rw [e] at this <;> exact absurd this (by decide)
    have hlang : (239 : UInt8) ∉ lang := by
      intro hm
      have := h.lang_chars _ hm
      revert this; decide
    have no : ∀ l : Bytes, (239 : UInt8) ∉ l → ¬ codeNewline <:+: l := fun l hl hi => hl (hi.subset (by decide))
    intro hi
    have e : List.replicate n (E.cfg.codeBlockFence.headD 0) ++ lang ++ [10] ++ code' ++ [10] ++ List.replicate n (E.cfg.codeBlockFence.headD 0) =
        unl [List.replicate n (E.cfg.codeBlockFence.headD 0) ++ lang, code', List.replicate n (E.cfg.codeBlockFence.headD 0)] := by
      simp [unl]
    rw [e] at hi
    obtain ⟨l, h1, h2⟩ := code_unl hi
    simp only [List.mem_cons, List.not_mem_nil, or_false] at h1
    rcases h1 with rfl | rfl | rfl
    · exact no _ (by rw [List.mem_append, not_or]; exact ⟨hf, hlang⟩) h2
    · exact h.no_mark (h2.trans hsub.1)
    · exact no _ hf h2
  have := shows_one (x := x) hok rfl (by simp [rawPiece]) (fun h1 => flat_raw.2 (hflat h1)) (fun h1 => qok_raw hok (hflat h1))
  rw [rawPiece_raw, ← hb] at this
  rw [tree, render_one, Block.md]
  exact ⟨_, _, hnode, by rw [hsub.2] at this ⊢; exact this⟩

end

/-! ## Everything -/

section
variable {E : Env} (hE : EnvOK E)
include hE

/-- All blocks. -/
theorem shows :
    (∀ b : Block, b.OK (styleOf E) → ∀ x, ∃ s ps, renderL E false false (tree shown true x b) = some s ∧
      Shows E (if b.isText then 0 else 2) (if b.isText then 0 else 2) x (startsList x [b]) (b.md E.assemble) b.oneLine b.quotable s ps) ∧
    (∀ bs : List Block, BlocksOK (styleOf E) bs → textsApart bs = true → ∀ x, ∃ s ps,
      renderL E false false (treeL shown true x bs) = some s ∧
      Shows E (if bs.head?.any (!·.isText) then 2 else 0) 0 x (startsList x bs) (mdL E.assemble bs) (oneLineL bs) (quotableL bs) s ps) ∧
    (∀ is : List (List Block), Spec.ItemsOK (styleOf E) is → ∃ xs : List (Bytes × List Piece),
      renderEach E false false (treeItems shown true is) = some (xs.map Prod.fst) ∧ xs.length = is.length ∧
      Page.ItemsOK (handlers E) E.cfg.bulletListMarker xs ∧
      ((xs.filter (·.2 ≠ [])).map fun x => x.2.flatMap Piece.md) = mdItems E.assemble is ∧
      (oneLineItems is → ∀ x ∈ xs, ∀ p ∈ x.2, p.flat)) := by
  apply induct
  · intro t h x
    rw [Block.OK] at h
    obtain ⟨s, ps, e, hs⟩ := shows_text hE h x
    exact ⟨s, ps, by rw [tree]; exact e, by rw [Block.md, Block.oneLine, Block.quotable]; simpa [Block.isText, startsList] using hs⟩
  · intro first rest h x
    rw [Block.OK] at h
    have hp := rich_ok (stock E) hE.digits hE.style hE.bullet h
    refine ⟨_, [richPiece (styleOf E) first rest], by rw [tree, render_rich hE h], ?_⟩
    have hraw : (richPiece (styleOf E) first rest).raw = encX (richX (styleOf E) first rest) := enc_flat _
    refine ⟨?_, by simpa using hp, by rw [Block.md]; rfl, by rw [Block.md]; simp, ?_, fun _ => ?_, fun hq => ?_⟩
    · rw [List.map_cons, hraw]
      exact Laid.one _
    · exact ⟨trivial, by simp [richPiece], by simp [richPiece], by simp⟩
    · intro p hp
      rw [List.mem_singleton.1 hp]
      exact rich_flat hE.style h
    · rw [Block.quotable] at hq
      simpa using qok_rich (stock E) hE.style hE.bullet h hq
  · intro t h x
    rw [Block.OK] at h
    obtain ⟨s, ps, e, hs⟩ := shows_text hE h x
    refine ⟨_, ps, by rw [tree, render_one, render_plain hE (by decide), e]; rfl, ?_⟩
    rw [Block.md]
    refine ⟨?_, hs.ok, hs.md, hs.seen, by simpa [startsList] using hs.chain, fun _ => hs.flat trivial, fun hq => hs.quoted (by rwa [Block.quotable] at hq)⟩
    exact hs.laid.wrap
  · intro first rest h x
    rw [Block.OK] at h
    have hp := rich_ok (stock E) hE.digits hE.style hE.bullet h
    refine ⟨_, [richPiece (styleOf E) first rest], by
      rw [tree, render_one, render_plain hE (by decide), render_rich hE h]; rfl, ?_⟩
    have hraw : (richPiece (styleOf E) first rest).raw = encX (richX (styleOf E) first rest) := enc_flat _
    have hlaid := (Laid.one (richPiece (styleOf E) first rest).raw).wrap
    rw [hraw] at hlaid
    refine ⟨?_, by simpa using hp, by rw [Block.md]; rfl, by rw [Block.md]; simp, ?_, fun _ => ?_, fun hq => ?_⟩
    · rw [List.map_cons, hraw]
      exact hlaid
    · exact ⟨trivial, by simp [richPiece], by simp [richPiece], by simp⟩
    · intro p hp
      rw [List.mem_singleton.1 hp]
      exact rich_flat hE.style h
    · rw [Block.quotable] at hq
      simpa using qok_rich (stock E) hE.style hE.bullet h hq
  · intro n t h x
    obtain ⟨s, ps, e, hs⟩ := shows_heading hE h x
    exact ⟨s, ps, e, by rw [Block.oneLine, Block.quotable]; simpa [Block.isText, startsList] using hs⟩
  · intro n first rest h x
    obtain ⟨s, ps, e, hs⟩ := shows_richHeading hE h x
    exact ⟨s, ps, e, by rw [Block.oneLine, Block.quotable]; simpa [Block.isText] using hs⟩
  · intro h x
    refine ⟨divider E.cfg.horizontalRule, [rawPiece E.cfg.horizontalRule [.rule] false], ?_, ?_⟩
    · rw [tree, render_one, renderNode]
      simp [isBoldOrItalic, isBold, isItalic]
    · have hok := rule_ok (hs := handlers E) hE.bullet hE.rule
      have hc : ¬ codeNewline <:+: E.cfg.horizontalRule := by
        intro hi
        have := hE.rule.bytes 239 (hi.subset (by decide))
        revert this; decide
      have := shows_one (x := x) (one := True) (q := True) hok rfl (by simp [rawPiece]) (fun _ => flat_raw.2 hc) (fun _ => qok_raw hok hc)
      rw [rawPiece_raw] at this
      rw [Block.md, Block.oneLine, Block.quotable]
      simpa [Block.isText, startsList, divider, rawPiece] using this
  · intro l c h x
    rw [Block.OK] at h
    obtain ⟨s, ps, e, hs⟩ := shows_code hE h x
    exact ⟨s, ps, e, by rw [Block.oneLine, Block.quotable]; simpa [Block.isText, startsList] using hs⟩
  · intro n bs ih h x
    rw [Block.OK] at h
    obtain ⟨s, ps, e, hs⟩ := ih h.2.2 h.2.1 x
    refine ⟨_, ps, by rw [tree, render_one, render_plain hE (List.mem_append_right _ h.1), e]; rfl, ?_⟩
    rw [Block.md]
    refine ⟨?_, hs.ok, hs.md, hs.seen, by simpa [startsList] using hs.chain, fun h1 => hs.flat (by rwa [Block.oneLine] at h1),
      fun hq => hs.quoted (by rwa [Block.quotable] at hq)⟩
    exact hs.laid.wrap.weaken (by simp [Block.isText]) (by simp [Block.isText])
  · intro bs ih h x
    rw [Block.OK] at h
    obtain ⟨hta, hbs, hmd, hq⟩ := h
    have hmd : mdL E.assemble bs ≠ [] := hmd
    obtain ⟨s, ps, e, hs⟩ := ih hbs hta x
    have hne : ps ≠ [] := by
      rintro rfl
      exact hmd hs.md.symm
    obtain ⟨q1, q2⟩ := quote_ok (stock E) hE.bullet hne hs.ok (hs.quoted hq) hs.chain.apart
    obtain ⟨c1, c2⟩ := hs.laid.clean (by simpa using hne) (by
      intro r hr
      obtain ⟨p, hp, rfl⟩ := List.mem_map.1 hr
      exact (hs.ok p hp).raw)
    have hraw : (quotePiece ps).raw = prefixLines (glue (ps.map Piece.raw)) [62, 32] := by
      rw [quotePiece, Piece.raw, enc_quote, enc_join]
    have hnode : renderNode E false false (.elem b!"blockquote" [] (treeL shown true x bs)) = some (b!"\n\n" ++ (quotePiece ps).raw ++ b!"\n\n") := by
      rw [renderNode]
      have h1 : isBoldOrItalic b!"blockquote" = false ∧ isProblematicParent b!"blockquote" = false := by decide
      rw [h1.1, h1.2, Bool.or_false, e, hraw, ← c2]
      simp [DomUtils.isInlineCode, blockquote, c1]
    refine ⟨_, [quotePiece ps], by rw [tree, render_one]; exact hnode, (Laid.one (quotePiece ps).raw).wrap, by simpa using q1, ?_, ?_,
      ⟨trivial, by simp [quotePiece], by simp [quotePiece], by simp⟩, fun _ => by simpa using (show (quotePiece ps).flat from q2.plain), fun _ => by simpa using q2⟩
    · rw [Block.md, if_neg hmd]
      simp [quotePiece, hs.md]
    · rw [Block.md, if_neg hmd]
      simp
  · intro k g is ih h x
    rw [Block.OK] at h
    obtain ⟨-, hk, hmd, hit⟩ := h
    have hmd : mdItems E.assemble is ≠ [] := hmd
    obtain ⟨xs, e, hlen, hok, hms, hxf⟩ := ih hit
    have hne : xs.filter (·.2 ≠ []) ≠ [] := by
      intro h0
      rw [h0] at hms
      exact hmd hms.symm
    obtain ⟨ordered, start, hst, hord, hfst, h9⟩ : ∃ (ordered : Bool) (start : Nat), startAt (Node.attr? b!"start" (.elem k.tag k.attrs (treeItems shown true is))) = start ∧
        decide (k.tag ≠ b!"ul") = ordered ∧ k.first = (if ordered then some start else none) ∧ (ordered = true → start + xs.length ≤ 10 ^ 9) := by
      rw [hlen]
      match k, hk with
      | .bullet, _ => exact ⟨false, 1, by simp [ListKind.attrs, Node.attr?]; decide, by decide, rfl, by simp⟩
      | .ordered none, hk =>
        refine ⟨true, 1, by simp [ListKind.attrs, Node.attr?]; decide, by simp [ListKind.tag], rfl, fun _ => ?_⟩
        have hk' : is.length < 10 ^ 9 := hk
        omega
      | .ordered (some s), hk =>
        simp only [ListKind.OK] at hk
        refine ⟨true, decimalValue s, ?_, by simp [ListKind.tag], rfl, fun _ => hk.2⟩
        have := Props.c34_start s hk.1 (by omega)
        simpa [ListKind.attrs, Node.attr?] using this
    obtain ⟨p, hp, hpl, hpq, hpm, hpe⟩ := list_ok (stock E) hE.d0 hE.d10 hE.bullet ordered xs hok hne h9
    have hnode : renderNode E false false (.elem k.tag k.attrs (treeItems shown true is)) = some (b!"\n\n" ++ p.raw ++ b!"\n\n") := by
      have htag : k.tag = b!"ul" ∨ k.tag = b!"ol" := by cases k <;> simp [ListKind.tag]
      have h1 : isBoldOrItalic k.tag = false ∧ k.tag ≠ b!"hr" ∧ k.tag ≠ b!"br" ∧ isProblematicParent k.tag = false := by
        rcases htag with e | e <;> rw [e] <;> decide
      rw [renderNode, h1.1, h1.2.2.2, hst, hord, Bool.or_false, e]
      simp only [h1.2.1, h1.2.2.1, htag, if_true, if_false, Bool.false_eq_true]
      rw [hE.smart, Option.map_some, hpe]
    rw [hms, ← hfst] at hpm
    have hmk : (Block.list k g is).md E.assemble = p.md := by rw [Block.md, if_neg hmd, hpm]
    have hlaid := (Laid.one p.raw).wrap
    have hmne : p.md ≠ [] := by rw [hpm]; simp
    rw [tree, hmk]
    simp only [Bool.true_and, Block.isText, startsList, Block.oneLine, Block.quotable]
    cases x with
    | false =>
      refine ⟨_, [p], by simp only [Bool.false_eq_true, if_false]; rw [render_one]; exact hnode, hlaid, by simpa using hp, by simp, fun _ => hmne, ?_,
        fun h1 => by simpa using (show p.flat from (hpq (hxf h1)).plain), fun h1 => by simpa using hpq (hxf h1)⟩
      exact ⟨trivial, by simp, by simp, by simp⟩
    | true =>
      have hc := (Laid.one b!"<!--THE END-->").wrap
      have hcc : ¬ codeNewline <:+: b!"<!--THE END-->" := fun hi => absurd (hi.subset (show 239 ∈ codeNewline by decide)) (by decide)
      refine ⟨_, [p, rawPiece b!"<!--THE END-->" [] false], ?_, hlaid.append hc (.inr (.inr (by decide))), ?_, by simp [rawPiece], fun _ => hmne, ?_, ?_, ?_⟩
      · simp only [if_true]
        rw [renderL, hnode, render_one, renderNode, renderComment]
        simp
      · intro q hq
        simp only [List.mem_cons, List.not_mem_nil, or_false] at hq
        rcases hq with rfl | rfl
        · exact hp
        · exact comment_ok hE.bullet
      · exact ⟨⟨by simp [rawPiece], trivial⟩, by simp [rawPiece], by simp, by simp⟩
      · intro h1 q hq
        simp only [List.mem_cons, List.not_mem_nil, or_false] at hq
        rcases hq with rfl | rfl
        · exact (hpq (hxf h1)).plain
        · exact flat_raw.2 hcc
      · intro h1 q hq
        simp only [List.mem_cons, List.not_mem_nil, or_false] at hq
        rcases hq with rfl | rfl
        · exact hpq (hxf h1)
        · exact qok_raw (comment_ok hE.bullet) hcc
  · intro _ _ x
    exact ⟨[], [], rfl, Laid.empty _ rfl, by simp, rfl, by simp, by rw [startsList]; exact Chain.nil x, by simp, by simp⟩
  · intro b bs h1 h2 h ht x
    rw [BlocksOK] at h
    have ht' : textsApart bs = true := by
      cases bs with
      | nil => rfl
      | cons c bs => simp only [textsApart, Bool.and_eq_true] at ht; exact ht.2
    obtain ⟨s1, ps1, e1, hs1⟩ := h1 h.1 (startsList x bs)
    obtain ⟨s2, ps2, e2, hs2⟩ := h2 h.2 ht' x
    refine ⟨s1 ++ s2, ps1 ++ ps2, by rw [treeL, render_append, e1, e2]; rfl, ?_, ?_, ?_, ?_, ?_, ?_, ?_⟩
    · rw [List.map_append]
      refine (hs1.laid.append hs2.laid ?_).weaken (by cases b <;> simp [Block.isText]) (Nat.le_refl _)
      cases hb : b.isText with
      | false => right; right; simp
      | true =>
        cases bs with
        | nil =>
          right; left
          have := hs2.seen
          simp [mdL] at this
          simp [this]
        | cons c bs =>
          right; right
          simp only [textsApart, Bool.and_eq_true, hb] at ht
          have := ht.1
          simp at this
          simp [this]
    · intro p hp
      rcases List.mem_append.1 hp with hp | hp
      · exact hs1.ok p hp
      · exact hs2.ok p hp
    · rw [List.flatMap_append, hs1.md, hs2.md, mdL]
    · intro hne
      rw [mdL]
      intro hm
      obtain ⟨m1, m2⟩ := List.append_eq_nil_iff.1 hm
      have a1 : ps1 = [] := Classical.byContradiction fun h => hs1.seen h m1
      have a2 : ps2 = [] := Classical.byContradiction fun h => hs2.seen h m2
      exact hne (by rw [a1, a2]; rfl)
    · rw [startsList_cons]
      exact hs1.chain.append hs2.chain
    · intro h1 p hp
      rw [oneLineL] at h1
      rcases List.mem_append.1 hp with hp | hp
      · exact hs1.flat h1.1 p hp
      · exact hs2.flat h1.2 p hp
    · intro h1 p hp
      rw [quotableL] at h1
      rcases List.mem_append.1 hp with hp | hp
      · exact hs1.quoted h1.1 p hp
      · exact hs2.quoted h1.2 p hp
  · intro _
    exact ⟨[], rfl, rfl, ⟨by simp, by simp, by simp⟩, rfl, by simp⟩
  · intro i is h1 h2 h
    rw [Spec.ItemsOK] at h
    obtain ⟨s, ps, e, hs⟩ := h1 h.2.1 h.1 false
    obtain ⟨xs, e', hlen, hok, hms, hxf⟩ := h2 h.2.2
    refine ⟨(b!"\n\n" ++ s ++ b!"\n\n", ps) :: xs, ?_, by simp [hlen], ⟨?_, ?_, ?_⟩, ?_, ?_⟩
    · rw [treeItems, renderEach, render_plain hE (by decide), e, e']; rfl
    · intro y hy
      rcases List.mem_cons.1 hy with rfl | hy
      · exact ⟨_, _, hs.laid.wrap⟩
      · exact hok.laid y hy
    · intro y hy
      rcases List.mem_cons.1 hy with rfl | hy
      · exact hs.ok
      · exact hok.ok y hy
    · intro y hy
      rcases List.mem_cons.1 hy with rfl | hy
      · exact hs.chain.apart
      · exact hok.apart y hy
    · rw [mdItems, List.filter_cons]
      by_cases hps : ps = []
      · have : mdL E.assemble i = [] := by rw [← hs.md, hps]; rfl
        rw [if_pos this, if_neg (by simp [hps]), hms]
      · have := hs.seen hps
        rw [if_neg this, if_pos (by simp [hps]), List.map_cons, hms, hs.md]
    · intro h1 y hy
      rw [oneLineItems] at h1
      rcases List.mem_cons.1 hy with rfl | hy
      · exact hs.flat h1.1
      · exact hxf h1.2 y hy

end

end Verif.Page
