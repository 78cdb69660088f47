import Verif.Spec.BlockSections
import Verif.Proofs.CutPair
import Verif.Props.TitleSections
/-!
# C102: a paragraph separates a document
-/
set_option linter.unusedSimpArgs false

namespace Verif.Props
open Verif Verif.Render Verif.Spec Verif.DomUtils Verif.Commonmark Verif.Cut Verif.TextUtils

/-! ## What is rendered -/

theorem sharp_entity {c : Bytes} (h : Sharp c) : Sharp (entityReplace c) := by
  obtain ⟨h1, b, s, rfl, hb⟩ := h
  refine ⟨solid_entity h1, ?_⟩
  by_cases h2 : b = 60
  · subst h2; exact ⟨38, _, rfl, by decide⟩
  · by_cases h3 : b = 62
    · subst h3; exact ⟨38, _, rfl, by decide⟩
    · exact ⟨b, _, _root_.Verif.Page.entityReplace_other h2 h3 s, hb⟩

theorem sharp_escape (isMd : Nat → Bool) {c : Bytes} (h : Sharp c) : Sharp (Escape.escapeLoop isMd c) := by
  obtain ⟨h1, b, s, rfl, hb⟩ := h
  refine ⟨solid_escape isMd h1, ?_⟩
  rw [Escape.escapeLoop]
  split
  · exact ⟨239, _, rfl, by decide⟩
  · split
    · exact ⟨MARK, _, rfl, by decide⟩
    · exact ⟨b, _, rfl, hb⟩

theorem escapeLoop_behind (isMd : Nat → Bool) (c : Bytes) : ∀ x : Bytes, ∃ x', Escape.escapeLoop isMd (x ++ c) = x' ++ Escape.escapeLoop isMd c := by
  intro x
  induction x with
  | nil => exact ⟨[], rfl⟩
  | cons b x ih =>
    obtain ⟨x', e⟩ := ih
    rw [List.cons_append, Escape.escapeLoop, e]
    split
    · exact ⟨b!"�" ++ x', by simp⟩
    · split
      · exact ⟨MARK :: b :: x', by simp⟩
      · exact ⟨b :: x', by simp⟩

/-- A text that ends with a character that is no white space is rendered so. -/
theorem closed_text (mode : Escape.Mode) {d : Bytes} (h : Closed d) (X : Bytes) : Solid (X ++ baseTextTransform mode Escape.isCommonmarkChar d) := by
  obtain ⟨x, c, rfl, hc, -⟩ := h
  have h1 := sharp_entity hc
  rw [baseTextTransform, _root_.Verif.Page.entityReplace_append]
  cases mode with
  | disabled =>
    show Solid (X ++ (entityReplace x ++ entityReplace c))
    rw [← List.append_assoc]
    exact h1.solid _
  | smart =>
    obtain ⟨x', e⟩ := escapeLoop_behind Escape.isCommonmarkChar (entityReplace c) (entityReplace x)
    show Solid (X ++ Escape.escapeLoop _ _)
    rw [e, ← List.append_assoc]
    exact (sharp_escape _ h1).solid _

/-- The end is a part without spaces and newlines that no white space character can end with, whatever comes before it. -/
def Tight (s : Bytes) : Prop := ∃ x c, s = x ++ c ∧ Sharp c ∧ ∀ b ∈ c, Firm b

theorem Tight.solid {s : Bytes} (h : Tight s) : Solid s := by
  obtain ⟨x, c, rfl, hc, -⟩ := h
  exact hc.solid x

theorem Tight.behind {s : Bytes} (h : Tight s) (x : Bytes) : Tight (x ++ s) := by
  obtain ⟨y, c, rfl, hc⟩ := h
  exact ⟨x ++ y, c, by simp, hc⟩

theorem firm_entity {c : Bytes} (h : ∀ b ∈ c, Firm b) : ∀ b ∈ entityReplace c, Firm b := by
  induction c with
  | nil => intro b hb; simp [entityReplace, replaceBytes] at hb
  | cons d c ih =>
    intro b hb
    have ih := ih fun b hb => h b (by simp [hb])
    rw [← List.singleton_append, _root_.Verif.Page.entityReplace_append] at hb
    rcases List.mem_append.1 hb with hb | hb
    · by_cases h2 : d = 60
      · subst h2
        exact (by unfold Firm; decide : ∀ b ∈ entityReplace [60], Firm b) b hb
      · by_cases h3 : d = 62
        · subst h3
          exact (by unfold Firm; decide : ∀ b ∈ entityReplace [62], Firm b) b hb
        · rw [_root_.Verif.Page.entityReplace_other h2 h3] at hb
          simp only [entityReplace, replaceBytes, List.flatMap_nil, List.mem_cons, List.not_mem_nil, or_false] at hb
          rw [hb]
          exact h d (by simp)
    · exact ih b hb

theorem firm_escape (isMd : Nat → Bool) {c : Bytes} (h : ∀ b ∈ c, Firm b) : ∀ b ∈ Escape.escapeLoop isMd c, Firm b := by
  induction c with
  | nil => intro b hb; simp [Escape.escapeLoop] at hb
  | cons d c ih =>
    have ih := ih fun b hb => h b (by simp [hb])
    have hd := h d (by simp)
    intro b hb
    rw [Escape.escapeLoop] at hb
    split at hb
    · rcases List.mem_append.1 hb with hb | hb
      · exact (by unfold Firm; decide : ∀ b ∈ b!"�", Firm b) b hb
      · exact ih b hb
    · split at hb
      · simp only [List.mem_cons] at hb
        rcases hb with rfl | rfl | hb
        · unfold Firm; decide
        · exact hd
        · exact ih b hb
      · simp only [List.mem_cons] at hb
        rcases hb with rfl | hb
        · exact hd
        · exact ih b hb

theorem closed_tight (mode : Escape.Mode) {d : Bytes} (h : Closed d) : Tight (baseTextTransform mode Escape.isCommonmarkChar d) := by
  obtain ⟨x, c, rfl, hc, hf⟩ := h
  have h1 := sharp_entity hc
  have h2 := firm_entity fun b hb => (show Firm b from ⟨by rintro rfl; exact absurd (hf _ hb) (by decide), by rintro rfl; exact absurd (hf _ hb) (by decide)⟩)
  rw [baseTextTransform, _root_.Verif.Page.entityReplace_append]
  cases mode with
  | disabled => exact ⟨_, _, rfl, h1, h2⟩
  | smart =>
    obtain ⟨x', e⟩ := escapeLoop_behind Escape.isCommonmarkChar (entityReplace c) (entityReplace x)
    exact ⟨x', _, e, sharp_escape _ h1, firm_escape _ h2⟩

/-! ## Quotes -/

theorem firm_newline {c : Bytes} (h : ∀ b ∈ c, Firm b) : NL ∉ c := fun hb => (h _ hb).1 rfl

theorem firm_tidy {c : Bytes} (h : ∀ b ∈ c, Firm b) : trimUnnecessaryHardLineBreaks c = c := by
  have no : ∀ o : Bytes, NL ∈ o → ¬ o <:+: c := fun o ho hi => firm_newline h (hi.subset ho)
  simp only [trimUnnecessaryHardLineBreaks]
  rw [replaceAll_id (no _ (by decide)), replaceAll_id (no _ (by decide)), replaceAll_id (no _ (by decide))]

theorem firm_tidied {c : Bytes} (h : ∀ b ∈ c, Firm b) (hne : c ≠ []) (x : Bytes) :
    ∃ x', trimUnnecessaryHardLineBreaks (trimConsecutiveNewlines (x ++ c)) = x' ++ c := by
  cases c with
  | nil => exact absurd rfl hne
  | cons d c =>
    have hd := h d (by simp)
    have hc : ∀ b ∈ c, Firm b := fun b hb => h b (by simp [hb])
    obtain ⟨y, e⟩ := newlines_ends hd x 0 []
    obtain ⟨z, e'⟩ := breaks_ends hd y
    refine ⟨z, ?_⟩
    rw [trimConsecutiveNewlines, show x ++ d :: c = x ++ [d] ++ c by simp, newlines_behind hd, e, newlines_line c 0 [] (firm_newline hc), List.nil_append,
      breaks_behind hd, e', firm_tidy hc]
    simp

theorem prefix_append (r y : Bytes) : ∀ x : Bytes, prefixLinesGo r (x ++ y) = prefixLinesGo r x ++ prefixLinesGo r y := by
  intro x
  induction x with
  | nil => rfl
  | cons b x ih => simp only [List.cons_append, prefixLinesGo, ih]; split <;> simp

theorem prefix_line (r : Bytes) : ∀ c : Bytes, NL ∉ c → prefixLinesGo r c = c := by
  intro c
  induction c with
  | nil => intro _; rfl
  | cons b c ih =>
    intro h
    simp only [List.mem_cons, not_or] at h
    rw [prefixLinesGo, if_neg (fun e => h.1 e.symm), ih h.2]

/-- What comes behind a space is as solid as alone. -/
theorem solid_space {t : Bytes} (h : Solid t) (x : Bytes) : Solid (x ++ SP :: t) := by
  refine ⟨by simp, fun w hw hs => ?_⟩
  by_cases hl : w.length ≤ t.length
  · have ht : t <:+ x ++ SP :: t := ⟨x ++ [SP], by simp⟩
    exact h.2 w hw (List.suffix_of_suffix_length_le hs ht hl)
  · have ht : SP :: t <:+ x ++ SP :: t := ⟨x, rfl⟩
    have hsub := List.suffix_of_suffix_length_le ht hs (by simp; omega)
    rcases ws_space w hw with rfl | hsp
    · have := hsub.length_le
      simp only [List.length_cons, List.length_nil] at this
      exact h.1 (List.length_eq_zero_iff.1 (by omega))
    · exact hsp (hsub.subset (by simp))

/-- A quote begins with its sign, and its end is the end of the content. -/
theorem quote_shape {s : Bytes} (h : Tight s) : ∃ q, Solid (62 :: q) ∧ blockquote s = b!"\n\n" ++ 62 :: q ++ b!"\n\n" := by
  have ht := solid_trim h.solid
  have hsuf : trimSpace s <:+ s := by
    rw [trimSpace, trimRight_eq h.solid.trimLeft.2]
    obtain ⟨l, -, e, -⟩ := trimLeft_spec s
    exact ⟨l, e.symm⟩
  rw [blockquote]
  generalize trimSpace s = t at ht hsuf
  simp only [ht.1, if_false]
  obtain ⟨x, c, rfl, hc, hf⟩ := h
  have hcs : c <:+ x ++ c := ⟨x, rfl⟩
  by_cases hl : c.length ≤ t.length
  · obtain ⟨y, rfl⟩ := List.suffix_of_suffix_length_le hcs hsuf hl
    obtain ⟨z, e⟩ := firm_tidied hf hc.1.1 y
    rw [e, prefixLines, prefix_append, prefix_line _ c (firm_newline hf)]
    refine ⟨SP :: (prefixLinesGo [62, SP] z ++ c), ?_, by simp⟩
    exact hc.solid (62 :: SP :: prefixLinesGo [62, SP] z)
  · have hsub := List.suffix_of_suffix_length_le hsuf hcs (by omega)
    have hft : ∀ b ∈ t, Firm b := fun b hb => hf b (hsub.subset hb)
    rw [trimConsecutiveNewlines, newlines_line t 0 [] (firm_newline hft), List.nil_append, firm_tidy hft, prefixLines, prefix_line _ t (firm_newline hft)]
    exact ⟨SP :: t, solid_space ht [62], by simp⟩

theorem blockName_sep {n : Bytes} (hn : BlockName n) : SepName n := by
  rcases hn with h | rfl | h
  · exact sepName_of (List.mem_cons_of_mem _ (List.mem_cons_of_mem _ h))
  · exact ⟨⟨by decide, by decide, by decide, by decide, by decide, by decide, by decide, by decide⟩, by decide⟩
  · exact (fine_of h).sep

/-- What is rendered for a paragraph, a heading or a quote. -/
theorem render_inner (E : Env) (stuck : Bool) {n : Bytes} (hn : BlockName n) (hb : E.tables.isBlock n = true) (a : List (Bytes × Bytes)) {cs : List Node}
    {r : Bytes} (e : renderNode E false stuck (.elem n a cs) = some r) :
    ∃ l, renderL E false (stuck || isProblematicParent n) cs = some l ∧
      ((∃ setext level, 1 ≤ level ∧ heading setext level l = some r) ∨ r = blockquote l ∨ r = b!"\n\n" ++ l ++ b!"\n\n") := by
  rcases hn with h | rfl | h
  · have names : ∀ n ∈ [b!"h1", b!"h2", b!"h3", b!"h4", b!"h5", b!"h6"], isBoldOrItalic n = false ∧ n ≠ b!"hr" ∧ n ≠ b!"br" ∧ ¬ (n = b!"ul" ∨ n = b!"ol") ∧ n ≠ b!"pre" ∧
        DomUtils.isInlineCode n = false ∧ n ≠ b!"blockquote" ∧ isHeading n = true ∧ 1 ≤ headingLevel n := by decide +kernel
    obtain ⟨n1, n2, n3, n4, n5, n6, n7, n8, n9⟩ := names n h
    rw [renderNode] at e
    simp only [n1, n2, n3, n4, n5, n6, n7, n8, if_false, if_true, Bool.false_eq_true, false_and] at e
    obtain ⟨l, hl, e⟩ := Option.bind_eq_some_iff.1 e
    exact ⟨l, hl, .inl ⟨_, _, n9, e⟩⟩
  · rw [renderNode, if_neg (by decide), if_neg (by decide), if_neg (by decide), if_neg (by decide), if_neg (by decide), if_neg (by decide), if_pos rfl] at e
    obtain ⟨l, hl, e⟩ := Option.map_eq_some_iff.1 e
    exact ⟨l, hl, .inr (.inl e.symm)⟩
  · have n1 : isBoldOrItalic n = false := (fine_of h).bold
    have n6 : DomUtils.isInlineCode n = false := (fine_of h).code
    have n11 : isStrike n = false := (fine_of h).strike
    have n14 : isRemoved n = false := (fine_of h).kept
    simp only [markdownNames, List.mem_cons, List.not_mem_nil, or_false, not_or] at h
    have n8 : isHeading n = false := by simp [isHeading, h]
    rw [renderNode] at e
    simp only [n1, n6, n8, n11, h, if_false, Bool.false_eq_true, false_and, or_self] at e
    obtain ⟨l, hl, e⟩ := Option.map_eq_some_iff.1 e
    exact ⟨l, hl, .inr (.inr (by rw [← e, fallback, isBlock, n14, hb]; rfl))⟩

/-- A paragraph, a heading or a quote is rendered as a block. -/
theorem render_block (E : Env) (stuck : Bool) {n : Bytes} (hn : BlockName n) (hb : E.tables.isBlock n = true) (a : List (Bytes × Bytes)) {cs : List Node} {F : Bytes → Prop} (hc : Frame ⟨F, Closed⟩ cs)
    {r : Bytes} (e : renderNode E false stuck (.elem n a cs) = some r) : ∃ core, Solid core ∧ r = b!"\n\n" ++ core ++ b!"\n\n" := by
  obtain ⟨l, hl, e⟩ := render_inner E stuck hn hb a e
  have ht : Tight l := by
    obtain ⟨-, y, d, e', hd⟩ := hc
    rw [e', _root_.Verif.Page.renderL_append] at hl
    cases hy : renderL E false (stuck || isProblematicParent n) y with
    | none => rw [hy] at hl; simp at hl
    | some X =>
      rw [hy] at hl
      simp only [renderL, renderNode, linkTextTransform, Option.bind_some, Option.map_some, List.append_nil, if_false, Bool.false_eq_true, Option.some.injEq] at hl
      rw [← hl]
      exact (closed_tight E.mode hd).behind X
  rcases e with ⟨_, _, -, e⟩ | e | e
  · exact heading_shape ht.solid e
  · obtain ⟨q, hq, e'⟩ := quote_shape ht
    exact ⟨62 :: q, hq, e.trans e'⟩
  · exact ⟨l, ht.solid, e⟩

/-! ## Separation -/

/-- Something that cuts the tree and is rendered as a block separates a document. -/
theorem continued_cut {E : Env} {w : Outer} (hw : ∀ x ∈ w, x.1 ∉ markdownNames) {s s' : Node} (hcut : TCut w s s' (preRender E))
    (hr : ∀ stuck r, renderNode E false stuck s' = some r → ∃ core, Solid core ∧ r = b!"\n\n" ++ core ++ b!"\n\n")
    (h0 : E.isDigit 0 = false) (h1 : E.isDigit 10 = false) (L R : List (List Node)) {md : Bytes} (h : convertNode E (treeAround w L R s) = some md) :
    Continued (convertNode E (treeAround w [] [] s)) (convertNode E (treeAround w L [] s)) (convertNode E (treeAround w [] R s)) (some md) := by
  obtain ⟨f, g, stuck, ⟨p, hf, hp⟩, ⟨q, hg, hq⟩, hall⟩ := rendered_cut E hw hcut
  have st : Escape.IsStock E.isDigit (handlers E) := _root_.Verif.Page.stock E
  have hr' := hr stuck
  generalize renderNode E false stuck s' = r at hall hr'
  rw [convertNode, hall, Option.map_eq_some_iff] at h
  obtain ⟨out, h, rfl⟩ := h
  cases hx : f L with
  | none => rw [hx] at h; simp at h
  | some x =>
  cases hs : r with
  | none => rw [hx, hs] at h; simp at h
  | some z =>
  cases hy : g R with
  | none => rw [hx, hs, hy] at h; simp at h
  | some y =>
  rw [hx, hs, hy] at h
  simp only [Option.bind_some, Option.map_some, Option.some.injEq] at h
  subst h
  obtain ⟨core, hcore, hsc⟩ := hr' z hs
  have hA : convertNode E (treeAround w L [] s) = some (postRender E.mode (handlers E) (x ++ z ++ q)) := by
    rw [convertNode, hall, hx, hs, hg]; rfl
  have hB : convertNode E (treeAround w [] R s) = some (postRender E.mode (handlers E) (p ++ z ++ y)) := by
    rw [convertNode, hall, hf, hs, hy]; rfl
  have h1' : convertNode E (treeAround w [] [] s) = some (postRender E.mode (handlers E) (p ++ z ++ q)) := by
    rw [convertNode, hall, hf, hs, hg]; rfl
  have shape : ∀ x y, x ++ z ++ y = (x ++ [NL] ++ NL :: core) ++ NL :: NL :: y := by
    intro x y; rw [hsc]; simp
  rw [hA, hB, h1', shape, shape, shape, shape]
  have c1 := post_cut st h0 h1 E.mode (hcore.behind (x ++ [NL])) y
  have c2 := post_cut st h0 h1 E.mode (hcore.behind (x ++ [NL])) q
  have c3 := post_cut st h0 h1 E.mode (hcore.behind (p ++ [NL])) y
  have c4 := post_cut st h0 h1 E.mode (hcore.behind (p ++ [NL])) q
  rw [newlines_end hq, finish_nil] at c2 c4
  have c2' := c2.1.trans (List.append_nil _)
  have c4' := c4.1.trans (List.append_nil _)
  refine ⟨_, _, finish E.mode (handlers E) (trimRight (NL :: NL :: y)), rfl, rfl, ?_, ?_, c1.2⟩
  · rw [c3.1, c4']
  · rw [c1.1, c2']

/-- **C102** A block (a paragraph, a heading, a section …) that begins and ends with text separates a document, wherever it is and whatever is in it. -/
theorem c102_block_separates {E : Env} {w : Outer} (hw : ∀ x ∈ w, x.1 ∉ markdownNames) {n : Bytes} (hn : BlockName n)
    (hb : E.tables.isBlock n = true) (h0 : E.isDigit 0 = false) (h1 : E.isDigit 10 = false) (a : List (Bytes × Bytes)) {content : List Node}
    (hs : StartsWithText content) (he : EndsWithText content) (L R : List (List Node)) {md : Bytes} (h : convertNode E (treeAround w L R (.elem n a content)) = some md) :
    Continued (convertNode E (treeAround w [] [] (.elem n a content))) (convertNode E (treeAround w L [] (.elem n a content)))
      (convertNode E (treeAround w [] R (.elem n a content))) (some md) := by
  obtain ⟨cs', hc, hcut⟩ := preRender_frame (E := E) (a := a) (fun x hx => fine_of (hw x hx)) (blockName_sep hn) hb content ⟨hs, he⟩
  exact continued_cut hw hcut (fun stuck r e => render_block E stuck hn hb a hc e) h0 h1 L R h

/-- **C102** The document can be converted if what is before the block and what is behind it can be (each together with the block). -/
theorem c102_block_panics (E : Env) {w : Outer} (hw : ∀ x ∈ w, x.1 ∉ markdownNames) {n : Bytes} (hn : BlockName n)
    (hb : E.tables.isBlock n = true) (a : List (Bytes × Bytes)) {content : List Node} (hs : StartsWithText content) (he : EndsWithText content) (L R : List (List Node)) :
    convertNode E (treeAround w L R (.elem n a content)) = none ↔
      convertNode E (treeAround w L [] (.elem n a content)) = none ∨ convertNode E (treeAround w [] R (.elem n a content)) = none := by
  obtain ⟨cs', hc, hcut⟩ := preRender_frame (E := E) (a := a) (fun x hx => fine_of (hw x hx)) (blockName_sep hn) hb content ⟨hs, he⟩
  obtain ⟨f, g, stuck, ⟨p, hf, -⟩, ⟨q, hg, -⟩, hall⟩ := rendered_cut E hw hcut
  rw [convertNode, convertNode, convertNode, hall, hall, hall, hf, hg]
  cases f L <;> cases renderNode E false stuck (.elem n a cs') <;> cases g R <;> simp

/-! ## The functions of the package and the command line tool -/

section engine
open Verif.Engine Verif.Stock
variable (S : GoSort) (H : CliConvert.Html)

/-- **C102** for the functions of the package. -/
theorem c102_package {L : Lib} {n : Bytes} (hn : BlockName n) (hb : L.tables.isBlock n = true) (h0 : L.isDigit 0 = false) (h1 : L.isDigit 10 = false)
    {ctx : Ctx Bool} (hctx : ctx.values b!"is_inside_link" ≠ some true)
    (ha : ∀ u, Utf8 u → Utf8 (L.assemble ctx.domain u)) {w : List (Bytes × List (Bytes × Bytes))} (hw : ∀ x ∈ w, x.1 ∉ markdownNames) (a : List (Bytes × Bytes))
    {content : List Node} (hs : StartsWithText content) (he : EndsWithText content) (before behind : List (List Node)) (hp : Page (treeAround w before behind (.elem n a content))) :
    ∃ m u v k, ∀ fuel, k ≤ fuel →
      Engine.convertNode S L.tables (defaultConverter L) fuel ctx (treeAround w [] [] (.elem n a content)) = some (.ok m, defaultConverter L) ∧
      Engine.convertNode S L.tables (defaultConverter L) fuel ctx (treeAround w before [] (.elem n a content)) = some (.ok u, defaultConverter L) ∧
      Engine.convertNode S L.tables (defaultConverter L) fuel ctx (treeAround w [] behind (.elem n a content)) = some (.ok (m ++ v), defaultConverter L) ∧
      Engine.convertNode S L.tables (defaultConverter L) fuel ctx (treeAround w before behind (.elem n a content)) = some (.ok (u ++ v), defaultConverter L) := by
  obtain ⟨md, e, -⟩ := c30_conversion_no_panic_partial (E := defaultEnv L ctx.domain) hp
    (show Config.validate (Config.newPlugin []) = none by decide +kernel)
    (show PlainDelimiters (Config.newPlugin []) by unfold PlainDelimiters; decide) (by simp [PlainStrike, defaultEnv]) ha (.inl rfl)
  obtain ⟨m, u, v, e1, e2, e3, e4, -⟩ := c102_block_separates (E := defaultEnv L ctx.domain) hw hn hb h0 h1 a hs he before behind e
  rw [← e] at e4
  obtain ⟨n1, f1⟩ := c83_default S L hctx e1
  obtain ⟨n2, f2⟩ := c83_default S L hctx e2
  obtain ⟨n3, f3⟩ := c83_default S L hctx e3
  obtain ⟨n4, f4⟩ := c83_default S L hctx e4
  exact ⟨m, u, v, n1 + n2 + n3 + n4, fun fuel hf => ⟨f1 fuel (by omega), f2 fuel (by omega), f3 fuel (by omega), f4 fuel (by omega)⟩⟩

/-- **C102** for the command line tool: four inputs, a block alone, with something before it, with something behind it, and with both (after the selectors were
applied). -/
theorem c102_tool {n : Bytes} (hn : BlockName n) (hb : H.lib.tables.isBlock n = true) (h0 : H.lib.isDigit 0 = false) (h1 : H.lib.isDigit 10 = false)
    {env1 env2 env3 env : Cli.Env} (he1 : UsesEngine S H env1) (he2 : UsesEngine S H env2) (he3 : UsesEngine S H env3) (he : UsesEngine S H env)
    {args : List Bytes} {cfg : Cli.Config}
    (hf1 : Cli.parseFlags env1.parseSelector args = .ok cfg) (hf2 : Cli.parseFlags env2.parseSelector args = .ok cfg)
    (hf3 : Cli.parseFlags env3.parseSelector args = .ok cfg) (hf : Cli.parseFlags env.parseSelector args = .ok cfg)
    (hargs : cfg.args = []) (hver : cfg.version = false) (hin : cfg.input = []) (hout : cfg.output = [])
    {input1 input2 input3 input : Bytes} (hstdin1 : env1.stdin = some input1) (hstdin2 : env2.stdin = some input2) (hstdin3 : env3.stdin = some input3)
    (hstdin : env.stdin = some input)
    (h : ToolAccepts cfg) (hd : ∀ b ∈ cfg.strongDelimiter, b < 128 ∧ b ≠ 35)
    (ha : ∀ u, Utf8 u → Utf8 (H.lib.assemble cfg.domain u)) (hp : Page (H.parse input))
    {w : List (Bytes × List (Bytes × Bytes))} (hw : ∀ x ∈ w, x.1 ∉ markdownNames) (a : List (Bytes × Bytes)) {content : List Node} (hs : StartsWithText content) (ht : EndsWithText content)
    (before behind : List (List Node))
    (d1 : toolDoc H cfg input1 = treeAround w [] [] (.elem n a content)) (d2 : toolDoc H cfg input2 = treeAround w before [] (.elem n a content))
    (d3 : toolDoc H cfg input3 = treeAround w [] behind (.elem n a content)) (d : toolDoc H cfg input = treeAround w before behind (.elem n a content)) (fs : Cli.FS) :
    ∃ m u v, (Cli.run env1 args fs).stdout = m ++ [NL] ∧ (Cli.run env2 args fs).stdout = u ++ [NL] ∧ (Cli.run env3 args fs).stdout = m ++ v ++ [NL] ∧
      (Cli.run env args fs).stdout = u ++ v ++ [NL] ∧
      (Cli.run env1 args fs).err = none ∧ (Cli.run env2 args fs).err = none ∧ (Cli.run env3 args fs).err = none ∧ (Cli.run env args fs).err = none := by
  have hpd : Page (toolDoc H cfg input) := CliConvert.selectors_page hp
  rw [d] at hpd
  obtain ⟨md, e, -⟩ := c30_conversion_no_panic_partial (E := toolEnv H cfg) hpd (tool_validate.2 h.strong) (tool_delimiters H hd) (tool_strike H) ha (.inl rfl)
  obtain ⟨m, u, v, e1, e2, e3, e4, -⟩ := c102_block_separates (E := toolEnv H cfg) hw hn hb h0 h1 a hs ht before behind e
  rw [← e] at e4
  rw [← d1] at e1
  rw [← d2] at e2
  rw [← d3] at e3
  rw [← d] at e4
  obtain ⟨r1, s1, -⟩ := c85_run S H he1 hf1 hargs hver hin hout hstdin1 h e1 fs
  obtain ⟨r2, s2, -⟩ := c85_run S H he2 hf2 hargs hver hin hout hstdin2 h e2 fs
  obtain ⟨r3, s3, -⟩ := c85_run S H he3 hf3 hargs hver hin hout hstdin3 h e3 fs
  obtain ⟨r4, s4, -⟩ := c85_run S H he hf hargs hver hin hout hstdin h e4 fs
  exact ⟨m, u, v, s1, s2, s3, s4, r1, r2, r3, r4⟩

end engine

/-! ### Beside the theorems -/

/-- `One <b>two</b> <i>three</i>\n four.`, as the content of a paragraph. -/
def mixedContent : List Node := [.text b!"One ", .elem b!"b" [] [.text b!"two"], .text b!" ", .elem b!"i" [] [.text b!"three"], .text b!"\n four. "]

theorem mixed_starts : StartsWithText mixedContent := ⟨_, _, rfl, 79, by decide, by decide⟩

theorem mixed_ends : EndsWithText mixedContent :=
  ⟨[.text b!"One ", .elem b!"b" [] [.text b!"two"], .text b!" ", .elem b!"i" [] [.text b!"three"]], b!"\n four. ", rfl, b!"\n four", [46], [32], rfl, by decide, by decide, by decide⟩

/-- The paragraph between a part that ends with an asterisk and a part that begins with one, and lists around it. -/
theorem mixedPage_converted : convertNode titleEnv (treeAround [] [titleFront] [titleBack] (.elem b!"p" [] mixedContent)) =
    some b!"- a\n\n\\*b\n\nOne **two** *three* four.\n\nc*\n\n- d" := by
  simp only [convertNode, preRender, strikePreRender, DomUtils.handlePreRender, mergeAdjacent_eq]
  decide +kernel

example : Continued (convertNode titleEnv (treeAround [] [] [] (.elem b!"p" [] mixedContent))) (convertNode titleEnv (treeAround [] [titleFront] [] (.elem b!"p" [] mixedContent)))
    (convertNode titleEnv (treeAround [] [] [titleBack] (.elem b!"p" [] mixedContent))) (some b!"- a\n\n\\*b\n\nOne **two** *three* four.\n\nc*\n\n- d") :=
  c102_block_separates (by decide) (.inr (.inr (by decide))) (by decide) (by decide) (by decide) [] mixed_starts mixed_ends _ _ mixedPage_converted

example : convertNode titleEnv (treeAround [] [titleFront] [titleBack] (.elem b!"h2" [] mixedContent)) ≠ none ↔
    ¬ (convertNode titleEnv (treeAround [] [titleFront] [] (.elem b!"h2" [] mixedContent)) = none ∨ convertNode titleEnv (treeAround [] [] [titleBack] (.elem b!"h2" [] mixedContent)) = none) :=
  not_congr (c102_block_panics titleEnv (by decide) (.inl (by decide)) (by decide) [] mixed_starts mixed_ends _ _)

/-- `<blockquote>One <b>two</b> <i>three</i>\n four.</blockquote>` -/
theorem quotePage_converted : convertNode titleEnv (treeAround [] [titleFront] [titleBack] (.elem b!"blockquote" [] mixedContent)) =
    some b!"- a\n\n\\*b\n\n> One **two** *three* four.\n\nc*\n\n- d" := by
  simp only [convertNode, preRender, strikePreRender, DomUtils.handlePreRender, mergeAdjacent_eq]
  decide +kernel

example : Continued (convertNode titleEnv (treeAround [] [] [] (.elem b!"blockquote" [] mixedContent)))
    (convertNode titleEnv (treeAround [] [titleFront] [] (.elem b!"blockquote" [] mixedContent)))
    (convertNode titleEnv (treeAround [] [] [titleBack] (.elem b!"blockquote" [] mixedContent))) (some b!"- a\n\n\\*b\n\n> One **two** *three* four.\n\nc*\n\n- d") :=
  c102_block_separates (by decide) (.inr (.inl rfl)) (by decide) (by decide) (by decide) [] mixed_starts mixed_ends _ _ quotePage_converted

/-- A block that ends with two bold texts does not separate: it takes in the bold text that comes behind it. -/
theorem c102_bold_end :
    convertNode titleEnv (treeAround [] [] [] (.elem b!"p" [] [.text b!"a ", .elem b!"b" [] [.text b!"b"], .elem b!"b" [] [.text b!"x"]])) = some b!"a **bx**" ∧
    convertNode titleEnv (treeAround [] [] [[.elem b!"b" [] [.text b!"c"], .text b!" d"]] (.elem b!"p" [] [.text b!"a ", .elem b!"b" [] [.text b!"b"], .elem b!"b" [] [.text b!"x"]])) = some b!"a **bxc**\n\nd" := by
  refine ⟨?_, ?_⟩ <;> (simp only [convertNode, preRender, strikePreRender, DomUtils.handlePreRender, mergeAdjacent_eq]; decide +kernel)

theorem c102_bold_end_not : ¬ Continued
    (convertNode titleEnv (treeAround [] [] [] (.elem b!"p" [] [.text b!"a ", .elem b!"b" [] [.text b!"b"], .elem b!"b" [] [.text b!"x"]])))
    (convertNode titleEnv (treeAround [] [] [] (.elem b!"p" [] [.text b!"a ", .elem b!"b" [] [.text b!"b"], .elem b!"b" [] [.text b!"x"]])))
    (convertNode titleEnv (treeAround [] [] [[.elem b!"b" [] [.text b!"c"], .text b!" d"]] (.elem b!"p" [] [.text b!"a ", .elem b!"b" [] [.text b!"b"], .elem b!"b" [] [.text b!"x"]])))
    (convertNode titleEnv (treeAround [] [] [[.elem b!"b" [] [.text b!"c"], .text b!" d"]] (.elem b!"p" [] [.text b!"a ", .elem b!"b" [] [.text b!"b"], .elem b!"b" [] [.text b!"x"]]))) := by
  rintro ⟨m, u, v, e1, -, e3, -, -⟩
  rw [c102_bold_end.1] at e1
  rw [c102_bold_end.2] at e3
  simp only [Option.some.injEq] at e1 e3
  subst e1
  have := congrArg (List.take 8) e3
  rw [List.take_append_of_le_length (by decide)] at this
  exact absurd this (by decide)

end Verif.Props
