import Verif.Proofs.CutTree
import Verif.Proofs.CutBytes
import Verif.Proofs.PageRichRender
import Verif.Proofs.PageRender
import Verif.Props.Everyday
import Verif.Props.Invisible
/-!
# C100: a rule separates a document
-/
set_option linter.unusedSimpArgs false

namespace Verif.Props
open Verif Verif.Render Verif.Spec Verif.DomUtils Verif.Commonmark Verif.Cut

/-- What is rendered before and behind something in containers. -/
theorem render_around (E : Env) {w : Outer} (hw : ∀ x ∈ w, x.1 ∉ markdownNames) (stuck : Bool) :
    ∃ (f g : List (List Node) → Option Bytes) (stuck' : Bool), (∀ L, Empty L → ∃ p, f L = some p ∧ ∀ b ∈ p, b = NL) ∧ (∀ R, Empty R → ∃ q, g R = some q ∧ ∀ b ∈ q, b = NL) ∧
      ∀ L R s, renderL E false stuck (around w L R s) = (f L).bind fun x => (renderNode E false stuck' s).bind fun r => (g R).map fun y => x ++ r ++ y := by
  induction w generalizing stuck with
  | nil =>
    refine ⟨fun L => renderL E false stuck (L.headD []), fun R => renderL E false stuck (R.headD []), stuck, ?_, ?_, fun L R s => ?_⟩
    · intro L hL; exact ⟨[], by simp only [hL.head]; rfl, by simp⟩
    · intro L hL; exact ⟨[], by simp only [hL.head]; rfl, by simp⟩
    · simp only []
      rw [around, _root_.Verif.Page.renderL_append, renderL]
      cases renderL E false stuck (L.headD []) with
      | none => rfl
      | some x =>
        cases renderNode E false stuck s with
        | none => rfl
        | some r => cases renderL E false stuck (R.headD []) <;> simp
  | cons x w ih =>
    obtain ⟨n, a⟩ := x
    have hn : n ∉ markdownNames := hw (n, a) (by simp)
    obtain ⟨f, g, stuck', hf, hg, h⟩ := ih (fun y hy => hw y (by simp [hy])) (stuck || isProblematicParent n)
    have hfb : ∃ s : Bytes, (∀ b ∈ s, b = NL) ∧ ∀ x, fallback E n x = s ++ x ++ s := by
      by_cases hb : isBlock E n = true
      · exact ⟨b!"\n\n", by decide, fun x => by rw [fallback, if_pos hb]⟩
      · exact ⟨[], by simp, fun x => by rw [fallback, if_neg hb]; simp⟩
    obtain ⟨z, hz, hfb⟩ := hfb
    have hn' := hn
    simp only [markdownNames, List.mem_cons, List.not_mem_nil, or_false, not_or] at hn'
    have n1 : isBoldOrItalic n = false := (fine_of hn).bold
    have n6 : DomUtils.isInlineCode n = false := (fine_of hn).code
    have n8 : isHeading n = false := by simp [isHeading, hn']
    have n11 : isStrike n = false := (fine_of hn).strike
    refine ⟨fun L => (renderL E false stuck (L.headD [])).bind fun x => (f L.tail).map fun y => x ++ z ++ y,
      fun R => (g R.tail).bind fun x => (renderL E false stuck (R.headD [])).map fun y => x ++ z ++ y, stuck', ?_, ?_, fun L R s => ?_⟩
    · intro L hL
      obtain ⟨p, e, hp⟩ := hf _ hL.tail
      refine ⟨z ++ p, by simp only [hL.head, e]; simp [renderL], fun b hb => ?_⟩
      rcases List.mem_append.1 hb with hb | hb
      · exact hz b hb
      · exact hp b hb
    · intro R hR
      obtain ⟨q, e, hq⟩ := hg _ hR.tail
      refine ⟨q ++ z, by simp only [hR.head, e]; simp [renderL], fun b hb => ?_⟩
      rcases List.mem_append.1 hb with hb | hb
      · exact hq b hb
      · exact hz b hb
    · have e : renderNode E false stuck (.elem n a (around w L.tail R.tail s)) =
          (renderL E false (stuck || isProblematicParent n) (around w L.tail R.tail s)).map (fallback E n) := by
        rw [renderNode]
        simp only [n1, n6, n8, n11, hn', if_false, Bool.false_eq_true, false_and, or_self]
      simp only []
      rw [around, _root_.Verif.Page.renderL_append, renderL, e, h]
      cases renderL E false stuck (L.headD []) with
      | none => rfl
      | some x1 =>
        cases f L.tail with
        | none => rfl
        | some x2 =>
          cases renderNode E false stuck' s with
          | none => rfl
          | some r =>
            cases g R.tail with
            | none => rfl
            | some y1 =>
              cases renderL E false stuck (R.headD []) with
              | none => rfl
              | some y2 => simp [hfb]

/-- What is rendered for a document with something that cuts the tree. -/
theorem rendered_cut (E : Env) {w : Outer} (hw : ∀ x ∈ w, x.1 ∉ markdownNames) {s s' : Node} (hcut : TCut w s s' (preRender E)) :
    ∃ (f g : List (List Node) → Option Bytes) (stuck : Bool), (∃ p, f [] = some p ∧ ∀ b ∈ p, b = NL) ∧ (∃ q, g [] = some q ∧ ∀ b ∈ q, b = NL) ∧
      ∀ L R, renderNode E false false (preRender E (treeAround w L R s)) =
        (f L).bind fun x => (renderNode E false stuck s').bind fun r => (g R).map fun y => x ++ r ++ y := by
  obtain ⟨F, G, hF, hG, h⟩ := hcut
  obtain ⟨f, g, stuck, hf, hg, hin⟩ := render_around E hw false
  have hdoc : ∃ s : Bytes, (∀ b ∈ s, b = NL) ∧ ∀ x, fallback E b!"#document" x = s ++ x ++ s := by
    by_cases hb : isBlock E b!"#document" = true
    · exact ⟨b!"\n\n", by decide, fun x => by rw [fallback, if_pos hb]⟩
    · exact ⟨[], by simp, fun x => by rw [fallback, if_neg hb]; simp⟩
  obtain ⟨z, hz, hdoc⟩ := hdoc
  refine ⟨fun L => (f (F L)).map fun x => z ++ x, fun R => (g (G R)).map fun y => y ++ z, stuck, ?_, ?_, fun L R => ?_⟩
  · obtain ⟨p, e, hp⟩ := hf _ (hF [] empty_nil)
    refine ⟨z ++ p, by simp only [e]; rfl, fun b hb => ?_⟩
    rcases List.mem_append.1 hb with hb | hb
    · exact hz b hb
    · exact hp b hb
  · obtain ⟨q, e, hq⟩ := hg _ (hG [] empty_nil)
    refine ⟨q ++ z, by simp only [e]; rfl, fun b hb => ?_⟩
    rcases List.mem_append.1 hb with hb | hb
    · exact hq b hb
    · exact hz b hb
  · simp only []
    rw [h, treeAround, renderNode, hin]
    cases f (F L) with
    | none => rfl
    | some x =>
      cases renderNode E false stuck s' with
      | none => rfl
      | some r =>
        cases g (G R) with
        | none => rfl
        | some y =>
          simp only [Option.bind_some, Option.map_some]
          rw [hdoc]
          simp only [List.append_assoc]

/-- What is rendered for a document with a rule or a title. -/
theorem rendered_tree (E : Env) {w : Outer} (hw : ∀ x ∈ w, x.1 ∉ markdownNames) {sn : Bytes} (hn : SepName sn) (a : List (Bytes × Bytes)) {t : Option Bytes}
    (hb : E.tables.isBlock sn = true) (hk : sn = b!"hr" ∨ t.isSome = true) (ht : ∀ d ∈ t, shown d ≠ []) :
    ∃ (f g : List (List Node) → Option Bytes) (stuck : Bool), (∃ p, f [] = some p ∧ ∀ b ∈ p, b = NL) ∧ (∃ q, g [] = some q ∧ ∀ b ∈ q, b = NL) ∧
      ∀ L R, renderNode E false false (preRender E (treeAround w L R (sep sn a t))) =
        (f L).bind fun x => (renderNode E false stuck (sep sn a (t.map shown))).bind fun r => (g R).map fun y => x ++ r ++ y :=
  rendered_cut E hw (preRender_tree (fun x hx => fine_of (hw x hx)) hn hb hk ht)

theorem render_rule (E : Env) (stuck : Bool) (a : List (Bytes × Bytes)) : renderNode E false stuck (rule a) = some (divider E.cfg.horizontalRule) := by
  rw [rule, renderNode]
  have h1 : isBoldOrItalic b!"hr" = false := by decide
  simp only [h1]
  rfl

/-- What is rendered for a document with a rule. -/
theorem rendered_rule (E : Env) {w : Outer} (hw : ∀ x ∈ w, x.1 ∉ markdownNames) (a : List (Bytes × Bytes)) (hb : E.tables.isBlock b!"hr" = true) :
    ∃ f g : List (List Node) → Option Bytes, (∃ p, f [] = some p ∧ ∀ b ∈ p, b = NL) ∧ (∃ q, g [] = some q ∧ ∀ b ∈ q, b = NL) ∧
      ∀ L R, renderNode E false false (preRender E (treeAround w L R (rule a))) =
        (f L).bind fun x => (g R).map fun y => x ++ divider E.cfg.horizontalRule ++ y := by
  obtain ⟨f, g, stuck, hf, hg, h⟩ := rendered_tree E hw (sn := b!"hr") (t := none) (sepName_of (by decide)) a hb (.inl rfl) (by simp)
  refine ⟨f, g, hf, hg, fun L R => ?_⟩
  have e := render_rule E stuck a
  rw [rule] at e
  rw [rule]
  refine (h L R).trans ?_
  show (f L).bind (fun x => (renderNode E false stuck (.elem b!"hr" a [])).bind _) = _
  rw [e]
  rfl

theorem newlines_ws {p : Bytes} (hp : ∀ b ∈ p, b = NL) : Spec.AllWhitespace p := by
  refine ⟨p.map fun _ => [NL], ?_, ?_⟩
  · intro w hw
    obtain ⟨b, -, rfl⟩ := List.mem_map.1 hw
    decide
  · induction p with
    | nil => rfl
    | cons b p ih => simp [ih fun x hx => hp x (by simp [hx]), hp b (by simp)]

/-- Content without other content around it. -/
theorem documentOf_around (w : Outer) (s : Node) (A B : List Node) :
    documentOf w (A ++ s :: B) = treeAround w (List.replicate w.length [] ++ [A]) (List.replicate w.length [] ++ [B]) s ∧
    documentOf w (A ++ [s]) = treeAround w (List.replicate w.length [] ++ [A]) [] s ∧ documentOf w (s :: B) = treeAround w [] (List.replicate w.length [] ++ [B]) s ∧
    documentOf w [s] = treeAround w [] [] s := by
  simp only [documentOf, treeAround]
  induction w with
  | nil => simp [within, around]
  | cons x w ih =>
    obtain ⟨n, a⟩ := x
    simp only [Node.document.injEq] at ih
    simp only [within, around, List.length_cons, List.replicate_succ, List.cons_append, List.headD_cons, List.tail_cons, ih, List.headD_nil, List.tail_nil, List.nil_append]
    simp

theorem newlines_end {q : Bytes} (hq : ∀ b ∈ q, b = NL) : trimRight (NL :: NL :: q) = [] := by
  have hws : Spec.AllWhitespace (NL :: NL :: q) := newlines_ws (by
    intro b hb
    simp only [List.mem_cons] at hb
    rcases hb with rfl | rfl | hb
    · rfl
    · rfl
    · exact hq b hb)
  have := trimRight_ws hws []
  rw [List.nil_append] at this
  rw [this]; rfl

theorem plainRule_split {r : Bytes} (hr : PlainRule r) : ∃ r0 d, r = r0 ++ [d] ∧ Ink d := by
  rcases List.eq_nil_or_concat r with he | ⟨r0, d, he⟩
  · exact absurd he hr.ne
  rw [List.concat_eq_append] at he
  refine ⟨r0, d, he, ?_⟩
  have hb := hr.last
  rw [he] at hb
  simp only [List.getLast?_append, List.getLast?_singleton, Option.some_or, ne_eq, Option.some.injEq] at hb
  rcases hr.chars d (by rw [he]; simp) with h | h | h | h
  · exact .of_rule (.inl h)
  · exact .of_rule (.inr (.inl h))
  · exact .of_rule (.inr (.inr h))
  · exact absurd h hb

/-- **C100** A rule separates a document, wherever it is: the Markdown is that of what is before the rule, with the rule, and then that of what is behind the
rule. -/
theorem c100_rule_anywhere {E : Env} {w : Outer} (hw : ∀ x ∈ w, x.1 ∉ markdownNames) (hr : PlainRule E.cfg.horizontalRule)
    (hb : E.tables.isBlock b!"hr" = true) (h0 : E.isDigit 0 = false) (h1 : E.isDigit 10 = false) (a : List (Bytes × Bytes)) (L R : List (List Node))
    {md : Bytes} (h : convertNode E (treeAround w L R (rule a)) = some md) :
    Separated E.cfg.horizontalRule (convertNode E (treeAround w L [] (rule a))) (convertNode E (treeAround w [] R (rule a))) (some md) := by
  obtain ⟨f, g, ⟨p, hf, hp⟩, ⟨q, hg, hq⟩, hall⟩ := rendered_rule E hw a hb
  obtain ⟨r0, d, hrd, hd⟩ := plainRule_split hr
  have st : Escape.IsStock E.isDigit (handlers E) := _root_.Verif.Page.stock E
  rw [convertNode, hall, Option.map_eq_some_iff] at h
  obtain ⟨out, h, rfl⟩ := h
  cases hx : f L with
  | none => rw [hx] at h; simp at h
  | some x =>
  cases hy : g R with
  | none => rw [hx, hy] at h; simp at h
  | some y =>
  rw [hx, hy] at h
  simp only [Option.bind_some, Option.map_some, Option.some.injEq] at h
  subst h
  have hA : convertNode E (treeAround w L [] (rule a)) = some (postRender E.mode (handlers E) (x ++ divider E.cfg.horizontalRule ++ q)) := by
    rw [convertNode, hall, hx, hg]; rfl
  have hB : convertNode E (treeAround w [] R (rule a)) = some (postRender E.mode (handlers E) (p ++ divider E.cfg.horizontalRule ++ y)) := by
    rw [convertNode, hall, hf, hy]; rfl
  have shape : ∀ x y, x ++ divider E.cfg.horizontalRule ++ y = (x ++ [NL, NL] ++ r0) ++ [d] ++ NL :: NL :: y := by
    intro x y; rw [divider, hrd]; simp
  rw [hA, hB, shape, shape, shape]
  have c1 := post_cut st h0 h1 E.mode (hd.solid (x ++ [NL, NL] ++ r0)) y
  have c2 := post_cut st h0 h1 E.mode (hd.solid (x ++ [NL, NL] ++ r0)) q
  have c3 := post_cut st h0 h1 E.mode (hd.solid (p ++ [NL, NL] ++ r0)) y
  rw [newlines_end hq, finish_nil, List.append_nil] at c2
  have e3 : postRender E.mode (handlers E) (p ++ [NL, NL] ++ r0 ++ [d]) = E.cfg.horizontalRule := by
    rw [List.append_assoc _ r0, ← hrd]
    exact post_rule _ _ (.of_rule hr) (by
      intro b hb
      simp only [List.mem_append, List.mem_cons, List.not_mem_nil, or_false] at hb
      rcases hb with hb | hb | hb
      · exact hp b hb
      · exact hb
      · exact hb)
  obtain ⟨u, eu⟩ := post_ends E.mode (handlers E) (x ++ [NL, NL]) (.of_rule hr)
  have e4 : postRender E.mode (handlers E) (x ++ [NL, NL] ++ r0 ++ [d]) = u ++ E.cfg.horizontalRule := by
    rw [List.append_assoc _ r0, ← hrd]; exact eu
  refine ⟨u, finish E.mode (handlers E) (trimRight (NL :: NL :: y)), ?_, ?_, ?_, c1.2⟩
  · rw [c2.1, e4]
  · rw [c3.1, e3]
  · rw [c1.1, e4]

/-- **C100** when the containers have no other content. -/
theorem c100_rule_separates {E : Env} {w : List (Bytes × List (Bytes × Bytes))} (hw : ∀ x ∈ w, x.1 ∉ markdownNames) (hr : PlainRule E.cfg.horizontalRule)
    (hb : E.tables.isBlock b!"hr" = true) (h0 : E.isDigit 0 = false) (h1 : E.isDigit 10 = false) (a : List (Bytes × Bytes)) (A B : List Node)
    {md : Bytes} (h : convertNode E (documentOf w (A ++ rule a :: B)) = some md) :
    Separated E.cfg.horizontalRule (convertNode E (documentOf w (A ++ [rule a]))) (convertNode E (documentOf w (rule a :: B))) (some md) := by
  obtain ⟨e1, e2, e3, -⟩ := documentOf_around w (rule a) A B
  rw [e1] at h
  rw [e2, e3]
  exact c100_rule_anywhere hw hr hb h0 h1 a _ _ h

/-- **C100** The document can be converted if what is before the rule and what is behind it can be. -/
theorem c100_rule_panics (E : Env) {w : Outer} (hw : ∀ x ∈ w, x.1 ∉ markdownNames)
    (hb : E.tables.isBlock b!"hr" = true) (a : List (Bytes × Bytes)) (L R : List (List Node)) :
    convertNode E (treeAround w L R (rule a)) = none ↔
      convertNode E (treeAround w L [] (rule a)) = none ∨ convertNode E (treeAround w [] R (rule a)) = none := by
  obtain ⟨f, g, ⟨p, hf, -⟩, ⟨q, hg, -⟩, hall⟩ := rendered_rule E hw a hb
  rw [convertNode, convertNode, convertNode, hall, hall, hall, hf, hg]
  cases f L <;> cases g R <;> simp

/-- Doctype and head do not count. -/
theorem wholePage_convert (E : Env) (d : Bytes) (ha he : List (Bytes × Bytes)) (hs : List Node) (ba : List (Bytes × Bytes)) (content : List Node) :
    convertNode E (wholePage d ha he hs ba content) = convertNode E (documentOf [(b!"html", ha), (b!"body", ba)] content) := by
  rw [wholePage, c99_doctype]
  exact c99_looks_same (.inside _ (.hidden _ (.elem _ _ (by decide))))

/-- **C100** for pages as they come from a parser: the rule is in the body, maybe inside of other containers. -/
theorem c100_page {E : Env} {w : List (Bytes × List (Bytes × Bytes))} (hw : ∀ x ∈ w, x.1 ∉ markdownNames) (hr : PlainRule E.cfg.horizontalRule)
    (hb : E.tables.isBlock b!"hr" = true) (h0 : E.isDigit 0 = false) (h1 : E.isDigit 10 = false) (d : Bytes) (ha he : List (Bytes × Bytes))
    (hs : List Node) (ba a : List (Bytes × Bytes)) (A B : List Node) {md : Bytes} (h : convertNode E (wholePage d ha he hs ba (within w (A ++ rule a :: B))) = some md) :
    Separated E.cfg.horizontalRule (convertNode E (wholePage d ha he hs ba (within w (A ++ [rule a]))))
      (convertNode E (wholePage d ha he hs ba (within w (rule a :: B)))) (some md) := by
  rw [wholePage_convert] at h ⊢
  rw [wholePage_convert]
  exact c100_rule_separates (w := (b!"html", ha) :: (b!"body", ba) :: w) (by
    intro x hx
    rcases List.mem_cons.1 hx with rfl | hx
    · show b!"html" ∉ markdownNames; decide
    · rcases List.mem_cons.1 hx with rfl | hx
      · show b!"body" ∉ markdownNames; decide
      · exact hw x hx) hr hb h0 h1 a A B h

theorem plain_rule_default : PlainRule b!"* * *" := ⟨by decide, by decide, by decide, by decide⟩

/-! ## The functions of the package and the command line tool -/

section engine
open Verif.Engine Verif.Stock
variable (S : GoSort) (H : CliConvert.Html)

/-- **C100** for the functions of the package. -/
theorem c100_package {L : Lib} (hb : L.tables.isBlock b!"hr" = true) (h0 : L.isDigit 0 = false) (h1 : L.isDigit 10 = false)
    {ctx : Ctx Bool} (hctx : ctx.values b!"is_inside_link" ≠ some true)
    (ha : ∀ u, Utf8 u → Utf8 (L.assemble ctx.domain u)) {w : List (Bytes × List (Bytes × Bytes))} (hw : ∀ x ∈ w, x.1 ∉ markdownNames) (a : List (Bytes × Bytes)) (before behind : List (List Node))
    (hp : Page (treeAround w before behind (rule a))) :
    ∃ u v n, ∀ fuel, n ≤ fuel →
      Engine.convertNode S L.tables (defaultConverter L) fuel ctx (treeAround w before [] (rule a)) = some (.ok (u ++ b!"* * *"), defaultConverter L) ∧
      Engine.convertNode S L.tables (defaultConverter L) fuel ctx (treeAround w [] behind (rule a)) = some (.ok (b!"* * *" ++ v), defaultConverter L) ∧
      Engine.convertNode S L.tables (defaultConverter L) fuel ctx (treeAround w before behind (rule a)) =
        some (.ok (u ++ b!"* * *" ++ v), defaultConverter L) := by
  obtain ⟨md, e, -⟩ := c30_conversion_no_panic_partial (E := defaultEnv L ctx.domain) hp
    (show Config.validate (Config.newPlugin []) = none by decide +kernel)
    (show PlainDelimiters (Config.newPlugin []) by unfold PlainDelimiters; decide) (by simp [PlainStrike, defaultEnv]) ha (.inl rfl)
  obtain ⟨u, v, e1, e2, e3, -⟩ := c100_rule_anywhere (E := defaultEnv L ctx.domain) hw plain_rule_default hb h0 h1 a before behind e
  rw [← e] at e3
  obtain ⟨n1, f1⟩ := c83_default S L hctx e1
  obtain ⟨n2, f2⟩ := c83_default S L hctx e2
  obtain ⟨n3, f3⟩ := c83_default S L hctx e3
  exact ⟨u, v, n1 + n2 + n3, fun fuel hf => ⟨f1 fuel (by omega), f2 fuel (by omega), f3 fuel (by omega)⟩⟩

/-- **C100** for the command line tool: three inputs, of which the third is the other two put together (after the selectors were applied). -/
theorem c100_tool (hb : H.lib.tables.isBlock b!"hr" = true) (h0 : H.lib.isDigit 0 = false) (h1 : H.lib.isDigit 10 = false)
    {env1 env2 env : Cli.Env} (he1 : UsesEngine S H env1) (he2 : UsesEngine S H env2) (he : UsesEngine S H env) {args : List Bytes} {cfg : Cli.Config}
    (hf1 : Cli.parseFlags env1.parseSelector args = .ok cfg) (hf2 : Cli.parseFlags env2.parseSelector args = .ok cfg)
    (hf : Cli.parseFlags env.parseSelector args = .ok cfg)
    (hargs : cfg.args = []) (hver : cfg.version = false) (hin : cfg.input = []) (hout : cfg.output = [])
    {input1 input2 input : Bytes} (hstdin1 : env1.stdin = some input1) (hstdin2 : env2.stdin = some input2) (hstdin : env.stdin = some input)
    (h : ToolAccepts cfg) (hd : ∀ b ∈ cfg.strongDelimiter, b < 128 ∧ b ≠ 35)
    (ha : ∀ u, Utf8 u → Utf8 (H.lib.assemble cfg.domain u)) (hp : Page (H.parse input))
    {w : List (Bytes × List (Bytes × Bytes))} (hw : ∀ x ∈ w, x.1 ∉ markdownNames) (a : List (Bytes × Bytes)) (before behind : List (List Node))
    (d1 : toolDoc H cfg input1 = treeAround w before [] (rule a)) (d2 : toolDoc H cfg input2 = treeAround w [] behind (rule a))
    (d : toolDoc H cfg input = treeAround w before behind (rule a)) (fs : Cli.FS) :
    ∃ u v, (Cli.run env1 args fs).stdout = u ++ b!"* * *" ++ [NL] ∧ (Cli.run env2 args fs).stdout = b!"* * *" ++ v ++ [NL] ∧
      (Cli.run env args fs).stdout = u ++ b!"* * *" ++ v ++ [NL] ∧
      (Cli.run env1 args fs).err = none ∧ (Cli.run env2 args fs).err = none ∧ (Cli.run env args fs).err = none := by
  have hpd : Page (toolDoc H cfg input) := CliConvert.selectors_page hp
  rw [d] at hpd
  obtain ⟨md, e, -⟩ := c30_conversion_no_panic_partial (E := toolEnv H cfg) hpd (tool_validate.2 h.strong) (tool_delimiters H hd) (tool_strike H) ha (.inl rfl)
  obtain ⟨u, v, e1, e2, e3, -⟩ := c100_rule_anywhere (E := toolEnv H cfg) hw plain_rule_default hb h0 h1 a before behind e
  rw [← e] at e3
  rw [← d1] at e1
  rw [← d2] at e2
  rw [← d] at e3
  obtain ⟨r1, s1, -⟩ := c85_run S H he1 hf1 hargs hver hin hout hstdin1 h e1 fs
  obtain ⟨r2, s2, -⟩ := c85_run S H he2 hf2 hargs hver hin hout hstdin2 h e2 fs
  obtain ⟨r3, s3, -⟩ := c85_run S H he hf hargs hver hin hout hstdin h e3 fs
  exact ⟨u, v, s1, s2, s3, r1, r2, r3⟩

end engine

/-! ### Beside the theorems -/

/-- The usual options; `hr` is a block name too. -/
def sectionEnv : Env := { demoEnv .smart with tables := ⟨fun n => (demoEnv .smart).tables.isBlock n || n == b!"hr", (demoEnv .smart).tables.isInline⟩ }

/-- `<html><body>` … -/
def ruleOuter : List (Bytes × List (Bytes × Bytes)) := [(b!"html", []), (b!"body", [(b!"id", b!"x")])]

/-- `<h1>T</h1> 1. *a` -/
def ruleFront : List Node := [.elem b!"h1" [] [.text b!"T"], .text b!" 1. *a"]

/-- `*b <ul><li>c</li></ul>` -/
def ruleBack : List Node := [.text b!"*b ", .elem b!"ul" [] [.elem b!"li" [] [.text b!"c"]]]

/-- The asterisks are far apart: neither is escaped because of the other one, and neither is the number. -/
theorem rulePage_converted : convertNode sectionEnv (documentOf ruleOuter (ruleFront ++ rule [] :: ruleBack)) =
    some b!"# T\n\n1\\. \\*a\n\n* * *\n\n\\*b\n\n- c" := by
  simp only [convertNode, preRender, strikePreRender, DomUtils.handlePreRender, mergeAdjacent_eq]
  decide +kernel

example : Separated sectionEnv.cfg.horizontalRule (convertNode sectionEnv (documentOf ruleOuter (ruleFront ++ [rule []])))
    (convertNode sectionEnv (documentOf ruleOuter (rule [] :: ruleBack))) (some b!"# T\n\n1\\. \\*a\n\n* * *\n\n\\*b\n\n- c") :=
  c100_rule_separates (by decide) plain_rule_default (by decide) (by decide) (by decide) [] ruleFront ruleBack rulePage_converted

example : ∀ n ∈ [b!"html", b!"body", b!"main", b!"article", b!"section", b!"div", b!"header", b!"nav", b!"form", b!"p", b!"label", b!"my-element"], n ∉ markdownNames := by
  decide

/-- `<p>1</p><div>2 <hr> 3</div>4`: the rule is in one of the blocks. -/
def blockOuter : Outer := [(b!"body", []), (b!"div", [])]
def blockBefore : List (List Node) := [[], [.elem b!"p" [] [.text b!"1"]], [.text b!"*2 "]]
def blockBehind : List (List Node) := [[], [.text b!"4"], [.text b!" 3*"]]

example : treeAround blockOuter blockBefore blockBehind (rule []) =
    .document [.elem b!"body" [] [.elem b!"p" [] [.text b!"1"], .elem b!"div" [] [.text b!"*2 ", rule [], .text b!" 3*"], .text b!"4"]] := rfl

example : treeAround blockOuter blockBefore [] (rule []) =
    .document [.elem b!"body" [] [.elem b!"p" [] [.text b!"1"], .elem b!"div" [] [.text b!"*2 ", rule []]]] := rfl

example : treeAround blockOuter [] blockBehind (rule []) =
    .document [.elem b!"body" [] [.elem b!"div" [] [rule [], .text b!" 3*"], .text b!"4"]] := rfl

theorem blockPage_converted : convertNode sectionEnv (treeAround blockOuter blockBefore blockBehind (rule [])) = some b!"1\n\n\\*2\n\n* * *\n\n3*\n\n4" := by
  simp only [convertNode, preRender, strikePreRender, DomUtils.handlePreRender, mergeAdjacent_eq]
  decide +kernel

example : Separated sectionEnv.cfg.horizontalRule (convertNode sectionEnv (treeAround blockOuter blockBefore [] (rule [])))
    (convertNode sectionEnv (treeAround blockOuter [] blockBehind (rule []))) (some b!"1\n\n\\*2\n\n* * *\n\n3*\n\n4") :=
  c100_rule_anywhere (by decide) plain_rule_default (by decide) (by decide) (by decide) [] blockBefore blockBehind blockPage_converted

/-- With a doctype and a head the Markdown is the same. -/
theorem rulePage_whole : convertNode sectionEnv (wholePage b!"html" [] [] [.elem b!"title" [] [.text b!"T"]] [(b!"id", b!"x")] (within [] (ruleFront ++ rule [] :: ruleBack))) =
    some b!"# T\n\n1\\. \\*a\n\n* * *\n\n\\*b\n\n- c" := by
  rw [wholePage_convert]; exact rulePage_converted

example : Separated sectionEnv.cfg.horizontalRule
    (convertNode sectionEnv (wholePage b!"html" [] [] [.elem b!"title" [] [.text b!"T"]] [(b!"id", b!"x")] (within [] (ruleFront ++ [rule []]))))
    (convertNode sectionEnv (wholePage b!"html" [] [] [.elem b!"title" [] [.text b!"T"]] [(b!"id", b!"x")] (within [] (rule [] :: ruleBack))))
    (some b!"# T\n\n1\\. \\*a\n\n* * *\n\n\\*b\n\n- c") :=
  c100_page (by decide) plain_rule_default (by decide) (by decide) (by decide) _ _ _ _ _ [] ruleFront ruleBack rulePage_whole

/-- The rule has to be kept in the first document: a no-break space at the end of a document is cut off, before a rule it is not. -/
theorem c100_without_the_rule :
    convertNode sectionEnv (documentOf [] ([.elem b!"p" [] [.text b!"a\u00a0"]] ++ rule [] :: [])) = some b!"a\u00a0\n\n* * *" ∧
    convertNode sectionEnv (documentOf [] [.elem b!"p" [] [.text b!"a\u00a0"]]) = some b!"a" := by
  constructor <;> (simp only [convertNode, preRender, strikePreRender, DomUtils.handlePreRender, mergeAdjacent_eq]; decide +kernel)

end Verif.Props
