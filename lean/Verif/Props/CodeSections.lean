import Verif.Spec.CodeSections
import Verif.Proofs.CutCode
import Verif.Props.BlockSections
/-!
# C104: a code block separates a document
-/
set_option linter.unusedSimpArgs false

namespace Verif.Props
open Verif Verif.Render Verif.Spec Verif.DomUtils Verif.Commonmark Verif.Cut Verif.TextUtils

/-- A fence is at the beginning and at the end. -/
theorem render_code {E : Env} (hf : Fence E.cfg.codeBlockFence) (stuck : Bool) (a : List (Bytes × Bytes)) (cs : List Node) {r : Bytes}
    (e : renderNode E false stuck (.elem b!"pre" a cs) = some r) : ∃ c s core, Ink c ∧ core = c :: s ∧ Solid core ∧ r = b!"\n\n" ++ core ++ b!"\n\n" := by
  have hc : Ink (E.cfg.codeBlockFence.headD 0) := by
    rcases hf with h | h <;> (rw [h]; constructor <;> decide)
  rw [renderNode, if_neg (by decide), if_neg (by decide), if_neg (by decide), if_neg (by decide), if_pos rfl, Option.some.injEq, blockCode] at e
  generalize E.cfg.codeBlockFence.headD 0 = c at hc e
  generalize codeInfo [] (.elem b!"pre" a cs) = info at e
  generalize dropTrailingNewline (codeText (.elem b!"pre" a cs)) = code at e
  have hk : ∃ k, calculateCodeFence c code = List.replicate (k + 1) c := by
    rw [calculateCodeFence]
    by_cases h : calculateCodeFenceOccurrences c code + 1 < 3
    · exact ⟨2, by simp only [h, if_true]⟩
    · exact ⟨calculateCodeFenceOccurrences c code, by simp only [h, if_false]⟩
  obtain ⟨k, hk⟩ := hk
  simp only [hk] at e
  have h2 := hc.solid (List.replicate (k + 1) c ++ info ++ [NL] ++ replaceAll [NL] codeNewline code ++ [NL] ++ List.replicate k c)
  refine ⟨c, List.replicate k c ++ info ++ [NL] ++ replaceAll [NL] codeNewline code ++ [NL] ++ List.replicate (k + 1) c, _, hc, rfl, ?_, ?_⟩
  · have e' : c :: (List.replicate k c ++ info ++ [NL] ++ replaceAll [NL] codeNewline code ++ [NL] ++ List.replicate (k + 1) c) =
        List.replicate (k + 1) c ++ info ++ [NL] ++ replaceAll [NL] codeNewline code ++ [NL] ++ List.replicate k c ++ [c] := by
      rw [List.append_assoc _ (List.replicate k c), ← List.replicate_succ', List.replicate_succ]
      simp
    rw [e']
    exact h2
  · rw [← e, List.replicate_succ]
    simp

theorem codeBlock_kind {x : Node} (h : CodeBlock x) : ∃ a cs, x = .elem b!"pre" a cs ∧ CodeKind cs := by
  obtain ⟨a, cs, rfl, h⟩ := h
  refine ⟨a, cs, rfl, ?_⟩
  rcases h with h | ⟨b, ds, rfl, h⟩
  · exact .inl (filled_of h)
  · exact .inr ⟨b, ds, rfl, filled_of h⟩

/-- **C104** A code block separates a document, wherever it is and whatever code is in it. -/
theorem c104_code_separates {E : Env} {w : Outer} (hw : ∀ x ∈ w, x.1 ∉ markdownNames) (hb : CodeNames E.tables.isBlock) (hf : Fence E.cfg.codeBlockFence)
    (h0 : E.isDigit 0 = false) (h1 : E.isDigit 10 = false) {x : Node} (hx : CodeBlock x) (L R : List (List Node)) {md : Bytes} (h : convertNode E (treeAround w L R x) = some md) :
    Continued (convertNode E (treeAround w [] [] x)) (convertNode E (treeAround w L [] x)) (convertNode E (treeAround w [] R x)) (some md) := by
  obtain ⟨a, cs, rfl, hc⟩ := codeBlock_kind hx
  obtain ⟨cs', -, hcut⟩ := (code_cuts (E := E) (a := a) (fun x hx => fine_of (hw x hx)) hb.pre hb.span hb.text hb.br).preRender cs hc
  refine continued_cut hw hcut (fun stuck r e => ?_) h0 h1 L R h
  obtain ⟨-, -, core, -, -, hs, e⟩ := render_code hf stuck a cs' e
  exact ⟨core, hs, e⟩

/-- **C104** The document can be converted if what is before the code block and what is behind it can be. -/
theorem c104_code_panics (E : Env) {w : Outer} (hw : ∀ x ∈ w, x.1 ∉ markdownNames) (hb : CodeNames E.tables.isBlock) {x : Node} (hx : CodeBlock x) (L R : List (List Node)) :
    convertNode E (treeAround w L R x) = none ↔ convertNode E (treeAround w L [] x) = none ∨ convertNode E (treeAround w [] R x) = none := by
  obtain ⟨a, cs, rfl, hc⟩ := codeBlock_kind hx
  obtain ⟨cs', -, hcut⟩ := (code_cuts (E := E) (a := a) (fun x hx => fine_of (hw x hx)) hb.pre hb.span hb.text hb.br).preRender cs hc
  obtain ⟨f, g, stuck, ⟨p, hf, -⟩, ⟨q, hg, -⟩, hall⟩ := rendered_cut E hw hcut
  rw [convertNode, convertNode, convertNode, hall, hall, hall, hf, hg]
  cases f L <;> cases renderNode E false stuck (.elem b!"pre" a cs') <;> cases g R <;> simp

/-! ## The functions of the package and the command line tool -/

section engine
open Verif.Engine Verif.Stock
variable (S : GoSort) (H : CliConvert.Html)

/-- **C104** for the functions of the package. -/
theorem c104_package {L : Lib} (hb : CodeNames L.tables.isBlock) (h0 : L.isDigit 0 = false) (h1 : L.isDigit 10 = false)
    {ctx : Ctx Bool} (hctx : ctx.values b!"is_inside_link" ≠ some true)
    (ha : ∀ u, Utf8 u → Utf8 (L.assemble ctx.domain u)) {w : List (Bytes × List (Bytes × Bytes))} (hw : ∀ x ∈ w, x.1 ∉ markdownNames)
    {x : Node} (hx : CodeBlock x) (before behind : List (List Node)) (hp : Page (treeAround w before behind x)) :
    ∃ m u v k, ∀ fuel, k ≤ fuel →
      Engine.convertNode S L.tables (defaultConverter L) fuel ctx (treeAround w [] [] x) = some (.ok m, defaultConverter L) ∧
      Engine.convertNode S L.tables (defaultConverter L) fuel ctx (treeAround w before [] x) = some (.ok u, defaultConverter L) ∧
      Engine.convertNode S L.tables (defaultConverter L) fuel ctx (treeAround w [] behind x) = some (.ok (m ++ v), defaultConverter L) ∧
      Engine.convertNode S L.tables (defaultConverter L) fuel ctx (treeAround w before behind x) = some (.ok (u ++ v), defaultConverter L) := by
  obtain ⟨md, e, -⟩ := c30_conversion_no_panic_partial (E := defaultEnv L ctx.domain) hp
    (show Config.validate (Config.newPlugin []) = none by decide +kernel)
    (show PlainDelimiters (Config.newPlugin []) by unfold PlainDelimiters; decide) (by simp [PlainStrike, defaultEnv]) ha (.inl rfl)
  obtain ⟨m, u, v, e1, e2, e3, e4, -⟩ := c104_code_separates (E := defaultEnv L ctx.domain) hw hb (.inl rfl) h0 h1 hx before behind e
  rw [← e] at e4
  obtain ⟨n1, f1⟩ := c83_default S L hctx e1
  obtain ⟨n2, f2⟩ := c83_default S L hctx e2
  obtain ⟨n3, f3⟩ := c83_default S L hctx e3
  obtain ⟨n4, f4⟩ := c83_default S L hctx e4
  exact ⟨m, u, v, n1 + n2 + n3 + n4, fun fuel hf => ⟨f1 fuel (by omega), f2 fuel (by omega), f3 fuel (by omega), f4 fuel (by omega)⟩⟩

/-- **C104** for the command line tool: four inputs, a code block alone, with something before it, with something behind it, and with both (after the selectors were
applied). -/
theorem c104_tool (hb : CodeNames H.lib.tables.isBlock) (h0 : H.lib.isDigit 0 = false) (h1 : H.lib.isDigit 10 = false)
    {env1 env2 env3 env : Cli.Env} (he1 : UsesEngine S H env1) (he2 : UsesEngine S H env2) (he3 : UsesEngine S H env3) (he : UsesEngine S H env)
    {args : List Bytes} {cfg : Cli.Config}
    (hf1 : Cli.parseFlags env1.parseSelector args = .ok cfg) (hf2 : Cli.parseFlags env2.parseSelector args = .ok cfg)
    (hf3 : Cli.parseFlags env3.parseSelector args = .ok cfg) (hf : Cli.parseFlags env.parseSelector args = .ok cfg)
    (hargs : cfg.args = []) (hver : cfg.version = false) (hin : cfg.input = []) (hout : cfg.output = [])
    {input1 input2 input3 input : Bytes} (hstdin1 : env1.stdin = some input1) (hstdin2 : env2.stdin = some input2) (hstdin3 : env3.stdin = some input3)
    (hstdin : env.stdin = some input)
    (h : ToolAccepts cfg) (hd : ∀ b ∈ cfg.strongDelimiter, b < 128 ∧ b ≠ 35)
    (ha : ∀ u, Utf8 u → Utf8 (H.lib.assemble cfg.domain u)) (hp : Page (H.parse input))
    {w : List (Bytes × List (Bytes × Bytes))} (hw : ∀ x ∈ w, x.1 ∉ markdownNames) {x : Node} (hx : CodeBlock x)
    (before behind : List (List Node))
    (d1 : toolDoc H cfg input1 = treeAround w [] [] x) (d2 : toolDoc H cfg input2 = treeAround w before [] x)
    (d3 : toolDoc H cfg input3 = treeAround w [] behind x) (d : toolDoc H cfg input = treeAround w before behind x) (fs : Cli.FS) :
    ∃ m u v, (Cli.run env1 args fs).stdout = m ++ [NL] ∧ (Cli.run env2 args fs).stdout = u ++ [NL] ∧ (Cli.run env3 args fs).stdout = m ++ v ++ [NL] ∧
      (Cli.run env args fs).stdout = u ++ v ++ [NL] ∧
      (Cli.run env1 args fs).err = none ∧ (Cli.run env2 args fs).err = none ∧ (Cli.run env3 args fs).err = none ∧ (Cli.run env args fs).err = none := by
  have hpd : Page (toolDoc H cfg input) := CliConvert.selectors_page hp
  rw [d] at hpd
  obtain ⟨md, e, -⟩ := c30_conversion_no_panic_partial (E := toolEnv H cfg) hpd (tool_validate.2 h.strong) (tool_delimiters H hd) (tool_strike H) ha (.inl rfl)
  obtain ⟨m, u, v, e1, e2, e3, e4, -⟩ := c104_code_separates (E := toolEnv H cfg) hw hb (.inl rfl) h0 h1 hx before behind e
  rw [← e] at e4
  rw [← d1] at e1
  rw [← d2] at e2
  rw [← d3] at e3
  rw [← d] at e4
  obtain ⟨r1, s1, -⟩ := c85_run S H he1 hf1 hargs hver hin hout hstdin1 h e1 fs
  obtain ⟨r2, s2, -⟩ := c85_run S H he2 hf2 hargs hver hin hout hstdin2 h e2 fs
  obtain ⟨r3, s3, -⟩ := c85_run S H he3 hf3 hargs hver hin hout hstdin3 h e3 fs
  obtain ⟨r4, s4, -⟩ := c85_run S H he hf hargs hver hin hout hstdin h e4 fs
  exact ⟨m, u, v, s1, s2, s3, s4, r1, r2, r3, r4⟩

end engine

/-! ### Beside the theorems -/

/-- `<pre><code class="language-go"><span>if</span> a* &lt; b {\n\n}\n</code></pre>`. -/
def goCode : Node := .elem b!"pre" [] [.elem b!"code" [(b!"class", b!"language-go")] [.elem b!"span" [] [.text b!"if"], .text b!" a* < b {\n\n}\n"]]

theorem goCode_code : CodeBlock goCode := ⟨[], _, rfl, .inr ⟨_, _, rfl, b!"if a* < b {\n\n}\n", rfl, by decide⟩⟩

/-- The code block between lists. -/
theorem goCode_converted : convertNode titleEnv (treeAround [] [titleFront] [titleBack] goCode) =
    some b!"- a\n\n\\*b\n\n```go\nif a* < b {\n\n}\n```\n\nc*\n\n- d" := by
  simp only [convertNode, preRender, strikePreRender, DomUtils.handlePreRender, mergeAdjacent_eq]
  decide +kernel

example : Continued (convertNode titleEnv (treeAround [] [] [] goCode)) (convertNode titleEnv (treeAround [] [titleFront] [] goCode))
    (convertNode titleEnv (treeAround [] [] [titleBack] goCode)) (some b!"- a\n\n\\*b\n\n```go\nif a* < b {\n\n}\n```\n\nc*\n\n- d") :=
  c104_code_separates (by decide) ⟨by decide, by decide, by decide, by decide⟩ (.inl (by decide)) (by decide) (by decide) goCode_code _ _ goCode_converted

example : convertNode titleEnv (treeAround [] [titleFront] [titleBack] goCode) ≠ none ↔
    ¬ (convertNode titleEnv (treeAround [] [titleFront] [] goCode) = none ∨ convertNode titleEnv (treeAround [] [] [titleBack] goCode) = none) :=
  not_congr (c104_code_panics titleEnv (by decide) ⟨by decide, by decide, by decide, by decide⟩ goCode_code _ _)

/-- `<pre>a<br><span>*b<br></span>  c</pre>`: lines with line breaks between them. -/
def brCode : Node := .elem b!"pre" [] [.text b!"a", .elem b!"br" [] [], .elem b!"span" [] [.text b!"*b", .elem b!"br" [] []], .text b!"  c"]

theorem brCode_code : CodeBlock brCode := ⟨[], _, rfl, .inl ⟨b!"a*b  c", rfl, by decide⟩⟩

theorem brCode_converted : convertNode titleEnv (treeAround [] [titleFront] [titleBack] brCode) =
    some b!"- a\n\n\\*b\n\n```\na\n*b\n  c\n```\n\nc*\n\n- d" := by
  simp only [convertNode, preRender, strikePreRender, DomUtils.handlePreRender, mergeAdjacent_eq]
  decide +kernel

example : Continued (convertNode titleEnv (treeAround [] [] [] brCode)) (convertNode titleEnv (treeAround [] [titleFront] [] brCode))
    (convertNode titleEnv (treeAround [] [] [titleBack] brCode)) (some b!"- a\n\n\\*b\n\n```\na\n*b\n  c\n```\n\nc*\n\n- d") :=
  c104_code_separates (by decide) ⟨by decide, by decide, by decide, by decide⟩ (.inl (by decide)) (by decide) (by decide) brCode_code _ _ brCode_converted

end Verif.Props
