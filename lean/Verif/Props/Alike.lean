import Verif.Proofs.AlikeNames
import Verif.Props.EdgesEngine
import Verif.Props.RenderTables
/-!
# C98: documents that mean the same have the same Markdown
-/

namespace Verif.Props
open Verif Verif.Render Verif.Spec

/-- **C98** Documents that mean the same have the same Markdown. (If one of them panics, the other one does, too.) -/
theorem c98_same_meaning {E : Env} {d d' : Node} (h : SameMeaning E.tables d d') : convertNode E d = convertNode E d' := by
  rw [← Alike.canonical_convert, ← Alike.canonical_convert E d', Alike.canonical_eq h]

/-- A step: the attributes of an element that are not used can be changed, dropped and put in another order. -/
theorem c98_attributes {E : Env} {n : Bytes} {a b : List (Bytes × Bytes)} (cs : List Node)
    (h : ∀ key ∈ usedAttributes n, valueOf key a = valueOf key b) : convertNode E (.elem n a cs) = convertNode E (.elem n b cs) := by
  have same : (∀ d, SameMeaning E.tables d d) ∧ ∀ ds, SameMeanings E.tables ds ds :=
    Dom.induct .text .comment (fun d => .doctype d d) (fun _ h => .document h) (fun _ _ _ h => .elem (.inl rfl) (fun _ _ => rfl) h) .nil
      fun _ _ h hs => .cons h hs
  exact c98_same_meaning (.elem (.inl rfl) h (same.2 cs))

section engine
open Verif.Engine Verif.Stock
variable (S : GoSort) (H : CliConvert.Html)

/-- **C98** for the functions of the package. -/
theorem c98_package {L : Lib} {ctx : Ctx Bool} (hctx : ctx.values b!"is_inside_link" ≠ some true)
    (ha : ∀ u, Utf8 u → Utf8 (L.assemble ctx.domain u)) {d d' : Node} (hp : Page d) (h : SameMeaning L.tables d d') :
    ∃ md, ∃ n, ∀ fuel, n ≤ fuel → Engine.convertNode S L.tables (defaultConverter L) fuel ctx d = some (.ok md, defaultConverter L) ∧
      Engine.convertNode S L.tables (defaultConverter L) fuel ctx d' = some (.ok md, defaultConverter L) := by
  obtain ⟨md, e, -⟩ := c30_conversion_no_panic_partial (E := defaultEnv L ctx.domain) hp (show Config.validate (Config.newPlugin []) = none by decide +kernel)
    (show PlainDelimiters (Config.newPlugin []) by unfold PlainDelimiters; decide) (by simp [PlainStrike, defaultEnv]) ha (.inl rfl)
  have e' := e
  rw [c98_same_meaning (E := defaultEnv L ctx.domain) h] at e'
  obtain ⟨n, hn⟩ := c83_default S L hctx e
  obtain ⟨n', hn'⟩ := c83_default S L hctx e'
  exact ⟨md, n + n', fun fuel hf => ⟨hn fuel (by omega), hn' fuel (by omega)⟩⟩

/-- **C98** for the command line tool: two inputs, and the documents that are left after the selectors were applied mean the same. -/
theorem c98_tool {env env' : Cli.Env} (he : UsesEngine S H env) (he' : UsesEngine S H env') {args args' : List Bytes} {cfg : Cli.Config}
    (hf : Cli.parseFlags env.parseSelector args = .ok cfg) (hf' : Cli.parseFlags env'.parseSelector args' = .ok cfg)
    (hargs : cfg.args = []) (hver : cfg.version = false) (hin : cfg.input = []) (hout : cfg.output = [])
    {input input' : Bytes} (hstdin : env.stdin = some input) (hstdin' : env'.stdin = some input') (h : ToolAccepts cfg)
    (hd : ∀ b ∈ cfg.strongDelimiter, b < 128 ∧ b ≠ 35) (ha : ∀ u, Utf8 u → Utf8 (H.lib.assemble cfg.domain u))
    (hp : Page (H.parse input)) (hs : SameMeaning H.lib.tables (toolDoc H cfg input) (toolDoc H cfg input')) (fs fs' : Cli.FS) :
    (Cli.run env args fs).err = none ∧ (Cli.run env' args' fs').err = none ∧ (Cli.run env args fs).stdout = (Cli.run env' args' fs').stdout := by
  obtain ⟨md, e, -⟩ := c30_conversion_no_panic_partial (E := toolEnv H cfg) (doc := toolDoc H cfg input) (CliConvert.selectors_page hp) (tool_validate.2 h.strong)
    (tool_delimiters H hd) (tool_strike H) ha (.inl rfl)
  have e' := e
  rw [c98_same_meaning (E := toolEnv H cfg) hs] at e'
  obtain ⟨h1, h2, -⟩ := c85_run S H he hf hargs hver hin hout hstdin h e fs
  obtain ⟨h1', h2', -⟩ := c85_run S H he' hf' hargs hver hin hout hstdin' h e' fs'
  exact ⟨h1, h1', by rw [h2, h2']⟩

end engine

/-! ### Beside the theorems -/

/-- All plugins; `p`, `section` and a few others are block names. -/
def alikeEnv : Env := { fullEnv with tables := ⟨fun n => n ∈ [b!"p", b!"section", b!"div", b!"body"], fun n => n ∈ [b!"a", b!"b"]⟩ }

/-- `<p id="x"><b>a</b> <i>b</i> <s>c</s> <kbd>d</kbd> <u>e</u> <a href="/x" rel="nofollow">f</a></p>` -/
def alikePage : Node := .elem b!"p" [(b!"id", b!"x")] [.elem b!"b" [] [.text b!"a"], .text b!" ", .elem b!"i" [] [.text b!"b"], .text b!" ",
  .elem b!"s" [] [.text b!"c"], .text b!" ", .elem b!"kbd" [] [.text b!"d"], .text b!" ", .elem b!"u" [] [.text b!"e"], .text b!" ",
  .elem b!"a" [(b!"href", b!"/x"), (b!"rel", b!"nofollow")] [.text b!"f"]]

/-- `<section><strong>a</strong> <em>b</em> <del>c</del> <var>d</var> <mark>e</mark> <a class="y" href="/x">f</a></section>` -/
def alikePage' : Node := .elem b!"section" [] [.elem b!"strong" [] [.text b!"a"], .text b!" ", .elem b!"em" [] [.text b!"b"], .text b!" ",
  .elem b!"del" [] [.text b!"c"], .text b!" ", .elem b!"var" [] [.text b!"d"], .text b!" ", .elem b!"mark" [] [.text b!"e"], .text b!" ",
  .elem b!"a" [(b!"class", b!"y"), (b!"href", b!"/x")] [.text b!"f"]]

example : SameMeaning alikeEnv.tables alikePage alikePage' := by
  have syn : ∀ {m n : Bytes}, (∃ g ∈ synonyms, m ∈ g ∧ n ∈ g) → alikeEnv.tables.isBlock m = alikeEnv.tables.isBlock n → MeansSame alikeEnv.tables m n :=
    fun h h' => .inr ⟨h', .inl h⟩
  have oth : ∀ {m n : Bytes}, m ∉ specialNames → n ∉ specialNames → alikeEnv.tables.isBlock m = alikeEnv.tables.isBlock n → MeansSame alikeEnv.tables m n :=
    fun h h' h'' => .inr ⟨h'', .inr ⟨h, h'⟩⟩
  refine .elem (oth (by decide) (by decide) (by decide)) (by decide) ?_
  refine .cons (.elem (syn (by decide) (by decide)) (by decide) (.cons (.text _) .nil)) (.cons (.text _) ?_)
  refine .cons (.elem (syn (by decide) (by decide)) (by decide) (.cons (.text _) .nil)) (.cons (.text _) ?_)
  refine .cons (.elem (syn (by decide) (by decide)) (by decide) (.cons (.text _) .nil)) (.cons (.text _) ?_)
  refine .cons (.elem (syn (by decide) (by decide)) (by decide) (.cons (.text _) .nil)) (.cons (.text _) ?_)
  refine .cons (.elem (oth (by decide) (by decide) (by decide)) (by decide) (.cons (.text _) .nil)) (.cons (.text _) ?_)
  exact .cons (.elem (.inl rfl) (by decide) (.cons (.text _) .nil)) .nil

theorem alikePage_converted : convertNode alikeEnv alikePage = some b!"**a** *b* ~~c~~ `d` e [f](/x)" := by
  simp only [convertNode, preRender, strikePreRender, DomUtils.handlePreRender, mergeAdjacent_eq]
  decide +kernel

/-! ## Names that look like synonyms and are none -/

/-- `code` does not mean the same as `kbd`, although both are inline code: an empty `code` is left out, an empty `kbd` is not (it becomes two
backticks, the beginning of code). -/
theorem c98_code_is_not_kbd :
    convertNode alikeEnv (.elem b!"p" [] [.text b!"a", .elem b!"code" [] [], .text b!"b"]) = some b!"ab" ∧
    convertNode alikeEnv (.elem b!"p" [] [.text b!"a", .elem b!"kbd" [] [], .text b!"b"]) = some b!"a``b" := by
  constructor <;> (simp only [convertNode, preRender, strikePreRender, DomUtils.handlePreRender, mergeAdjacent_eq]; decide +kernel)

end Verif.Props
