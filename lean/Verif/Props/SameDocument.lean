import Verif.Spec.SameDocument
import Verif.Props.Alike
import Verif.Props.Invisible
import Verif.Props.PageEngine
/-!
# C98 and C99 together, and C82 for all documents that are the same as a page
-/

namespace Verif.Props
open Verif Verif.Render Verif.Spec

/-- **C98, C99** Documents that are the same for a reader have the same Markdown. -/
theorem c99_same_document {E : Env} {d d' : Node} (h : SameDocument E.tables d d') : convertNode E d = convertNode E d' := by
  induction h with
  | meaning h => exact c98_same_meaning h
  | looks h => exact c99_looks_same h
  | doctype d cs => exact c99_doctype E d cs
  | symm _ ih => exact ih.symm
  | trans _ _ h1 h2 => exact h1.trans h2

/-- **C82** for documents as they are found, partial (what is missing in `c82_page_partial`): with a doctype, attributes, comments, scripts, styles, and with other names of the same meaning. -/
theorem c82_document_partial {E : Env} (hE : PageSettings E) (headNodes : List Node) {bs : List Block} (h : PageOK (pageStyle E) bs) {doc : Node}
    (hs : SameDocument E.tables doc (htmlPage headNodes bs)) : ∃ md, convertNode E doc = some md ∧ readMarkdown md = some (mdL E.assemble bs) := by
  obtain ⟨md, e, hr⟩ := c82_page_partial hE headNodes h
  exact ⟨md, by rw [c99_same_document hs, e], hr⟩

section engine
open Verif.Engine Verif.Stock
variable (S : GoSort) (H : CliConvert.Html)

/-- **C82** for the functions of the package and documents as they are found, partial as above. -/
theorem c82_package_document_partial {L : Lib} (hL : PageLib L) {ctx : Ctx Bool} (hctx : ctx.values b!"is_inside_link" ≠ some true) (headNodes : List Node)
    {bs : List Block} (h : PageOK (defaultStyle L ctx.domain) bs) {doc : Node} (hs : SameDocument L.tables doc (htmlPage headNodes bs)) :
    ∃ md, readMarkdown md = some (mdL (L.assemble ctx.domain) bs) ∧
      ∃ n, ∀ fuel, n ≤ fuel → Engine.convertNode S L.tables (defaultConverter L) fuel ctx doc = some (.ok md, defaultConverter L) := by
  have hE : PageSettings (defaultEnv L ctx.domain) := settings_of hL ⟨b!"**", by decide, rfl⟩ rfl rfl rfl
  obtain ⟨md, e, hr⟩ := c82_document_partial hE headNodes h hs
  exact ⟨md, hr, c83_default S L hctx e⟩

/-- **C82** for the command line tool and documents as they are found (after the selectors were applied), partial as above. -/
theorem c82_tool_document_partial (hL : PageLib H.lib) {env : Cli.Env} (he : UsesEngine S H env) {args : List Bytes} {cfg : Cli.Config}
    (hf : Cli.parseFlags env.parseSelector args = .ok cfg) (hargs : cfg.args = []) (hver : cfg.version = false) (hin : cfg.input = []) (hout : cfg.output = [])
    {input : Bytes} (hstdin : env.stdin = some input) (h : ToolAccepts cfg) (hstrong : cfg.strongDelimiter ∈ [[], b!"**", b!"__"])
    {headNodes : List Node} {bs : List Block} (hpage : SameDocument H.lib.tables (toolDoc H cfg input) (htmlPage headNodes bs))
    (hbs : PageOK (toolStyle H cfg) bs) (fs : Cli.FS) :
    ∃ md, readMarkdown md = some (mdL (H.lib.assemble cfg.domain) bs) ∧ (Cli.run env args fs).err = none ∧
      (Cli.run env args fs).stdout = md ++ [NL] ∧ ∀ s ∈ (Cli.run env args fs).states, s = fs := by
  have hE : PageSettings (toolEnv H cfg) := by
    refine settings_of hL ⟨if cfg.strongDelimiter = [] then b!"**" else cfg.strongDelimiter, ?_, rfl⟩ rfl rfl rfl
    simp only [List.mem_cons, List.not_mem_nil, or_false] at hstrong
    rcases hstrong with e | e | e <;> rw [e] <;> decide
  have hst : pageStyle (toolEnv H cfg) = toolStyle H cfg := by
    simp only [List.mem_cons, List.not_mem_nil, or_false] at hstrong
    rcases hstrong with e | e | e <;> (simp only [pageStyle, toolStyle, toolEnv, e]; rfl)
  obtain ⟨md, e, hr⟩ := c82_document_partial hE headNodes (bs := bs) (by rw [hst]; exact hbs) hpage
  exact ⟨md, hr, c85_run S H he hf hargs hver hin hout hstdin h e fs⟩

end engine

/-! ### Beside the theorems -/

/-- `<!DOCTYPE html><html lang="en"><head></head><body class="x"><!-- y --><h1 id="a">A</h1><p>b <strong>c</strong></p><script>z</script></body></html>`,
with the text `b ` in two pieces. -/
def foundPage : Node := .document [.doctype b!"html", .elem b!"html" [(b!"lang", b!"en")] [.elem b!"head" [] [], .elem b!"body" [(b!"class", b!"x")]
  [.comment b!" y ", .elem b!"h1" [(b!"id", b!"a")] [.text b!"A"], .elem b!"p" [] [.text b!"b", .text b!" ", .elem b!"strong" [] [.text b!"c"]],
    .elem b!"script" [] [.text b!"z"]]]]

/-- The same page without what does not count. -/
def foundBlocks : List Block := [.heading 1 b!"A", .rich b!"b " [(.emph b!"b" b!"c" [], [])]]

theorem foundPage_same : SameDocument pageEnv.tables foundPage (htmlPage [] foundBlocks) := by
  refine .trans (.doctype _ _) (.trans (.looks (.inside _ (.behind _ (.inside _ (.trans (.hidden _ (.comment _)) (.behind _ (.trans
    (.inside _ (.split _ _ _)) (.behind _ (.hidden _ (.elem _ _ (by decide)))))))))) ) (.meaning (.document (.cons ?_ .nil))))
  refine .elem (.inl rfl) (by decide) (.cons (.elem (.inl rfl) (by decide) .nil) (.cons (.elem (.inl rfl) (by decide) (.cons ?_ (.cons ?_ .nil))) .nil))
  · exact .elem (.inl rfl) (by decide) (.cons (.text _) .nil)
  · refine .elem (.inl rfl) (by decide) (.cons (.text _) (.cons (.elem (.inr ⟨by decide, .inl (by decide)⟩) (by decide) (.cons (.text _) .nil)) .nil))

theorem foundBlocks_ok : PageOK (pageStyle pageEnv) foundBlocks := by
  refine ⟨by decide, ?_⟩
  simp only [foundBlocks, BlocksOK, Block.OK, and_true]
  refine ⟨⟨by decide, by decide, by decide, textOK (by decide)⟩, ⟨by decide, charsOK (by decide), by unfold NoLeadingWhitespace; decide, by decide, ?_,
    .inl (by unfold Spec.visibleText; decide)⟩⟩
  simp only [RestOK, Inl.OK]
  check_elements

/-- What is read from the Markdown of `foundPage`. -/
example : ∃ md, convertNode pageEnv foundPage = some md ∧
    readMarkdown md = some [.heading 1 [.text b!"A"], .paragraph [.text b!"b ", .strong [.text b!"c"]]] :=
  c82_document_partial pageEnv_ok [] foundBlocks_ok foundPage_same

end Verif.Props
