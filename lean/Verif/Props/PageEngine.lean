import Verif.Props.Page
import Verif.Props.CliConvert
/-!
# C82 for the functions of the package and for the command line tool
-/

namespace Verif.Props
open Verif Verif.Engine Verif.Stock Verif.Spec

/-- What is used of the libraries: `unicode.IsDigit` holds of the digits of ASCII and not of NUL and line feed; the elements of pages are block
elements, those of paragraphs are not. -/
structure PageLib (L : Lib) : Prop where
  digits : DigitsOK L.isDigit
  no_digit : L.isDigit 0 = false ∧ L.isDigit 10 = false
  names : ∀ n ∈ [b!"p", b!"h1", b!"h2", b!"h3", b!"h4", b!"h5", b!"h6", b!"hr", b!"pre", b!"ul", b!"ol", b!"li", b!"html", b!"body",
    b!"blockquote"] ++ groupNames, L.tables.isBlock n = true
  inline : ∀ n ∈ [b!"strong", b!"b", b!"em", b!"i", b!"code", b!"a", b!"img"], L.tables.isBlock n = false

theorem settings_of {L : Lib} (hL : PageLib L) {E : Render.Env} (hcfg : ∃ d ∈ [b!"**", b!"__"], E.cfg = { Config.newPlugin [] with strongDelimiter := d })
    (hmode : E.mode = .smart) (hdig : E.isDigit = L.isDigit) (htab : E.tables = L.tables) : PageSettings E where
  documented := by
    obtain ⟨d, hd, e⟩ := hcfg
    rw [e]
    have h0 : Documented (Config.newPlugin []) := ⟨by decide, by decide, by decide, by decide, by decide, by decide, by decide⟩
    exact ⟨h0.em, hd, h0.rule, h0.bullet, h0.fence, h0.heading, h0.link⟩
  smart := hmode
  comments := by obtain ⟨d, hd, e⟩ := hcfg; rw [e]; rfl
  rule_ends := by
    obtain ⟨d, hd, e⟩ := hcfg
    rw [e]
    rintro b (rfl | rfl) <;> exact ⟨show b!"* * *".head? ≠ _ by decide, show b!"* * *".getLast? ≠ _ by decide⟩
  rule_bullet := by
    obtain ⟨d, hd, e⟩ := hcfg
    rw [e]
    exact show ∀ b ∈ b!"-", b ∉ b!"* * *" by decide
  digits := by rw [hdig]; exact hL.digits
  no_digit := by rw [hdig]; exact hL.no_digit
  names := by rw [htab]; exact hL.names
  inline := by rw [htab]; exact hL.inline
  inlined := by obtain ⟨d, hd, e⟩ := hcfg; rw [e]; rfl

/-- The style of the default options. -/
def defaultStyle (L : Lib) (domain : Bytes) : Style where
  bullet := b!"-"
  em := 42
  strong := 42
  resolve := L.assemble domain

variable (S : GoSort) (H : CliConvert.Html)

/-- **C82** for `ConvertNode` of the package (and `ConvertString`, `ConvertReader` after parsing), partial: the Markdown of a page is read as
the page.  Missing is what is missing in `c82_page_partial`. -/
theorem c82_package_partial {L : Lib} (hL : PageLib L) {ctx : Ctx Bool} (hctx : ctx.values b!"is_inside_link" ≠ some true) (headNodes : List Node)
    {bs : List Block} (h : PageOK (defaultStyle L ctx.domain) bs) :
    ∃ md, readMarkdown md = some (mdL (L.assemble ctx.domain) bs) ∧
      ∃ n, ∀ fuel, n ≤ fuel → Engine.convertNode S L.tables (defaultConverter L) fuel ctx (htmlPage headNodes bs) = some (.ok md, defaultConverter L) := by
  have hE : PageSettings (defaultEnv L ctx.domain) := settings_of hL ⟨b!"**", by decide, rfl⟩ rfl rfl rfl
  obtain ⟨md, e, hr⟩ := c82_page_partial hE headNodes h
  exact ⟨md, hr, c83_default S L hctx e⟩

/-- The style of the tool: the character of the bold delimiter can be chosen. -/
def toolStyle (cfg : Cli.Config) : Style where
  bullet := b!"-"
  em := 42
  strong := cfg.strongDelimiter.headD 42
  resolve := H.lib.assemble cfg.domain

/-- **C82** for the command line tool, partial: a run that reads a page from stdin and writes to stdout, without selectors and with the default or
a documented delimiter for bold text, prints Markdown that is read as the page, and a newline.  The plugins for tables and strikethrough may be there.
Missing is what is missing in `c82_page_partial`. -/
theorem c82_tool_partial (hL : PageLib H.lib) {env : Cli.Env} (he : UsesEngine S H env) {args : List Bytes} {cfg : Cli.Config}
    (hf : Cli.parseFlags env.parseSelector args = .ok cfg) (hargs : cfg.args = []) (hver : cfg.version = false) (hin : cfg.input = []) (hout : cfg.output = [])
    {input : Bytes} (hstdin : env.stdin = some input) (h : ToolAccepts cfg) (hstrong : cfg.strongDelimiter ∈ [[], b!"**", b!"__"])
    (hsel : cfg.includeSel = [] ∧ cfg.excludeSel = []) {headNodes : List Node} {bs : List Block} (hpage : H.parse input = htmlPage headNodes bs)
    (hbs : PageOK (toolStyle H cfg) bs) (fs : Cli.FS) :
    ∃ md, readMarkdown md = some (mdL (H.lib.assemble cfg.domain) bs) ∧ (Cli.run env args fs).err = none ∧
      (Cli.run env args fs).stdout = md ++ [NL] ∧ ∀ s ∈ (Cli.run env args fs).states, s = fs := by
  have hE : PageSettings (toolEnv H cfg) := by
    refine settings_of hL ⟨if cfg.strongDelimiter = [] then b!"**" else cfg.strongDelimiter, ?_, rfl⟩ rfl rfl rfl
    simp only [List.mem_cons, List.not_mem_nil, or_false] at hstrong
    rcases hstrong with e | e | e <;> rw [e] <;> decide
  have hst : pageStyle (toolEnv H cfg) = toolStyle H cfg := by
    simp only [List.mem_cons, List.not_mem_nil, or_false] at hstrong
    rcases hstrong with e | e | e <;> (simp only [pageStyle, toolStyle, toolEnv, e]; rfl)
  obtain ⟨md, e, hr⟩ := c82_page_partial hE headNodes (bs := bs) (by rw [hst]; exact hbs)
  have hdoc : toolDoc H cfg input = htmlPage headNodes bs := by
    rw [toolDoc, hsel.1, hsel.2, hpage]; rfl
  exact ⟨md, hr, c85_run S H he hf hargs hver hin hout hstdin h (by rw [hdoc]; exact e) fs⟩

/-! ### Beside the theorems -/

/-- Libraries. -/
def pageLib : Lib := ⟨pageEnv.tables, pageEnv.isDigit, fun _ url => url, fun _ => []⟩
theorem pageLib_ok : PageLib pageLib := ⟨pageEnv_ok.digits, pageEnv_ok.no_digit, pageEnv_ok.names, pageEnv_ok.inline⟩
/-- The page of C82 with the functions of the package. -/
example : ∃ md, readMarkdown md = some (mdL id samplePage) ∧ ∃ n, ∀ fuel, n ≤ fuel →
    Engine.convertNode S pageLib.tables (defaultConverter pageLib) fuel {} (htmlPage [] samplePage) = some (.ok md, defaultConverter pageLib) :=
  c82_package_partial S (ctx := {}) pageLib_ok (by simp) [] samplePage_ok
/-- A tool that reads this page, whatever the input. -/
def pageHtml : CliConvert.Html := ⟨pageLib, fun _ => htmlPage [] samplePage, fun sels _ n => n.name ∈ sels⟩
/-- `html2markdown --plugin-table`: what is asked of the flags and of the page. -/
example : (Cli.parseFlags exEnv.parseSelector [b!"--plugin-table"]).toOption = some { table := true } ∧ ToolAccepts { table := true } ∧
    PageOK (toolStyle pageHtml { table := true }) samplePage :=
  ⟨by decide +kernel, ⟨by decide, by decide, by decide, by decide⟩, samplePage_ok⟩

end Verif.Props
