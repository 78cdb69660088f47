import Verif.Props.Render
import Verif.Props.CliConvert
/-!
# C89: every page is converted, and completely
-/

namespace Verif.Props
open Verif Verif.Engine Verif.Stock Verif.Spec

variable (S : GoSort) (H : CliConvert.Html)

/-- Markdown for a page with the visible characters `cs`: it is UTF-8, has none of the characters the library uses internally (the bell and
U+F002), and shows all of `cs` in their order. -/
structure Complete (cs : List Bytes) (md : Bytes) : Prop where
  utf8 : Utf8 md
  no_bell : 7 ∉ md
  no_mark : ¬ [239, 128, 130] <:+: md
  shows : Shows (visibleChars md) cs

theorem complete {E : Render.Env} {doc : Node} (hp : Page doc) (hv : Config.validate E.cfg = none) (hd : PlainDelimiters E.cfg)
    (hs : PlainStrike E) (ha : ∀ u, Utf8 u → Utf8 (E.assemble u)) (hm : E.mode = .smart) (ht : Tables TopDown E doc) :
    ∃ md, Render.convertNode E doc = some md ∧ Complete (pageChars doc) md := by
  obtain ⟨md, e, hu⟩ := c30_conversion_no_panic_partial hp hv hd hs ha (.inl hm)
  obtain ⟨h1, h2⟩ := c65_document E doc md e
  exact ⟨md, e, hu, h2 hm, h1, c64_visible_text_partial hp hv hd hs ha (.inl hm) ht e⟩

/-- **C89** for the functions of the package: `ConvertNode` (and so `ConvertString` and `ConvertReader` after parsing) returns, for every page, Markdown
and no error, and the Markdown is complete. -/
theorem c89_package {L : Lib} {ctx : Ctx Bool} (hctx : ctx.values b!"is_inside_link" ≠ some true) (ha : ∀ u, Utf8 u → Utf8 (L.assemble ctx.domain u))
    {doc : Node} (hp : Page doc) :
    ∃ md, Complete (pageChars doc) md ∧
      ∃ n, ∀ fuel, n ≤ fuel → Engine.convertNode S L.tables (defaultConverter L) fuel ctx doc = some (.ok md, defaultConverter L) := by
  obtain ⟨md, e, hc⟩ := complete (E := defaultEnv L ctx.domain) hp (show Config.validate (Config.newPlugin []) = none by decide +kernel)
    (show PlainDelimiters (Config.newPlugin []) by unfold PlainDelimiters; decide) (by simp [PlainStrike, defaultEnv]) ha rfl
    (by simp [Tables, defaultEnv])
  exact ⟨md, hc, c83_default S L hctx e⟩

theorem tool_complete {cfg : Cli.Config} {input : Bytes} (h : ToolAccepts cfg) (hd : ∀ b ∈ cfg.strongDelimiter, b < 128 ∧ b ≠ 35)
    (ha : ∀ u, Utf8 u → Utf8 (H.lib.assemble cfg.domain u)) (hp : Page (H.parse input))
    (ht : cfg.table = true → Tables TopDown (toolEnv H cfg) (toolDoc H cfg input)) :
    ∃ md, Render.convertNode (toolEnv H cfg) (toolDoc H cfg input) = some md ∧ Complete (pageChars (toolDoc H cfg input)) md := by
  refine complete (CliConvert.selectors_page hp) (tool_validate.2 h.strong) (tool_delimiters H hd) (tool_strike H) ha rfl fun hE => ?_
  refine ht ?_ hE
  cases hc : cfg.table with
  | true => rfl
  | false => simp [toolEnv, hc] at hE

/-- **C89** for the command line tool: with accepted flags (and a delimiter for bold text of one-byte characters other than `#`) a run that reads a page
from stdin and writes to stdout prints complete Markdown for the selected parts of the page, and a newline, and changes no file.  With the table plugin the
tables of the page are to be read from top to bottom (the header row is written first and the caption last). -/
theorem c89_tool {env : Cli.Env} (he : UsesEngine S H env) {args : List Bytes} {cfg : Cli.Config}
    (hf : Cli.parseFlags env.parseSelector args = .ok cfg) (hargs : cfg.args = []) (hver : cfg.version = false) (hin : cfg.input = []) (hout : cfg.output = [])
    {input : Bytes} (hstdin : env.stdin = some input) (h : ToolAccepts cfg) (hd : ∀ b ∈ cfg.strongDelimiter, b < 128 ∧ b ≠ 35)
    (ha : ∀ u, Utf8 u → Utf8 (H.lib.assemble cfg.domain u)) (hp : Page (H.parse input))
    (ht : cfg.table = true → Tables TopDown (toolEnv H cfg) (toolDoc H cfg input)) (fs : Cli.FS) :
    ∃ md, Complete (pageChars (toolDoc H cfg input)) md ∧ (Cli.run env args fs).err = none ∧
      (Cli.run env args fs).stdout = md ++ [NL] ∧ ∀ s ∈ (Cli.run env args fs).states, s = fs := by
  obtain ⟨md, e, hc⟩ := tool_complete H h hd ha hp ht
  exact ⟨md, hc, c85_run S H he hf hargs hver hin hout hstdin h e fs⟩

/-- **C89** for the command line tool and one file: the same for a run that reads a page from a file. -/
theorem c89_tool_file {env : Cli.Env} (he : UsesEngine S H env) {args : List Bytes} {cfg : Cli.Config}
    (hf : Cli.parseFlags env.parseSelector args = .ok cfg) (hargs : cfg.args = []) (hver : cfg.version = false) (hin : cfg.input ≠ []) (hout : cfg.output = [])
    {path input : Bytes} {fs : Cli.FS} (hglob : env.glob cfg.input = some [path]) (hfile : fs path = some (.file input))
    (h : ToolAccepts cfg) (hd : ∀ b ∈ cfg.strongDelimiter, b < 128 ∧ b ≠ 35)
    (ha : ∀ u, Utf8 u → Utf8 (H.lib.assemble cfg.domain u)) (hp : Page (H.parse input))
    (ht : cfg.table = true → Tables TopDown (toolEnv H cfg) (toolDoc H cfg input)) :
    ∃ md, Complete (pageChars (toolDoc H cfg input)) md ∧ (Cli.run env args fs).err = none ∧
      (Cli.run env args fs).stdout = md ++ [NL] ∧ ∀ s ∈ (Cli.run env args fs).states, s = fs := by
  obtain ⟨md, e, hc⟩ := tool_complete H h hd ha hp ht
  exact ⟨md, hc, c85_run_file S H he hf hargs hver hin hout hglob hfile h e⟩

/-! ### Beside the theorems -/

/-- A page of C64 (headings, lists, code, links, text with `<` and `é`) is such a page. -/
example : ∃ md, Complete (pageChars demoPage) md ∧ ∃ n, ∀ fuel, n ≤ fuel →
    Engine.convertNode S demoLib.tables (defaultConverter demoLib) fuel {} demoPage = some (.ok md, defaultConverter demoLib) :=
  c89_package S (ctx := {}) (by simp) (fun _ hu => by exact hu) demoPage_ok
/-- A tool that reads this page, whatever the input. -/
def everydayHtml : CliConvert.Html := ⟨demoLib, fun _ => demoPage, fun sels _ n => n.name ∈ sels⟩
/-- `html2markdown --plugin-strikethrough`: what is asked of the flags and of the page. -/
example : (Cli.parseFlags exEnv.parseSelector [b!"--plugin-strikethrough"]).toOption = some { strikethrough := true } ∧
    ToolAccepts { strikethrough := true } ∧ Page (everydayHtml.parse b!"") :=
  ⟨by decide +kernel, ⟨by decide, by decide, by decide, by decide⟩, demoPage_ok⟩

end Verif.Props
