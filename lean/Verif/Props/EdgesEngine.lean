import Verif.Props.Edges
import Verif.Props.Everyday
/-!
# C33 and C94 for the functions of the package and for the command line tool
-/

namespace Verif.Props
open Verif Verif.Engine Verif.Stock Verif.Spec

variable (S : GoSort) (H : CliConvert.Html)

/-- Markdown for a document: no white space at its ends, and, if the document has no `pre` element, no two blank lines in a row. -/
structure Neat (doc : Node) (md : Bytes) : Prop where
  first : NoLeadingWhitespace md
  last : NoTrailingWhitespace md
  blank : (∀ i ∈ items [] doc, ∀ n a, i.what = .elem n a → n ≠ b!"pre") → ∀ a sp1 sp2 b : Bytes, (∀ x ∈ sp1, x = 32) → (∀ x ∈ sp2, x = 32) →
    md ≠ a ++ (10 :: sp1 ++ 10 :: sp2 ++ 10 :: b)

theorem neat {E : Render.Env} {doc : Node} (hp : Page doc) (hv : Config.validate E.cfg = none) (hd : PlainDelimiters E.cfg)
    (hs : PlainStrike E) (ha : ∀ u, Utf8 u → Utf8 (E.assemble u)) (hu : UnmarkedOptions E) (hn : Unmarked doc) (hm : E.mode = .smart) :
    ∃ md, Render.convertNode E doc = some md ∧ Neat doc md := by
  obtain ⟨md, e, -⟩ := c30_conversion_no_panic_partial hp hv hd hs ha (.inl hm)
  have h := c33_document_partial hp hv hd hs ha hu hn (.inl hm) e
  exact ⟨md, e, h.1, h.2, fun hpre a sp1 sp2 b h1 h2 => c94_one_blank_line_partial hp hv hd hs ha hu hn (.inl hm) hpre e a sp1 sp2 b h1 h2⟩

/-- **C33** and **C94** for the functions of the package, partial: the document and the addresses have no bell character and no U+F002. -/
theorem c94_package_partial {L : Lib} {ctx : Ctx Bool} (hctx : ctx.values b!"is_inside_link" ≠ some true)
    (ha : ∀ u, Utf8 u → Utf8 (L.assemble ctx.domain u)) (hau : ∀ u, Utf8 u → NoMarks u → NoMarks (L.assemble ctx.domain u))
    {doc : Node} (hp : Page doc) (hn : Unmarked doc) :
    ∃ md, Neat doc md ∧
      ∃ n, ∀ fuel, n ≤ fuel → Engine.convertNode S L.tables (defaultConverter L) fuel ctx doc = some (.ok md, defaultConverter L) := by
  obtain ⟨md, e, hc⟩ := neat (E := defaultEnv L ctx.domain) hp (show Config.validate (Config.newPlugin []) = none by decide +kernel)
    (show PlainDelimiters (Config.newPlugin []) by unfold PlainDelimiters; decide) (by simp [PlainStrike, defaultEnv]) ha
    ⟨show ∀ d ∈ [(Config.newPlugin []).emDelimiter, (Config.newPlugin []).strongDelimiter, (Config.newPlugin []).horizontalRule], 7 ∉ d by decide,
      by simp [defaultEnv], hau⟩ hn rfl
  exact ⟨md, hc, c83_default S L hctx e⟩

/-- **C33** and **C94** for the command line tool, partial: the selected parts of the document, the addresses and the delimiter for bold text have no bell
character and no U+F002. -/
theorem c94_tool_partial {env : Cli.Env} (he : UsesEngine S H env) {args : List Bytes} {cfg : Cli.Config}
    (hf : Cli.parseFlags env.parseSelector args = .ok cfg) (hargs : cfg.args = []) (hver : cfg.version = false) (hin : cfg.input = []) (hout : cfg.output = [])
    {input : Bytes} (hstdin : env.stdin = some input) (h : ToolAccepts cfg) (hd : ∀ b ∈ cfg.strongDelimiter, b < 128 ∧ b ≠ 35 ∧ b ≠ 7)
    (ha : ∀ u, Utf8 u → Utf8 (H.lib.assemble cfg.domain u)) (hau : ∀ u, Utf8 u → NoMarks u → NoMarks (H.lib.assemble cfg.domain u))
    (hp : Page (H.parse input)) (hn : Unmarked (toolDoc H cfg input)) (fs : Cli.FS) :
    ∃ md, Neat (toolDoc H cfg input) md ∧ (Cli.run env args fs).err = none ∧
      (Cli.run env args fs).stdout = md ++ [NL] ∧ ∀ s ∈ (Cli.run env args fs).states, s = fs := by
  have hu : UnmarkedOptions (toolEnv H cfg) := by
    refine ⟨?_, ?_, hau⟩
    · intro d hdm
      simp only [List.mem_cons, List.not_mem_nil, or_false] at hdm
      rcases hdm with rfl | rfl | rfl
      · exact show 7 ∉ b!"*" by decide
      · show 7 ∉ (if cfg.strongDelimiter = [] then b!"**" else cfg.strongDelimiter)
        split
        · decide
        · exact fun h7 => (hd 7 h7).2.2 rfl
      · exact show 7 ∉ b!"* * *" by decide
    · intro d hdm
      have : d = b!"~~" := by
        rw [toolEnv] at hdm
        simp only at hdm
        split at hdm
        · simpa using hdm.symm
        · simp at hdm
      rw [this]; decide
  obtain ⟨md, e, hc⟩ := neat (E := toolEnv H cfg) (CliConvert.selectors_page hp) (tool_validate.2 h.strong)
    (tool_delimiters H fun b hb => ⟨(hd b hb).1, (hd b hb).2.1⟩) (tool_strike H) ha hu hn rfl
  exact ⟨md, hc, c85_run S H he hf hargs hver hin hout hstdin h e fs⟩

/-! ### Beside the theorems -/

/-- The page of C94 with the functions of the package. -/
example : ∃ md, Neat blankPage md ∧ ∃ n, ∀ fuel, n ≤ fuel →
    Engine.convertNode S demoLib.tables (defaultConverter demoLib) fuel {} blankPage = some (.ok md, defaultConverter demoLib) :=
  c94_package_partial S (ctx := {}) (by simp) (fun _ hu => by exact hu) (fun _ _ h => by exact h) blankPage_ok (unmarked_of (by decide +kernel))

end Verif.Props
