import Verif.Props.Size
import Verif.Props.EdgesEngine
/-!
# C97 for the functions of the package and for the command line tool
-/

namespace Verif.Props
open Verif Verif.Engine Verif.Stock Verif.Spec

variable (S : GoSort) (H : CliConvert.Html)

/-- **C97** for the functions of the package: the constant is the same for all pages. -/
theorem c97_package {L : Lib} {ctx : Ctx Bool} (hctx : ctx.values b!"is_inside_link" ≠ some true)
    (ha : ∀ u, Utf8 u → Utf8 (L.assemble ctx.domain u)) {D : Nat} (hD : ∀ u, (L.assemble ctx.domain u).length ≤ D * (u.length + 1)) :
    ∃ K, ∀ doc, Page doc → ∃ md, md.length ≤ K * pageSize doc ^ 2 ∧
      ∃ n, ∀ fuel, n ≤ fuel → Engine.convertNode S L.tables (defaultConverter L) fuel ctx doc = some (.ok md, defaultConverter L) := by
  obtain ⟨K, hK⟩ := c97_size (E := defaultEnv L ctx.domain) (D := D) ⟨hD,
    show ∀ d ∈ [b!"**", b!"*"], 10 ∉ d ∧ 239 ∉ d by decide⟩ rfl
  refine ⟨K, fun doc hp => ?_⟩
  obtain ⟨md, e, -⟩ := c30_conversion_no_panic_partial (E := defaultEnv L ctx.domain) hp (show Config.validate (Config.newPlugin []) = none by decide +kernel)
    (show PlainDelimiters (Config.newPlugin []) by unfold PlainDelimiters; decide) (by simp [PlainStrike, defaultEnv]) ha (.inl rfl)
  exact ⟨md, hK doc md e, c83_default S L hctx e⟩

/-- **C97** for the command line tool: the constant is the same for all inputs and environments. -/
theorem c97_tool {cfg : Cli.Config} (hargs : cfg.args = []) (hver : cfg.version = false) (hin : cfg.input = []) (hout : cfg.output = [])
    (h : ToolAccepts cfg) (hd : ∀ b ∈ cfg.strongDelimiter, b < 128 ∧ b ≠ 35 ∧ b ≠ 10)
    (ha : ∀ u, Utf8 u → Utf8 (H.lib.assemble cfg.domain u)) {D : Nat} (hD : ∀ u, (H.lib.assemble cfg.domain u).length ≤ D * (u.length + 1)) :
    ∃ K, ∀ (env : Cli.Env) (args : List Bytes) (input : Bytes) (fs : Cli.FS), UsesEngine S H env → Cli.parseFlags env.parseSelector args = .ok cfg →
      env.stdin = some input → Page (H.parse input) →
      (Cli.run env args fs).err = none ∧ (Cli.run env args fs).stdout.length ≤ K * pageSize (toolDoc H cfg input) ^ 8 := by
  have hl : Limited (toolEnv H cfg) D := by
    refine ⟨hD, ?_⟩
    intro d hdm
    simp only [List.mem_cons, Option.mem_toList] at hdm
    rcases hdm with rfl | rfl | hdm
    · show 10 ∉ (if cfg.strongDelimiter = [] then b!"**" else cfg.strongDelimiter) ∧ 239 ∉ (if cfg.strongDelimiter = [] then b!"**" else cfg.strongDelimiter)
      split
      · decide
      · exact ⟨fun h10 => (hd 10 h10).2.2 rfl, fun h239 => absurd (hd 239 h239).1 (by decide)⟩
    · exact show 10 ∉ b!"*" ∧ 239 ∉ b!"*" by decide
    · have : d = b!"~~" := by
        rw [toolEnv] at hdm
        simp only at hdm
        split at hdm
        · simpa using hdm.symm
        · simp at hdm
      rw [this]; decide
  obtain ⟨K, hK⟩ := c97_size_tables hl
  refine ⟨K + 1, fun env args input fs he hf hstdin hp => ?_⟩
  obtain ⟨md, e, -⟩ := c30_conversion_no_panic_partial (E := toolEnv H cfg) (CliConvert.selectors_page hp) (tool_validate.2 h.strong)
    (tool_delimiters H fun b hb => ⟨(hd b hb).1, (hd b hb).2.1⟩) (tool_strike H) ha (.inl rfl)
  obtain ⟨h1, h2, -⟩ := c85_run S H he hf hargs hver hin hout hstdin h e fs
  refine ⟨h1, ?_⟩
  have h3 := hK _ md e
  have h4 : 1 ≤ pageSize (toolDoc H cfg input) ^ 8 := Nat.one_le_pow _ _ (by
    cases toolDoc H cfg input <;> rw [pageSize] <;> omega)
  rw [h2, List.length_append, List.length_singleton, Nat.add_mul, Nat.one_mul]
  exact Nat.add_le_add h3 h4

/-! ### Beside the theorems -/

/-- One constant for all pages. -/
example : ∃ K, ∀ doc, Page doc → ∃ md, md.length ≤ K * pageSize doc ^ 2 ∧ ∃ n, ∀ fuel, n ≤ fuel →
    Engine.convertNode S demoLib.tables (defaultConverter demoLib) fuel {} doc = some (.ok md, defaultConverter demoLib) :=
  c97_package S (ctx := {}) (by simp) (fun _ hu => by exact hu) (D := 1) (fun u => by show u.length ≤ _; omega)

end Verif.Props
