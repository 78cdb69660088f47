import Verif.Model.CliConvert
/-!
# What the flags of the command line tool mean for the conversion
-/

namespace Verif.Spec
open Verif

/-- The settings of the table plugin. -/
def toolTable (cfg : Cli.Config) : Table.Config where
  span := if cfg.spanCellBehavior = b!"mirror" then .mirror else .empty
  newline := if cfg.newlineBehavior = b!"preserve" then .preserve else .skip
  padding := if cfg.cellPaddingBehavior = b!"minimal" then .minimal else if cfg.cellPaddingBehavior = b!"none" then .none else .aligned
  skipEmptyRows := cfg.skipEmptyRows
  promoteFirstRow := cfg.headerPromotion
  presentation := cfg.presentationTables

/-- The settings of a conversion: the defaults of the library, except for bold text, and the plugins that are switched on. -/
def toolEnv (H : CliConvert.Html) (cfg : Cli.Config) : Render.Env where
  cfg := { Config.newPlugin [] with strongDelimiter := if cfg.strongDelimiter = [] then b!"**" else cfg.strongDelimiter }
  mode := .smart
  assemble := H.lib.assemble cfg.domain
  tables := H.lib.tables
  isDigit := H.lib.isDigit
  strike := if cfg.strikethrough then some b!"~~" else none
  table := if cfg.table then some (toolTable cfg) else none

/-- The document that is converted. -/
def toolDoc (H : CliConvert.Html) (cfg : Cli.Config) (input : Bytes) : Node :=
  let sel (l : List Bytes) := if l = [] then none else some (H.group l)
  CliDom.withSelectors (sel cfg.includeSel) (sel cfg.excludeSel) (H.parse input)

/-- The values of the flags are accepted. -/
structure ToolAccepts (cfg : Cli.Config) : Prop where
  strong : cfg.strongDelimiter = [] ∨ cfg.strongDelimiter.count 42 = 2 ∨ cfg.strongDelimiter.count 95 = 2
  span : cfg.table = true → cfg.spanCellBehavior ∈ [b!"", b!"empty", b!"mirror"]
  newline : cfg.table = true → cfg.newlineBehavior ∈ [b!"", b!"skip", b!"preserve"]
  padding : cfg.table = true → cfg.cellPaddingBehavior ∈ [b!"", b!"aligned", b!"minimal", b!"none"]

/-- The conversion ends, with this result. -/
def ToolConverts (S : Engine.GoSort) (H : CliConvert.Html) (cfg : Cli.Config) (input : Bytes) (r : Except Engine.Err Bytes) : Prop :=
  ∃ n, ∀ fuel, n ≤ fuel → CliConvert.convert S H fuel cfg input = some r

end Verif.Spec
