import Verif.Model.Cli
import Verif.Model.CliDom
import Verif.Model.Stock
/-!
# Model of the conversion of the command line tool

`/repo/cli/html2markdown/cmd/cmd_convert.go`, with the plugins of `Verif.Model.Stock`
-/

namespace Verif.CliConvert
open Verif Verif.Engine Verif.Stock

/-- What the conversion uses from outside. The libraries of `/repo/cli/html2markdown/cmd/cmd_convert.go:3-16`. -/
structure Html where
  lib : Lib
  /-- `html.Parse`; reading from memory does not fail -/
  parse : Bytes → Node
  /-- `cascadia.SelectorGroup`: a node matches the group if it matches one of its selectors -/
  group : List Bytes → CliDom.Selector

/-- An empty group of selectors is not used. `/repo/cli/html2markdown/cmd/cmd_convert.go:37` and `:51`. -/
def selector (H : Html) (sels : List Bytes) : Option CliDom.Selector := if sels = [] then none else some (H.group sels)

/-- `/repo/cli/html2markdown/cmd/cmd_convert.go:73-92` `parseInputWithSelectors`. -/
def parseInput (H : Html) (cfg : Cli.Config) (input : Bytes) : Node :=
  CliDom.withSelectors (selector H cfg.includeSel) (selector H cfg.excludeSel) (H.parse input)

/-- `/repo/cli/html2markdown/cmd/cmd_convert.go:108-119`: the options of the table plugin. -/
def tableOptions (cfg : Cli.Config) : List TableOption :=
  [.skipEmptyRows cfg.skipEmptyRows, .headerPromotion cfg.headerPromotion, .spanCells cfg.spanCellBehavior,
   .presentationTables cfg.presentationTables, .newlines cfg.newlineBehavior, .padding cfg.cellPaddingBehavior]

/-- `/repo/cli/html2markdown/cmd/cmd_convert.go:95-120`: the converter. -/
def converter (L : Lib) (cfg : Cli.Config) : Conv Bool :=
  let conv := newConverter [withPlugins [basePlugin L, commonmarkPlugin L [fun c => { c with strongDelimiter := cfg.strongDelimiter }]]]
  let conv := if cfg.strikethrough then apply conv (strikePlugin []) else conv
  if cfg.table then apply conv (tablePlugin (tableOptions cfg)) else conv

/-- `/repo/cli/html2markdown/cmd/cmd_convert.go:94-137` `convert`, without the rewording of the error (`:21-34`).  `none` is a panic, or
not enough fuel. -/
def convert (S : GoSort) (H : Html) (fuel : Nat) (cfg : Cli.Config) (input : Bytes) : Option (Except Err Bytes) :=
  (Engine.convertNode S H.lib.tables (converter H.lib cfg) fuel { domain := cfg.domain } (parseInput H cfg input)).map (·.1)

end Verif.CliConvert
