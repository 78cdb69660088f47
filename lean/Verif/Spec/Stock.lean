import Verif.Model.Stock
/-!
# Converters with the stock plugins
-/

namespace Verif.Spec
open Verif Verif.Engine Verif.Stock

/-- The stock plugins. -/
inductive Kind | base | commonmark | strikethrough | table
deriving DecidableEq

/-- The options of a converter and of its plugins. -/
structure Options where
  mode : Escape.Mode := .smart
  commonmark : List (Config.Config → Config.Config) := []
  delimiter : Bytes := []
  table : List TableOption := []

/-- A plugin with its options. -/
def Options.plugin (o : Options) (L : Lib) : Kind → Op Bool
  | .base => basePlugin L
  | .commonmark => commonmarkPlugin L o.commonmark
  | .strikethrough => strikePlugin o.delimiter
  | .table => tablePlugin o.table

/-- `converter.NewConverter(WithEscapeMode(mode), WithPlugins(…))` -/
def Options.converter (o : Options) (L : Lib) (kinds : List Kind) : Conv Bool :=
  newConverter [([.escapeMode o.mode], none), withPlugins (kinds.map (o.plugin L))]

/-- The base and the CommonMark plugin are there, none is there twice, and the CommonMark plugin comes before the strikethrough plugin. -/
structure Usual (kinds : List Kind) : Prop where
  once : kinds.Nodup
  base : .base ∈ kinds
  commonmark : .commonmark ∈ kinds
  order : ¬ [.strikethrough, .commonmark].Sublist kinds

/-- The options are accepted; `t` are the settings of the table plugin. -/
structure Options.Valid (o : Options) (kinds : List Kind) (t : Table.Config) : Prop where
  commonmark : Config.validate (Config.newPlugin o.commonmark) = none
  table : .table ∈ kinds → tableConfig o.table = .ok t

/-- The settings of a conversion with these plugins, as `Render.convertNode` takes them. -/
def Options.env (o : Options) (L : Lib) (kinds : List Kind) (t : Table.Config) (domain : Bytes) : Render.Env where
  cfg := Config.newPlugin o.commonmark
  mode := o.mode
  assemble := L.assemble domain
  tables := L.tables
  isDigit := L.isDigit
  strike := if .strikethrough ∈ kinds then some (Config.orDefault o.delimiter b!"~~") else none
  table := if .table ∈ kinds then some t else none

/-! ## The options of the table plugin -/

/-- The values that an option knows; the empty string counts as not given. -/
def Known : TableOption → Prop
  | .spanCells b => b ∈ [b!"", b!"empty", b!"mirror"]
  | .newlines b => b ∈ [b!"", b!"skip", b!"preserve"]
  | .padding b => b ∈ [b!"", b!"aligned", b!"minimal", b!"none"]
  | _ => True

/-- What an option says about cells that span others. -/
def spanOf : TableOption → Option Table.SpanBehavior
  | .spanCells b => if b = b!"empty" then some .empty else if b = b!"mirror" then some .mirror else none
  | _ => none
/-- What an option says about newlines in cells. -/
def newlineOf : TableOption → Option Table.NewlineBehavior
  | .newlines b => if b = b!"skip" then some .skip else if b = b!"preserve" then some .preserve else none
  | _ => none
/-- What an option says about the padding; here the empty string means the default. -/
def paddingOf : TableOption → Option Table.Padding
  | .padding b => if b = b!"minimal" then some .minimal else if b = b!"none" then some .none else some .aligned
  | _ => none
/-- What an option says about empty rows. -/
def skipEmptyRowsOf : TableOption → Option Bool
  | .skipEmptyRows b => some b
  | _ => none
/-- What an option says about the first row. -/
def headerPromotionOf : TableOption → Option Bool
  | .headerPromotion b => some b
  | _ => none
/-- What an option says about tables for the layout. -/
def presentationOf : TableOption → Option Bool
  | .presentationTables b => some b
  | _ => none

/-- What the last option that says something says, otherwise the default. -/
def lastSaid {α} (default : α) (says : TableOption → Option α) (opts : List TableOption) : α := ((opts.filterMap says).getLast?).getD default

end Verif.Spec
