import Verif.Basic.Bytes
/-!
# Model of the configuration of the CommonMark plugin

`/repo/plugin/commonmark/options.go`, `/repo/plugin/commonmark/validation.go`
-/

namespace Verif.Config
open Verif

/-- `/repo/plugin/commonmark/options.go:41-83` `config`. -/
structure Config where
  emDelimiter : Bytes := []
  strongDelimiter : Bytes := []
  horizontalRule : Bytes := []
  bulletListMarker : Bytes := []
  disableListEndComment : Bool := false
  codeBlockFence : Bytes := []
  headingStyle : Bytes := []
  linkStyle : Bytes := []
  linkEmptyHrefBehavior : Bytes := []
  linkEmptyContentBehavior : Bytes := []
deriving DecidableEq

/-- `if cfg.X == "" { cfg.X = d }`.  `/repo/plugin/commonmark/options.go:85-130`. -/
def orDefault (x d : Bytes) : Bytes := if x = [] then d else x

/-- `/repo/plugin/commonmark/options.go:85-130` `fillInDefaultConfig`. -/
def fillInDefault (cfg : Config) : Config where
  emDelimiter := orDefault cfg.emDelimiter b!"*"
  strongDelimiter := orDefault cfg.strongDelimiter b!"**"
  horizontalRule := orDefault cfg.horizontalRule b!"* * *"
  bulletListMarker := orDefault cfg.bulletListMarker b!"-"
  disableListEndComment := cfg.disableListEndComment
  codeBlockFence := orDefault cfg.codeBlockFence b!"```"
  headingStyle := orDefault cfg.headingStyle b!"atx"
  linkStyle := orDefault cfg.linkStyle b!"inlined"
  linkEmptyHrefBehavior := orDefault cfg.linkEmptyHrefBehavior b!"render"
  linkEmptyContentBehavior := orDefault cfg.linkEmptyContentBehavior b!"render"

/-- `/repo/plugin/commonmark/validation.go:41-101` `validateConfig`; the result is the `Key` of the error, `none` is
`nil`.  `strings.Count` of a one byte string is the number of these bytes. -/
def validate (cfg : Config) : Option Bytes :=
  if cfg.emDelimiter.count 95 ≠ 1 ∧ cfg.emDelimiter.count 42 ≠ 1 then some b!"EmDelimiter"
  else if cfg.strongDelimiter.count 95 ≠ 2 ∧ cfg.strongDelimiter.count 42 ≠ 2 then some b!"StrongDelimiter"
  else if cfg.horizontalRule.count 42 < 3 ∧ cfg.horizontalRule.count 95 < 3 ∧ cfg.horizontalRule.count 45 < 3 then
    some b!"HorizontalRule"
  else if cfg.bulletListMarker ∉ [b!"-", b!"+", b!"*"] then some b!"BulletListMarker"
  else if cfg.codeBlockFence ∉ [b!"```", b!"~~~"] then some b!"CodeBlockFence"
  else if cfg.headingStyle ∉ [b!"atx", b!"setext"] then some b!"HeadingStyle"
  else if cfg.linkStyle ∉ [b!"inlined", b!"referenced_index", b!"referenced_short"] then some b!"LinkStyle"
  else none

/-- `/repo/plugin/commonmark/commonmark.go:114-127` `NewCommonmarkPlugin`: the options are applied in order to an
empty configuration, then the defaults are filled in. -/
def newPlugin (opts : List (Config → Config)) : Config := fillInDefault (opts.foldl (fun c o => o c) {})

end Verif.Config
