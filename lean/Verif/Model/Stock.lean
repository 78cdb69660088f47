import Verif.Model.Engine
import Verif.Model.Render
/-!
# Model of the stock plugins as plugins

`/repo/plugin/base/base.go`, `/repo/plugin/base/renderers.go`, `/repo/plugin/commonmark/commonmark.go`,
`/repo/plugin/commonmark/handle_render.go`, `/repo/plugin/strikethrough/strikethrough.go`, `/repo/plugin/table/table.go`, `/repo/convert.go`

What the plugins register with a converter: which handlers, with which priorities, and what each handler does with its `Context` and its
`Writer`.  `Verif.Model.Render` is a conversion with the plugins built in; that the engine with these plugins computes the same is
proved in `Verif.Props.Stock`.
-/

namespace Verif.Stock
open Verif Verif.Engine Verif.TextUtils Verif.Escape Verif.Commonmark Verif.DomUtils

/-- What the plugins use from outside of `/repo`: `dom.NameIsBlockNode` and `dom.NameIsInlineNode`, `unicode.IsDigit`, the function of
`/repo/converter/ctx.go:41` `AssembleAbsoluteURLFunc` (domain, address; the tag name is not used), and `html.Render`. -/
structure Lib where
  tables : NameTables
  isDigit : Nat → Bool
  assemble : Bytes → Bytes → Bytes
  renderHTML : Node → Bytes

/-- `/repo/converter/prioritized.go:7-8` -/
def priorityEarly : Int := 100
/-- `/repo/converter/prioritized.go:11` -/
def priorityStandard : Int := 500
/-- `/repo/converter/prioritized.go:15` -/
def priorityLate : Int := 1000

/-- Write and `return converter.RenderSuccess`, for example `/repo/plugin/commonmark/render_break.go:8-12`. -/
def success (b : Bytes) : Prog Bool Status := .write b (.ret .success)

/-- `return converter.RenderTryNext`, for example `/repo/plugin/commonmark/handle_render.go:44`. -/
def tryNext : Prog Bool Status := .ret .tryNext

/-- Write what there is, or `RenderTryNext`. `/repo/plugin/table/3_render.go:11-53` and the like. -/
def orTryNext : Option Bytes → Prog Bool Status
  | some b => success b
  | none => tryNext

/-! ## The base plugin -/

/-- `/repo/plugin/base/base.go:60-85` `preRenderRemove`. -/
def removeNodes : Engine.PreRender Bool := fun _ doc =>
  .getTagTypes fun t => .ret (preRenderRemove (fun n => t n = some .remove) doc)

/-- `/repo/plugin/base/base.go:87-99` `preRenderCollapse`. -/
def collapseNodes (L : Lib) : Engine.PreRender Bool := fun _ doc =>
  .getTagTypes fun t => .ret (Collapse.collapse (Collapse.baseFuncs fun n =>
    match t n with
    | some ty => ty = .block
    | none => L.tables.isBlock n) doc)

/-- `/repo/plugin/base/base.go:112-123` `handleTextTransform`. -/
def baseText : TextTransform Bool := fun _ content => .escape fun esc => .ret (esc (entityReplace content))

/-- `/repo/plugin/base/base.go:125-134` `postRenderTrimContent`. -/
def trimContent : Engine.PostRender Bool := fun _ result => .ret (postRenderTrimContent result)

/-- `/repo/plugin/base/base.go:135-138` `postRenderUnescapeContent`. -/
def unEscapeResult : Engine.PostRender Bool := fun _ result => .unEscape fun u => .ret (u result)

/-- `/repo/plugin/base/base.go:29-58` `Init`. -/
def baseInit (L : Lib) : List (Op Bool) :=
  baseRemoves.map (fun n => .tagType n .remove priorityStandard) ++
  [.preRenderer removeNodes priorityEarly, .preRenderer (collapseNodes L) priorityLate,
   .textTransformer baseText priorityStandard,
   .postRenderer trimContent priorityStandard, .postRenderer unEscapeResult (priorityStandard + 20)]

/-- `/repo/plugin/base/base.go:21-28` `NewBasePlugin`. -/
def basePlugin (L : Lib) : Op Bool := .plugin b!"base" (baseInit L) none

/-! ## renderers.go: renderers for `RendererFor` -/

/-- `/repo/plugin/base/renderers.go:15-28` `RenderAsHTML`. -/
def renderAsHTML (L : Lib) : Engine.Render Bool := fun _ l =>
  .getTagType l.name fun t =>
    let nl : Bytes := if t = some .block then b!"\n\n" else []
    success (nl ++ L.renderHTML l.node ++ nl)

/-- `/repo/plugin/base/renderers.go:32-46` `RenderAsHTMLWrapper`. -/
def renderAsHTMLWrapper : Engine.Render Bool := fun ctx l =>
  .write (b!"<" ++ l.name ++ b!">\n\n") (.render ctx l.children (success (b!"\n\n</" ++ l.name ++ b!">")))

/-- `/repo/plugin/base/renderers.go:49-62` `RenderAsPlaintextWrapper`. -/
def renderAsPlaintextWrapper : Engine.Render Bool := fun ctx l =>
  .getTagType l.name fun t =>
    let nl : Bytes := if t = some .block then b!"\n\n" else []
    .write nl (.render ctx l.children (success nl))

/-! ## The CommonMark plugin -/

/-- The key of `/repo/plugin/commonmark/render_link.go:47`. -/
def insideLink : Bytes := b!"is_inside_link"

/-- `/repo/plugin/commonmark/render_bold_italic.go:12-21` `getDelimiter`. -/
def delimiterOf (cfg : Config.Config) (name : Bytes) : Bytes :=
  if isBold name then cfg.strongDelimiter else if isItalic name then cfg.emDelimiter else []

/-- `/repo/plugin/commonmark/render_bold_italic.go:22-39` `renderBoldItalic`. -/
def renderBoldItalic (cfg : Config.Config) : Engine.Render Bool := fun ctx l =>
  .renderTo ctx l.children fun content => success (delimited (delimiterOf cfg l.name) content)

/-- Each node into a buffer of its own. `/repo/plugin/commonmark/render_list.go:72-75`. -/
def renderEachTo (ctx : Ctx Bool) : List Loc → (List Bytes → Prog Bool Status) → Prog Bool Status
  | [], k => k []
  | l :: ls, k => .renderTo ctx [l] fun x => renderEachTo ctx ls fun xs => k (x :: xs)

/-- `/repo/plugin/commonmark/render_list.go:68-111` `renderListContainer`. -/
def renderListContainer (cfg : Config.Config) : Engine.Render Bool := fun ctx l =>
  renderEachTo ctx l.children fun contents =>
    .unEscape fun u => success (list u (l.name ≠ b!"ul") cfg.bulletListMarker (startAt (l.node.attr? b!"start")) contents)

/-- `/repo/plugin/commonmark/render_code.go:67-91` `renderBlockCode`. -/
def renderBlockCode (cfg : Config.Config) : Engine.Render Bool := fun _ l =>
  success (blockCode (cfg.codeBlockFence.headD 0) (Render.codeInfo [] l.node) (Render.codeText l.node))

/-- `/repo/plugin/commonmark/render_code.go:15-66` `renderInlineCode`. -/
def renderInlineCode : Engine.Render Bool := fun _ l => success (inlineCode (Render.codeText l.node))

/-- `/repo/plugin/commonmark/render_blockquote.go:11-32` `renderBlockquote`. -/
def renderBlockquote : Engine.Render Bool := fun ctx l =>
  .renderTo ctx l.children fun content => success (blockquote content)

/-- `/repo/plugin/commonmark/render_heading.go:104-150` `renderHeading`. -/
def renderHeading (cfg : Config.Config) : Engine.Render Bool := fun ctx l =>
  .renderTo ctx l.children fun content =>
    match heading (cfg.headingStyle = b!"setext") (headingLevel l.name) content with
    | some out => success out
    | none => .panic

/-- `/repo/plugin/commonmark/render_image.go:30-63` `renderImage`. -/
def renderImage (L : Lib) : Engine.Render Bool := fun ctx l =>
  orTryNext (image (L.assemble ctx.domain) (l.node.attrOr b!"src" []) (l.node.attrOr b!"title" []) (l.node.attrOr b!"alt" []))

/-- `/repo/plugin/commonmark/render_link.go:47-103` `renderLink`. -/
def renderLink (L : Lib) (cfg : Config.Config) : Engine.Render Bool := fun ctx l =>
  let href := L.assemble ctx.domain (trimSpace (l.node.attrOr b!"href" []))
  if href = [] ∧ cfg.linkEmptyHrefBehavior = b!"skip" then tryNext
  else
    .renderTo (ctx.withValue insideLink true) l.children fun content =>
      if cfg.linkStyle = b!"inlined" then
        orTryNext (link (cfg.linkEmptyHrefBehavior = b!"skip") (cfg.linkEmptyContentBehavior = b!"skip") href
          (l.node.attrOr b!"title" []) content)
      else tryNext

/-- `/repo/plugin/commonmark/render_comment.go:9-25` `renderComment`; `html.Render` of this comment is the constant. -/
def renderComment : Engine.Render Bool := fun _ l =>
  match l.node with
  | .comment d => if d = listEndComment then success b!"\n\n<!--THE END-->\n\n" else tryNext
  | _ => tryNext

/-- `/repo/plugin/commonmark/handle_render.go:9-47` `handleRender`. -/
def commonmarkRender (L : Lib) (cfg : Config.Config) : Engine.Render Bool := fun ctx l =>
  let n := l.name
  if isBoldOrItalic n then renderBoldItalic cfg ctx l
  else if n = b!"hr" then success (divider cfg.horizontalRule)
  else if n = b!"br" then success hardBreak
  else if n = b!"ul" ∨ n = b!"ol" then renderListContainer cfg ctx l
  else if n = b!"pre" then renderBlockCode cfg ctx l
  else if DomUtils.isInlineCode n then renderInlineCode ctx l
  else if n = b!"blockquote" then renderBlockquote ctx l
  else if isHeading n then renderHeading cfg ctx l
  else if n = b!"img" then renderImage L ctx l
  else if n = b!"a" then renderLink L cfg ctx l
  else if n = b!"#comment" then renderComment ctx l
  else tryNext

/-- `/repo/plugin/commonmark/handle_pre_render.go:63-94` `handlePreRender`. -/
def commonmarkPre (L : Lib) : Engine.PreRender Bool := fun _ doc => .ret (handlePreRender L.tables doc)

/-- `/repo/plugin/commonmark/commonmark.go:146-153`: the comments between lists. -/
def listEndComments (cfg : Config.Config) : Engine.PreRender Bool := fun _ doc =>
  .ret (if cfg.disableListEndComment then doc else addListEndComments doc)

/-- `/repo/plugin/commonmark/commonmark.go:194-206` `handleTextTransform`. -/
def commonmarkText : TextTransform Bool := fun ctx content => .ret (linkTextTransform (ctx.values insideLink = some true) content)

/-- `/repo/plugin/commonmark/commonmark.go:186-192` `handlePostRenderCodeBlockNewline`. -/
def codeNewlines : Engine.PostRender Bool := fun _ content => .ret (restoreCodeNewlines content)

/-- `/repo/plugin/commonmark/commonmark.go:136-184` `Init`, once the configuration is valid. -/
def commonmarkInit (L : Lib) (cfg : Config.Config) : List (Op Bool) :=
  [.preRenderer (commonmarkPre L) priorityStandard, .preRenderer (listEndComments cfg) (priorityLate + 100),
   .escapedChar (commonmarkChars.map UInt8.toNat),
   .unEscaper isItalicOrBold priorityStandard,
   .unEscaper isBlockQuote priorityStandard,
   .unEscaper isAtxHeader priorityStandard,
   .unEscaper isSetextHeader priorityStandard,
   .unEscaper isDivider priorityStandard,
   .unEscaper (isOrderedList L.isDigit) priorityStandard,
   .unEscaper isUnorderedList priorityStandard,
   .unEscaper isImageOrLink priorityStandard,
   .unEscaper isFencedCode priorityStandard,
   .unEscaper Escape.isInlineCode priorityStandard,
   .unEscaper isBackslash priorityStandard,
   .renderer (commonmarkRender L cfg) priorityStandard,
   .textTransformer commonmarkText priorityLate,
   .postRenderer codeNewlines priorityLate]

/-- `/repo/plugin/commonmark/commonmark.go:114-139` `NewCommonmarkPlugin`, and the validation at the start of `Init`. -/
def commonmarkPlugin (L : Lib) (opts : List (Config.Config → Config.Config)) : Op Bool :=
  let cfg := Config.newPlugin opts
  .plugin b!"commonmark" (if Config.validate cfg = none then commonmarkInit L cfg else []) (Config.validate cfg)

/-! ## The strikethrough plugin -/

/-- `/repo/plugin/strikethrough/strikethrough.go:55-58` `handlePreRender`. -/
def strikePre : Engine.PreRender Bool := fun _ doc => .ret (mergeAdjacent Render.isStrike (removeRedundant Render.bothStrike doc))

/-- `/repo/plugin/strikethrough/strikethrough.go:85-106` `handleRender` and `renderStrikethrough`. -/
def strikeRender (delimiter : Bytes) : Engine.Render Bool := fun ctx l =>
  if Render.isStrike l.name then .renderTo ctx l.children fun content => success (delimited delimiter content)
  else tryNext

/-- `/repo/plugin/strikethrough/strikethrough.go:44-53` `Init`. -/
def strikeInit (delimiter : Bytes) : List (Op Bool) :=
  [.preRenderer strikePre priorityStandard, .escapedChar [126], .unEscaper isStrikethrough priorityStandard,
   .renderer (strikeRender delimiter) priorityStandard]

/-- `/repo/plugin/strikethrough/strikethrough.go:28-39` `NewStrikethroughPlugin`, after the options. -/
def strikePlugin (delimiter : Bytes) : Op Bool := .plugin b!"strikethrough" (strikeInit (Config.orDefault delimiter b!"~~")) none

/-! ## The table plugin -/

/-- The options of `/repo/plugin/table/table.go:26-138`. -/
inductive TableOption
  | spanCells (behavior : Bytes)
  | newlines (behavior : Bytes)
  | padding (behavior : Bytes)
  | skipEmptyRows (skip : Bool)
  | headerPromotion (promote : Bool)
  | presentationTables (convert : Bool)

/-- `/repo/plugin/table/table.go:26-138`: what an option does; an error is named without the value. -/
def applyTableOption (cfg : Table.Config) : TableOption → Except Bytes Table.Config
  | .spanCells b =>
    if b = [] then .ok cfg
    else if b = b!"empty" then .ok { cfg with span := .empty }
    else if b = b!"mirror" then .ok { cfg with span := .mirror }
    else .error b!"unknown value for span cell behavior"
  | .newlines b =>
    if b = [] then .ok cfg
    else if b = b!"skip" then .ok { cfg with newline := .skip }
    else if b = b!"preserve" then .ok { cfg with newline := .preserve }
    else .error b!"unknown value for newline behavior"
  | .padding b =>
    if b = [] ∨ b = b!"aligned" then .ok { cfg with padding := .aligned }
    else if b = b!"minimal" then .ok { cfg with padding := .minimal }
    else if b = b!"none" then .ok { cfg with padding := .none }
    else .error b!"unknown value for cell padding behavior"
  | .skipEmptyRows b => .ok { cfg with skipEmptyRows := b }
  | .headerPromotion b => .ok { cfg with promoteFirstRow := b }
  | .presentationTables b => .ok { cfg with presentation := b }

/-- `/repo/plugin/table/table.go:165-177` `NewTablePlugin`: the loop over the options, it ends with the first error. -/
def tableConfigGo (cfg : Table.Config) : List TableOption → Except Bytes Table.Config
  | [] => .ok cfg
  | o :: opts =>
    match applyTableOption cfg o with
    | .ok cfg => tableConfigGo cfg opts
    | .error e => .error e

/-- `/repo/plugin/table/table.go:165-177` `NewTablePlugin`. -/
def tableConfig (opts : List TableOption) : Except Bytes Table.Config := tableConfigGo {} opts

/-- The node at the end of a path. It stands for a pointer of `/repo/plugin/table/1_select.go`. -/
def nodeAt : Render.Path → Loc → Option Loc
  | [], l => some l
  | i :: p, l => l.children[i]?.bind (nodeAt p)

/-- `/repo/plugin/table/2_collect.go:164-196` `collectCellsInRow`: the cells, rendered. -/
def renderCells (ctx : Ctx Bool) (table : Loc) : List (Render.Path × Node) → (List Table.RawCell → Prog Bool Status) → Prog Bool Status
  | [], k => k []
  | c :: cs, k => .renderTo ctx (nodeAt c.1 table).toList fun out =>
      renderCells ctx table cs fun cells => k (⟨out, c.2.attr? b!"rowspan", c.2.attr? b!"colspan"⟩ :: cells)

/-- `/repo/plugin/table/2_collect.go:212-220`: the loop over the rows. -/
def renderRows (ctx : Ctx Bool) (table : Loc) : List (Render.Path × Node) → (List (List Table.RawCell) → Prog Bool Status) → Prog Bool Status
  | [], k => k []
  | r :: rs, k => renderCells ctx table (Render.cellsOf r) fun cells => renderRows ctx table rs fun rows => k (cells :: rows)

/-- `/repo/plugin/table/2_collect.go:45-67` `hasProblematicParentNode`. -/
def hasProblematicParent (l : Loc) : Bool := l.parents.any fun p => Render.isProblematicParent p.name

/-- `/repo/plugin/table/3_render.go:11-53` `renderTable` and `/repo/plugin/table/2_collect.go:68-121` `collectTableContent`. -/
def renderTable (cfg : Table.Config) : Engine.Render Bool := fun ctx l =>
  if Render.cannotBeTable cfg (hasProblematicParent l) l.node then tryNext
  else
    let header := Render.selectHeader l.node
    let rows := Render.selectRows l.node header
    renderRows ctx l header.toList fun headerCells =>
    renderRows ctx l rows fun rowCells =>
    .unEscape fun u =>
    match Table.tableRows cfg u headerCells.head? rowCells with
    | none => tryNext
    | some contents =>
      let write (cap : Option Bytes) := success (Table.render cfg.padding (Render.collectAlignments header rows) contents (Table.caption cap))
      match Render.findFirst b!"caption" ([], l.node) with
      | none => write none
      | some c => .renderTo ctx (nodeAt c.1 l).toList fun out => write (some out)

/-- `/repo/plugin/table/table.go:196-217` `handleRender` and `renderFallbackRow`. -/
def tableRender (cfg : Table.Config) : Engine.Render Bool := fun ctx l =>
  if l.name = b!"table" then renderTable cfg ctx l
  else if l.name = b!"tr" then .write b!"\n\n" (.render ctx l.children (success b!"\n\n"))
  else tryNext

/-- `/repo/plugin/table/table.go:183-194` `Init`, after the options. -/
def tableInit (cfg : Table.Config) : List (Op Bool) := [.escapedChar [124], .renderer (tableRender cfg) priorityStandard]

/-- `/repo/plugin/table/table.go:165-194` `NewTablePlugin` and `Init`. -/
def tablePlugin (opts : List TableOption) : Op Bool :=
  match tableConfig opts with
  | .ok cfg => .plugin b!"table" (tableInit cfg) none
  | .error e => .plugin b!"table" [] (some e)

/-! ## convert.go -/

/-- `/repo/convert.go:45-54` `ConvertNode` (and the converters of `ConvertString` and `ConvertReader`): the base and the CommonMark plugin. -/
def defaultConverter (L : Lib) : Conv Bool := newConverter [withPlugins [basePlugin L, commonmarkPlugin L []]]

end Verif.Stock
