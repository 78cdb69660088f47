import Verif.Model.Commonmark
import Verif.Model.Config
import Verif.Model.DomUtils
import Verif.Model.Collapse
import Verif.Model.Url
import Verif.Model.Table
/-!
# Model of a whole conversion with the stock plugins

`/repo/convert.go`, `/repo/converter/convert.go`, `/repo/converter/render.go`, `/repo/plugin/base`, `/repo/plugin/commonmark`,
`/repo/plugin/strikethrough`, `/repo/plugin/table`

`Verif.Model.Engine` is the engine for arbitrary plugins.  Here the stock plugins are built in (the base and the CommonMark plugin, and
optionally the strikethrough and the table plugin, registered in this order, as in `/repo/cli/html2markdown/cmd/cmd_convert.go:96-123`), so that
rendering is a recursion over the tree.  The result `none` is a panic (see `Verif.Commonmark.heading`).
-/

namespace Verif.Render
open Verif Verif.TextUtils Verif.Escape Verif.Commonmark Verif.DomUtils

/-- What a conversion depends on. The settings of `/repo/plugin/commonmark/options.go:41-83` and of `/repo/converter/converter.go:23`. -/
structure Env where
  /-- the configuration of the CommonMark plugin, with the defaults filled in -/
  cfg : Config.Config
  /-- `/repo/converter/converter.go:48-72` `WithEscapeMode` -/
  mode : Mode
  /-- `/repo/converter/ctx.go:164-166` `ctx.AssembleAbsoluteURL` (the tag name is not used) -/
  assemble : Bytes → Bytes
  /-- `dom.NameIsBlockNode` and `dom.NameIsInlineNode` -/
  tables : NameTables
  /-- `unicode.IsDigit` -/
  isDigit : Nat → Bool
  /-- the strikethrough plugin and its delimiter, `/repo/plugin/strikethrough/strikethrough.go:17-39` -/
  strike : Option Bytes := none
  /-- the table plugin and its configuration -/
  table : Option Table.Config := none

/-- `/repo/converter/register.go:203-222` `getTagType`, with the registrations of the base plugin (the CommonMark plugin has
none): is the name of type "remove"? -/
def isRemoved (name : Bytes) : Bool := baseRemoves.contains name

/-- `/repo/converter/register.go:203-222` `getTagType`, with the registrations of the base plugin: is the name of type "block"? -/
def isBlock (E : Env) (name : Bytes) : Bool := !isRemoved name && E.tables.isBlock name

/-! ## Pre-render -/

/-- `/repo/plugin/strikethrough/strikethrough.go:76-80` `nameIsStrikethough`. -/
def isStrike (name : Bytes) : Bool := name = b!"del" ∨ name = b!"s" ∨ name = b!"strike"

/-- `/repo/plugin/strikethrough/strikethrough.go:81-83` `nameIsBothStrikethough`. -/
def bothStrike (a b : Bytes) : Bool := isStrike a && isStrike b

/-- `/repo/plugin/strikethrough/strikethrough.go:55-58` `handlePreRender`. -/
def strikePreRender (E : Env) (doc : Node) : Node :=
  if E.strike.isSome then mergeAdjacent isStrike (removeRedundant bothStrike doc) else doc

/-- `/repo/converter/convert.go:101-104`: the pre-render handlers in the order of their priorities: `preRenderRemove` (100),
`handlePreRender` (500, the CommonMark plugin before the strikethrough plugin), `preRenderCollapse` (1000), `AddListEndComments` (1100). -/
def preRender (E : Env) (doc : Node) : Node :=
  let doc := preRenderRemove isRemoved doc
  let doc := handlePreRender E.tables doc
  let doc := strikePreRender E doc
  let doc := Collapse.collapse (Collapse.baseFuncs (isBlock E)) doc
  if E.cfg.disableListEndComment then doc else addListEndComments doc

/-! ## Render -/

mutual
/-- `/repo/plugin/commonmark/render_code.go:110-149` `getCodeWithoutTags`: the code. -/
def codeText : Node → Bytes
  | .text d => d
  | .comment _ => []
  | .doctype _ => []
  | .document cs => codeTextL cs
  | .elem n _ cs =>
    if n = b!"style" ∨ n = b!"script" ∨ n = b!"textarea" then []
    else if n = b!"br" ∨ n = b!"div" then NL :: codeTextL cs
    else codeTextL cs
/-- `/repo/plugin/commonmark/render_code.go:110-149`, for a list of siblings. -/
def codeTextL : List Node → Bytes
  | [] => []
  | n :: ns => codeText n ++ codeTextL ns
end

mutual
/-- `/repo/plugin/commonmark/render_code.go:110-149` `getCodeWithoutTags`: the info string; `info` is the one found so far. -/
def codeInfo (info : Bytes) : Node → Bytes
  | .elem n a cs =>
    let info := if (n = b!"code" ∨ n = b!"pre") ∧ info = [] then codeLanguage (Node.attrOr b!"class" [] (.elem n a cs)) else info
    if n = b!"style" ∨ n = b!"script" ∨ n = b!"textarea" then info else codeInfoL info cs
  | .document cs => codeInfoL info cs
  | .text _ => info
  | .comment _ => info
  | .doctype _ => info
/-- `/repo/plugin/commonmark/render_code.go:110-149`, for a list of siblings. -/
def codeInfoL (info : Bytes) : List Node → Bytes
  | [] => info
  | n :: ns => codeInfoL (codeInfo info n) ns
end

/-- `/repo/plugin/commonmark/render_bold_italic.go:12-21` `getDelimiter`. -/
def delimiterOf (E : Env) (name : Bytes) : Bytes :=
  if isBold name then E.cfg.strongDelimiter else if isItalic name then E.cfg.emDelimiter else []

/-- `/repo/converter/render.go:35-51` `handleRenderFallback`: `content` are the rendered children. -/
def fallback (E : Env) (name content : Bytes) : Bytes :=
  if isBlock E name then b!"\n\n" ++ content ++ b!"\n\n" else content

/-- `/repo/plugin/commonmark/render_comment.go:9-25` `renderComment`; `html.Render` of this comment is the constant. -/
def renderComment (E : Env) (data : Bytes) : Bytes :=
  if data = listEndComment then b!"\n\n<!--THE END-->\n\n" else fallback E b!"#comment" []

/-- `/repo/plugin/commonmark/render_link.go:47-103` `renderLink`: `inside` are the children rendered inside of the link, `outside`
the children as the fallback renders them; only the link style `inlined` renders (lines 97-102). -/
def renderLink (E : Env) (n : Node) (inside outside : Bytes) : Bytes :=
  (if E.cfg.linkStyle = b!"inlined" then
    link (E.cfg.linkEmptyHrefBehavior = b!"skip") (E.cfg.linkEmptyContentBehavior = b!"skip")
      (E.assemble (trimSpace (n.attrOr b!"href" []))) (n.attrOr b!"title" []) inside
   else none).getD (fallback E b!"a" outside)

/-- `/repo/plugin/commonmark/render_image.go:30-63` `renderImage`. -/
def renderImage (E : Env) (n : Node) (outside : Bytes) : Bytes :=
  (image E.assemble (n.attrOr b!"src" []) (n.attrOr b!"title" []) (n.attrOr b!"alt" [])).getD (fallback E b!"img" outside)

/-- The un-escape handlers of the stock plugins. `/repo/plugin/commonmark/commonmark.go:165-175` and
`/repo/plugin/strikethrough/strikethrough.go:48`. -/
def handlers (E : Env) : List Handler := commonmarkHandlers E.isDigit ++ if E.strike.isSome then [isStrikethrough] else []

/-! ## Which nodes a table consists of -/

/-- How to get from a table to a node below it: at each step the number of the child. It stands for the pointer to the node in
`/repo/plugin/table/1_select.go`. -/
abbrev Path := List Nat

mutual
/-- All nodes below a node, in document order: the order of `dom.FindFirstNode` and `dom.FindAllNodes`, as
`/repo/plugin/table/1_select.go:8-30` uses them. -/
def below (p : Path) : Node → List (Path × Node)
  | .document cs => belowL p 0 cs
  | .elem _ _ cs => belowL p 0 cs
  | .text _ => []
  | .comment _ => []
  | .doctype _ => []
/-- The same for the children from number `i` on. `/repo/plugin/table/1_select.go:8-30`. -/
def belowL (p : Path) (i : Nat) : List Node → List (Path × Node)
  | [] => []
  | c :: cs => (p ++ [i], c) :: below (p ++ [i]) c ++ belowL p (i + 1) cs
end

/-- `dom.FindFirstNode` by name. `/repo/plugin/table/1_select.go:9-11`. -/
def findFirst (name : Bytes) (x : Path × Node) : Option (Path × Node) := (below x.1 x.2).find? fun y => y.2.name = name

/-- `/repo/plugin/table/1_select.go:8-31` `selectHeaderRowNode`. -/
def selectHeader (table : Node) : Option (Path × Node) :=
  match (findFirst b!"thead" ([], table)).bind (findFirst b!"tr") with
  | some tr => some tr
  | none => (findFirst b!"th" ([], table)).bind fun th => (([], table) :: below [] table).find? fun y => y.1 = th.1.dropLast

/-- `/repo/plugin/table/1_select.go:32-50` `selectNormalRowNodes`. -/
def selectRows (table : Node) (header : Option (Path × Node)) : List (Path × Node) :=
  (([], table) :: below [] table).filter fun y => y.2.name = b!"tr" ∧ header.map (·.1) ≠ some y.1

/-- `/repo/plugin/table/2_collect.go:165-168`: the cells of a row. -/
def cellsOf (row : Path × Node) : List (Path × Node) :=
  (below row.1 row.2).filter fun y => y.2.name = b!"th" ∨ y.2.name = b!"td"

/-- `/repo/plugin/table/2_collect.go:133-163` `getFirstNode` and `collectAlignments`. -/
def collectAlignments (header : Option (Path × Node)) (rows : List (Path × Node)) : List Bytes :=
  match header.or rows.head? with
  | none => []
  | some first => (cellsOf first).map fun c => c.2.attrOr b!"align" []

/-- `/repo/plugin/table/2_collect.go:23-43` `hasProblematicChildNode`. -/
def hasProblematicChild (table : Node) : Bool :=
  (below [] table).any fun y => isHeading y.2.name || y.2.name ∈ [b!"table", b!"hr", b!"ul", b!"ol", b!"blockquote"]

/-- `/repo/plugin/table/2_collect.go:45-67` `hasProblematicParentNode`, for one parent. -/
def isProblematicParent (name : Bytes) : Bool :=
  name ∈ [b!"a", b!"strong", b!"b", b!"em", b!"i", b!"del", b!"s", b!"strike"]

/-- `/repo/plugin/table/2_collect.go:69-92` of `collectTableContent`: the table is not looked at further.  `stuck`: it has a problematic
parent. -/
def cannotBeTable (cfg : Table.Config) (stuck : Bool) (table : Node) : Bool :=
  (table.attrOr b!"role" [] = b!"presentation" && !cfg.presentation) || hasProblematicChild table || stuck

/-- `/repo/plugin/table/2_collect.go:164-196` `collectCellsInRow`: the cells, once they are rendered. -/
def rawCells (at_ : Path → Option Bytes) (cells : List (Path × Node)) : Option (List Table.RawCell) :=
  cells.mapM fun c => (at_ c.1).map fun out => ⟨out, c.2.attr? b!"rowspan", c.2.attr? b!"colspan"⟩

/-- `/repo/plugin/table/3_render.go:11-53` `renderTable` and `/repo/plugin/table/2_collect.go:68-121` `collectTableContent`; `at_` renders a
node below the table, `some none` is `RenderTryNext`.  (The caption is rendered also if the rows turn out to be no table: this only
matters for a panic, and then the fallback would panic, too.) -/
def renderTable (cfg : Table.Config) (unEscape : Bytes → Bytes) (stuck : Bool) (table : Node) (at_ : Path → Option Bytes) :
    Option (Option Bytes) :=
  if cannotBeTable cfg stuck table then some none
  else
    let header := selectHeader table
    let rows := selectRows table header
    (header.mapM fun h => rawCells at_ (cellsOf h)).bind fun headerCells =>
    (rows.mapM fun r => rawCells at_ (cellsOf r)).bind fun rowCells =>
    ((findFirst b!"caption" ([], table)).mapM fun c => at_ c.1).map fun cap =>
    Table.table cfg unEscape (collectAlignments header rows) headerCells rowCells cap

/-! ## Rendering -/

mutual
/-- `/repo/converter/render.go:14-33` `handleRenderNode`, with `/repo/plugin/commonmark/handle_render.go:9-47` `handleRender`,
`/repo/plugin/strikethrough/strikethrough.go:85-106` and `/repo/plugin/table/table.go:196-217`.
`link` is the context value `is_inside_link`; `stuck`: a node around this one is a problematic parent of tables. -/
def renderNode (E : Env) (link stuck : Bool) : Node → Option Bytes
  | .text d => some (linkTextTransform link (baseTextTransform E.mode isCommonmarkChar d))
  | .comment d => some (renderComment E d)
  | .doctype _ => some (fallback E b!"#doctype" [])
  | .document cs => (renderL E link stuck cs).map (fallback E b!"#document")
  | .elem n a cs =>
    let children := renderL E link (stuck || isProblematicParent n) cs
    if isBoldOrItalic n then children.map (delimited (delimiterOf E n))
    else if n = b!"hr" then some (divider E.cfg.horizontalRule)
    else if n = b!"br" then some hardBreak
    else if n = b!"ul" ∨ n = b!"ol" then
      (renderEach E link (stuck || isProblematicParent n) cs).map
        (list (unEscapeContent E.mode (handlers E)) (n ≠ b!"ul") E.cfg.bulletListMarker (startAt (Node.attr? b!"start" (.elem n a cs))))
    else if n = b!"pre" then
      some (blockCode (E.cfg.codeBlockFence.headD 0) (codeInfo [] (.elem n a cs)) (codeText (.elem n a cs)))
    else if DomUtils.isInlineCode n then some (inlineCode (codeText (.elem n a cs)))
    else if n = b!"blockquote" then children.map blockquote
    else if isHeading n then children.bind (heading (E.cfg.headingStyle = b!"setext") (headingLevel n))
    else if n = b!"img" then children.map (renderImage E (.elem n a cs))
    else if n = b!"a" then
      (renderL E true (stuck || isProblematicParent n) cs).bind fun inside => children.map (renderLink E (.elem n a cs) inside)
    else if isStrike n then
      match E.strike with
      | some delimiter => children.map (delimited delimiter)
      | none => children.map (fallback E n)
    else if n = b!"table" then
      match E.table with
      | some cfg =>
        (renderTable cfg (unEscapeContent E.mode (handlers E)) stuck (.elem n a cs)
          fun p => renderAt E link (stuck || isProblematicParent n) p cs).bind fun
          | some out => some out
          | none => children.map (fallback E n)
      | none => children.map (fallback E n)
    else if n = b!"tr" ∧ E.table.isSome then children.map fun x => b!"\n\n" ++ x ++ b!"\n\n"
    else children.map (fallback E n)
/-- `/repo/converter/render.go:8-12` `handleRenderNodes`: one after the other into one writer. -/
def renderL (E : Env) (link stuck : Bool) : List Node → Option Bytes
  | [] => some []
  | n :: ns => (renderNode E link stuck n).bind fun x => (renderL E link stuck ns).map (x ++ ·)
/-- `/repo/plugin/commonmark/render_list.go:72-75`: each child into its own buffer. -/
def renderEach (E : Env) (link stuck : Bool) : List Node → Option (List Bytes)
  | [] => some []
  | n :: ns => (renderNode E link stuck n).bind fun x => (renderEach E link stuck ns).map (x :: ·)
/-- `/repo/plugin/table/2_collect.go:171-172` and `/repo/plugin/table/2_collect.go:244-245`: render one node below these nodes, for the
node that renders the table. (There is a node at each path that the table has.) -/
def renderAt (E : Env) (link stuck : Bool) : Path → List Node → Option Bytes
  | _, [] => some []
  | [], _ => some []
  | (i + 1) :: p, _ :: ns => renderAt E link stuck (i :: p) ns
  | [0], n :: _ => renderNode E link stuck n
  | 0 :: i :: p, n :: _ => renderBelow E link stuck (i :: p) n
/-- `/repo/plugin/table/2_collect.go:171-172`: the same, for a path that starts at a node. -/
def renderBelow (E : Env) (link stuck : Bool) : Path → Node → Option Bytes
  | p, .elem n _ cs => renderAt E link (stuck || isProblematicParent n) p cs
  | p, .document cs => renderAt E link stuck p cs
  | _, .text _ => some []
  | _, .comment _ => some []
  | _, .doctype _ => some []
end

/-! ## Convert -/

/-- `/repo/converter/convert.go:58-117` `ConvertNode`, with the stock plugins. -/
def convertNode (E : Env) (doc : Node) : Option Bytes :=
  (renderNode E false false (preRender E doc)).map (postRender E.mode (handlers E))

end Verif.Render
