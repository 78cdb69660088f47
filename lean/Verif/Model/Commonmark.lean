import Verif.Model.TextUtils
import Verif.Model.Escape
/-!
# Model of the renderers of `/repo/plugin/commonmark` and the text and post-render handlers of
`/repo/plugin/base`, on byte strings

Every renderer first renders its children into a buffer and then works on the bytes of that buffer.
The functions here are that second part: they get the rendered content and the attributes.  The
recursion over the tree is in `Verif.Model.Render`.
-/

namespace Verif.Commonmark
open Verif Verif.TextUtils Verif.Escape

/-! ## marker.go -/

/-- `/repo/marker/marker.go:16` and `:22`: the marker for a newline in a code block, U+F002. -/
def codeNewline : Bytes := [239, 128, 130]

/-! ## base.go -/

/-- `/repo/plugin/base/base.go:101-110` `characterEntityReplacer`. -/
def entityReplace (content : Bytes) : Bytes :=
  replaceBytes (fun b => if b = 60 then some b!"&lt;" else if b = 62 then some b!"&gt;" else none) content

/-- `/repo/plugin/base/base.go:112-123` `handleTextTransform`. -/
def baseTextTransform (mode : Mode) (isMd : Nat → Bool) (content : Bytes) : Bytes :=
  escapeContent mode isMd (entityReplace content)

/-- `/repo/plugin/commonmark/commonmark.go:194-206` `handleTextTransform`. -/
def linkTextTransform (insideLink : Bool) (content : Bytes) : Bytes :=
  if insideLink then replaceAll [MARK, 93] [BS, 93] content else content

/-- `/repo/plugin/base/base.go:125-134` `postRenderTrimContent`. -/
def postRenderTrimContent (result : Bytes) : Bytes :=
  trimUnnecessaryHardLineBreaks (trimConsecutiveNewlines (trimSpace result))

/-- `/repo/plugin/commonmark/commonmark.go:186-192` `handlePostRenderCodeBlockNewline`. -/
def restoreCodeNewlines (content : Bytes) : Bytes := replaceAll codeNewline [NL] content

/-- The post-render handlers of the base and the CommonMark plugin in the order of their priorities
(`/repo/plugin/base/base.go:54-55`, `/repo/plugin/commonmark/commonmark.go:181`). -/
def postRender (mode : Mode) (hs : List Handler) (result : Bytes) : Bytes :=
  restoreCodeNewlines (unEscapeContent mode hs (postRenderTrimContent result))

/-! ## render_code.go -/

/-- `/repo/plugin/commonmark/render_code.go:15-66` `renderInlineCode`, from the content on. -/
def inlineCode (codeContent : Bytes) : Bytes :=
  if trimSpace codeContent = [] then [96] ++ codeContent ++ [96]
  else
    let code := collapseInlineCodeContent codeContent
    let maxCount := calculateCodeFenceOccurrences 96 code + 1
    let fence := List.replicate maxCount 96
    let code := if [96].isPrefixOf code then [SP] ++ code else code
    let code := if [96].isSuffixOf code then code ++ [SP] else code
    fence ++ code ++ fence

/-- `/repo/plugin/commonmark/render_code.go:70-72`: one trailing newline is dropped. -/
def dropTrailingNewline (code : Bytes) : Bytes :=
  if [NL].isSuffixOf code then code.dropLast else code

/-- `/repo/plugin/commonmark/render_code.go:67-91` `renderBlockCode`, from the content on.  The fence
character is the first character of the option `CodeBlockFence`, which is one of the ASCII strings
that the validation accepts. -/
def blockCode (fenceChar : UInt8) (infoString code : Bytes) : Bytes :=
  let code := dropTrailingNewline code
  let fence := calculateCodeFence fenceChar code
  let code := replaceAll [NL] codeNewline code
  b!"\n\n" ++ fence ++ infoString ++ [NL] ++ code ++ [NL] ++ fence ++ b!"\n\n"

/-- `strings.Replace(s, old, new, 1)` with an empty `new`: drop the first occurrence. Called at `/repo/plugin/commonmark/render_code.go:102-103`. -/
def dropFirst (old : Bytes) : Bytes → Bytes
  | [] => []
  | b :: bs => if old.isPrefixOf (b :: bs) then (b :: bs).drop old.length else b :: dropFirst old bs

/-- `/repo/plugin/commonmark/render_code.go:93-109` `getCodeLanguage`, from the `class` attribute on. -/
def codeLanguage (cls : Bytes) : Bytes :=
  match (splitOn SP cls).find? fun p => containsSub b!"language-" p || containsSub b!"lang-" p with
  | none => []
  | some part => dropFirst b!"lang-" (dropFirst b!"language-" part)

/-! ## render_blockquote.go, render_bold_italic.go, render_divider.go, render_break.go -/

/-- `/repo/plugin/commonmark/render_blockquote.go:15-31` `renderBlockquote`. -/
def blockquote (content : Bytes) : Bytes :=
  let content := trimSpace content
  if content = [] then []
  else
    let content := trimConsecutiveNewlines content
    let content := trimUnnecessaryHardLineBreaks content
    let content := prefixLines content [62, SP]
    b!"\n\n" ++ content ++ b!"\n\n"

/-- `/repo/plugin/commonmark/render_bold_italic.go:28-38` `renderBoldItalic`; also
`/repo/plugin/strikethrough/strikethrough.go:92-106` `renderStrikethrough`. -/
def delimited (delimiter content : Bytes) : Bytes := delimiterForEveryLine content delimiter

/-- `/repo/plugin/commonmark/render_divider.go:8-15` `renderDivider`. -/
def divider (rule : Bytes) : Bytes := b!"\n\n" ++ rule ++ b!"\n\n"

/-- `/repo/plugin/commonmark/render_break.go:8-12` `renderBreak`. -/
def hardBreak : Bytes := b!"  \n"

/-! ## render_heading.go -/

/-- `/repo/plugin/commonmark/render_heading.go:29-46` `getHeadingLevel`. -/
def headingLevel (name : Bytes) : Nat :=
  if name = b!"h1" then 1 else if name = b!"h2" then 2 else if name = b!"h3" then 3
  else if name = b!"h4" then 4 else if name = b!"h5" then 5 else 6

/-- `/repo/plugin/commonmark/render_heading.go:47-55` `runeCount`: runes without the escape marker (the
marker is an ASCII byte, so it is one rune). -/
def visibleRunes (s : Bytes) : Nat := runeCount s - s.count MARK

/-- `/repo/plugin/commonmark/render_heading.go:56-78` `getUnderlineWidth`. -/
def underlineWidth (content : Bytes) (minVal : Nat) : Nat :=
  let width := (splitOn NL content).foldl (fun w part => if visibleRunes part > w then visibleRunes part else w) 0
  if width < minVal then minVal else width

/-- `/repo/plugin/commonmark/render_heading.go:17-24` `setextUnderline`. -/
def setextUnderline (level width : Nat) : Bytes := List.replicate width (if level = 1 then 61 else 45)

/-- `/repo/plugin/commonmark/render_heading.go:80-102` `escapePoundSignAtEnd`; `none` is a panic
(index out of range). -/
def escapePoundSignAtEnd (s : Bytes) : Option Bytes :=
  match s.reverse with
  | [] => none
  | c :: rev =>
    if c ≠ 35 then some s
    else match rev with
      | [] => none
      | _ :: b :: rev' => if b = BS then some s else some ((c :: BS :: b :: rev').reverse)
      | [_] => some [BS, c]

/-- `/repo/plugin/commonmark/render_heading.go:132-137`: the content of an ATX heading before the pound
sign is looked at.  The regular expression `  +` with a space as replacement drops every space that
follows a space. -/
def atxContent (content : Bytes) : Bytes :=
  let content := replaceAll [NL] [SP] content
  let content := replaceAll [13] [SP] content
  let content := dropDoubleSpaces 0 content
  trimSpace content

/-- `/repo/plugin/commonmark/render_heading.go:104-150` `renderHeading`; `none` is a panic. -/
def heading (setext : Bool) (level : Nat) (content : Bytes) : Option Bytes :=
  if (trimSpace content).length = 0 then some []
  else if setext && level < 3 then
    let content := trimConsecutiveNewlines content
    let content := escapeMultiLine content
    some (b!"\n\n" ++ content ++ [NL] ++ setextUnderline level (underlineWidth content 3) ++ b!"\n\n")
  else
    (escapePoundSignAtEnd (atxContent content)).map fun content =>
      b!"\n\n" ++ List.replicate level 35 ++ [SP] ++ content ++ b!"\n\n"

/-! ## render_image.go, render_link.go -/

/-- `/repo/plugin/commonmark/render_image.go:13-28` `escapeAlt`; `prev` is the byte before. -/
def escapeAltGo : Option UInt8 → Bytes → Bytes
  | _, [] => []
  | prev, b :: bs =>
    if (b = 91 ∨ b = 93) ∧ prev ≠ some BS then BS :: b :: escapeAltGo (some b) bs
    else b :: escapeAltGo (some b) bs

/-- `/repo/plugin/commonmark/render_image.go:13-28` `escapeAlt`. -/
def escapeAlt (alt : Bytes) : Bytes := escapeAltGo none alt

/-- The title part of an image or a link: `/repo/plugin/commonmark/render_image.go:55-59`,
`/repo/plugin/commonmark/render_link.go:36-40`. -/
def titlePart (title : Bytes) : Bytes := if title ≠ [] then SP :: surroundByQuotes title else []

/-- `/repo/plugin/commonmark/render_image.go:30-63` `renderImage`; `assemble` is
`ctx.AssembleAbsoluteURL`, `none` is `RenderTryNext`. -/
def image (assemble : Bytes → Bytes) (src title alt : Bytes) : Option Bytes :=
  let src := trimSpace src
  if src = [] then none
  else
    let src := assemble src
    let title := replaceAll [NL] [SP] title
    let alt := escapeAlt (replaceAll [NL] [SP] alt)
    some (b!"![" ++ alt ++ b!"](" ++ src ++ titlePart title ++ b!")")

/-- `/repo/plugin/commonmark/render_link.go:86-91`: the parts of the content of a link. -/
def linkContent (content : Bytes) : Bytes × Bytes × Bytes :=
  let (left, trimmed, right) := surroundingSpaces content
  (left, escapeMultiLine (trimConsecutiveNewlines trimmed), right)

/-- `/repo/plugin/commonmark/render_link.go:28-103` `renderLink` and `renderLinkInlined`, for the link style
`inlined`; `href` is what `AssembleAbsoluteURL` returned, `content` the rendered
children, `skipHref`/`skipContent` say that the option is `LinkBehaviorSkip`.
`none` is `RenderTryNext`. -/
def link (skipHref skipContent : Bool) (href title content : Bytes) : Option Bytes :=
  if href = [] ∧ skipHref then none
  else if (trimSpace content).length = 0 ∧ skipContent then none
  else
    let title := replaceAll [NL] [SP] title
    let title := if href = [] then [] else title
    let (left, trimmed, right) := linkContent content
    some (left ++ [91] ++ trimmed ++ b!"](" ++ href ++ titlePart title ++ b!")" ++ right)

/-! ## render_list.go -/

/-- The decimal digits of a number (`fuel` bounds their count). Part of `strconv.Itoa`, see `/repo/plugin/commonmark/render_list.go:36`. -/
def digitsGo : Nat → Nat → Bytes → Bytes
  | 0, _, acc => acc
  | fuel + 1, n, acc =>
    let acc := UInt8.ofNat (48 + n % 10) :: acc
    if n < 10 then acc else digitsGo fuel (n / 10) acc

/-- Decimal digits of a natural number. Part of `strconv.Itoa`, see `/repo/plugin/commonmark/render_list.go:36`. -/
def natBytes (n : Nat) : Bytes := digitsGo (n + 1) n []

/-- `strconv.Itoa`. Called at `/repo/plugin/commonmark/render_list.go:36` and `:40`. -/
def itoa (i : Int) : Bytes := if i < 0 then 45 :: natBytes i.natAbs else natBytes i.natAbs

/-- `fmt.Sprintf("%0" + strconv.Itoa(width) + "d", i)`: padded with zeros to the width, which
includes the sign. Called at `/repo/plugin/commonmark/render_list.go:40-42`. -/
def padInt (width : Nat) (i : Int) : Bytes :=
  let ds := natBytes i.natAbs
  if i < 0 then 45 :: (List.replicate (width - 1 - ds.length) 48 ++ ds)
  else List.replicate (width - ds.length) 48 ++ ds

/-- Value of a string of ASCII digits, `none` if another byte occurs. Part of `strconv.Atoi`, see `/repo/plugin/commonmark/render_list.go:18`. -/
def readDigits : Nat → Bytes → Option Nat
  | acc, [] => some acc
  | acc, b :: bs => if isDigitByte b then readDigits (acc * 10 + (b.toNat - 48)) bs else none

/-- `strconv.Atoi` on a 64 bit platform. Called at `/repo/plugin/commonmark/render_list.go:18` and `/repo/plugin/table/utils.go:52`. -/
def atoi (s : Bytes) : Option Int :=
  let neg := s.head? = some 45
  let ds := if s.head? = some 45 ∨ s.head? = some 43 then s.drop 1 else s
  if ds = [] then none
  else match readDigits 0 ds with
    | none => none
    | some n =>
      let i : Int := if neg then - (n : Int) else n
      if -(2 ^ 63) ≤ i ∧ i < 2 ^ 63 then some i else none

/-- Addition of Go `int`s: 64 bits, wraps around. `/repo/plugin/commonmark/render_list.go:26-43`. -/
def wrap64 (i : Int) : Int := Int.bmod i (2 ^ 64)

/-- `/repo/plugin/commonmark/render_list.go:16-24` `getStartAt`; `none` if the attribute is missing. -/
def startAt (attr : Option Bytes) : Int := (atoi (attr.getD b!"1")).getD 1

/-- `/repo/plugin/commonmark/render_list.go:26-43` `getPrefixFunc`; `ordered` is `n.Data != "ul"`.
The rune count of an ASCII string is its length. -/
def listPrefix (ordered : Bool) (bullet : Bytes) (start : Int) (sliceLength sliceIndex : Nat) : Bytes :=
  if !ordered then bullet ++ b!" "
  else
    let currentIndex := wrap64 (start + sliceIndex)
    let lastIndex := wrap64 (wrap64 (start + sliceLength) - 1)
    let maxLength := (itoa lastIndex).length
    padInt maxLength currentIndex ++ b!". "

/-- `/repo/plugin/commonmark/render_list.go:45-66`, the loop: all lines but the first get the indent. -/
def multiLineListItemGo (indent : Bytes) : Bool → List Bytes → Bytes
  | _, [] => []
  | first, l :: ls =>
    (if first then [] else indent) ++ replaceAll codeNewline (codeNewline ++ indent) l
      ++ (if ls = [] then [] else [NL]) ++ multiLineListItemGo indent false ls

/-- `/repo/plugin/commonmark/render_list.go:45-66` `renderMultiLineListItem`. -/
def multiLineListItem (content : Bytes) (indentCount : Nat) : Bytes :=
  multiLineListItemGo (List.replicate indentCount SP) true (splitOn NL content)

/-- `/repo/plugin/commonmark/render_list.go:93-107`: the items with their prefixes. -/
def listItemsGo (unEscape : Bytes → Bytes) (pfx : Nat → Bytes) (indentCount : Nat) : Nat → List Bytes → Bytes
  | _, [] => []
  | i, item :: items =>
    let item := trimConsecutiveNewlines item
    let item := trimUnnecessaryHardLineBreaks item
    let item := unEscape item
    pfx i ++ multiLineListItem item indentCount
      ++ (if items = [] then [] else [NL]) ++ listItemsGo unEscape pfx indentCount (i + 1) items

/-- `/repo/plugin/commonmark/render_list.go:68-111` `renderListContainer`; `contents` are the rendered
children. -/
def list (unEscape : Bytes → Bytes) (ordered : Bool) (bullet : Bytes) (start : Int)
    (contents : List Bytes) : Bytes :=
  let items := (contents.map trimSpace).filter (· ≠ [])
  if items = [] then []
  else
    let pfx := listPrefix ordered bullet start items.length
    b!"\n\n" ++ listItemsGo unEscape pfx (runeCount (pfx 0)) 0 items ++ b!"\n\n"

end Verif.Commonmark
