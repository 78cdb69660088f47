import Verif.Spec.Blocks
import Verif.Spec.Spans
import Verif.Spec.Lists
import Verif.Spec.Collapse
import Verif.Spec.Whitespace
import Verif.Model.Dom
/-!
# Specification: pages of blocks, and a reader of Markdown

The first part says what a page is and what a browser shows of it.  The second part is a reader of Markdown after the CommonMark
specification; how it reads a line is in `Spec/Spans.lean`.  The reader is careful: for everything that it does not treat (such as lazy
continuation lines) the result is `none`, so that a result tells what every CommonMark parser reads.
-/

namespace Verif.Spec
open Verif

/-! ## Pages -/

/-- A list is a bullet list, or an ordered list with or without the attribute `start`. -/
inductive ListKind
  | bullet
  | ordered (start : Option Bytes)
deriving DecidableEq

/-- An element in a paragraph, or in another such element.  The content of emphasis and of a link is a text and then elements, each with
a text behind it; the texts may be empty. -/
inductive Inl
  /-- `<strong>`, `<b>`, `<em>` or `<i>` -/
  | emph (name : Bytes) (first : Bytes) (rest : List (Inl × Bytes))
  /-- `<code>` -/
  | code (c : Bytes)
  /-- `<a href="href" title="title">`, without `title` if it is empty -/
  | link (href title : Bytes) (first : Bytes) (rest : List (Inl × Bytes))
  /-- `<img src="src" title="title" alt="alt">`, without `title` and `alt` if they are empty -/
  | image (src title alt : Bytes)

/-- What a page consists of. -/
inductive Block
  /-- text without an element of its own -/
  | text (t : Bytes)
  /-- text and elements without an element around them, like `rich` -/
  | run (first : Bytes) (rest : List (Inl × Bytes))
  /-- `<p>` -/
  | paragraph (t : Bytes)
  /-- `<p>` with a text and then elements, each with a text behind it; the texts may be empty -/
  | rich (first : Bytes) (rest : List (Inl × Bytes))
  /-- `<h1>` to `<h6>` -/
  | heading (level : Nat) (t : Bytes)
  /-- `<h1>` to `<h6>` with elements, like `rich` -/
  | richHeading (level : Nat) (first : Bytes) (rest : List (Inl × Bytes))
  /-- `<hr>` -/
  | rule
  /-- `<pre><code class="language-lang">`, without `class` if `lang` is empty -/
  | code (lang : Bytes) (c : Bytes)
  /-- `<div>` or another element that only groups blocks -/
  | group (name : Bytes) (bs : List Block)
  /-- `<blockquote>` -/
  | quote (bs : List Block)
  /-- `<ul>` or `<ol>`; `gap` is the white space in front of and behind the items -/
  | list (kind : ListKind) (gap : Bytes) (items : List (List Block))

/-- The elements that only group blocks. -/
def groupNames : List Bytes := [b!"div", b!"section", b!"article", b!"main", b!"header", b!"footer", b!"nav", b!"aside"]

/-- The element of a list. -/
def ListKind.tag : ListKind → Bytes
  | .bullet => b!"ul"
  | .ordered _ => b!"ol"

/-- The attributes of a list. -/
def ListKind.attrs : ListKind → List (Bytes × Bytes)
  | .ordered (some s) => [(b!"start", s)]
  | _ => []

/-- An attribute, if it is not empty. -/
def attrIf (name value : Bytes) : List (Bytes × Bytes) := if value = [] then [] else [(name, value)]

/-- A text, if it is not empty. -/
def textNodes (t : Bytes) : List Node := if t = [] then [] else [.text t]

mutual
/-- The HTML of an element in a paragraph. -/
def Inl.html : Inl → Node
  | .emph name first rest => .elem name [] (textNodes first ++ htmlRest rest)
  | .code c => .elem b!"code" [] [.text c]
  | .link href title first rest => .elem b!"a" ((b!"href", href) :: attrIf b!"title" title) (textNodes first ++ htmlRest rest)
  | .image src title alt => .elem b!"img" ((b!"src", src) :: (attrIf b!"title" title ++ attrIf b!"alt" alt)) []

/-- The HTML of elements with texts behind them. -/
def htmlRest : List (Inl × Bytes) → List Node
  | [] => []
  | (i, t) :: rest => i.html :: (textNodes t ++ htmlRest rest)
end

mutual
/-- The HTML of a block. -/
def Block.html : Block → List Node
  | .text t => [.text t]
  | .run first rest => textNodes first ++ htmlRest rest
  | .paragraph t => [.elem b!"p" [] [.text t]]
  | .rich first rest => [.elem b!"p" [] (textNodes first ++ htmlRest rest)]
  | .heading n t => [.elem [104, UInt8.ofNat (48 + n)] [] [.text t]]
  | .richHeading n first rest => [.elem [104, UInt8.ofNat (48 + n)] [] (textNodes first ++ htmlRest rest)]
  | .rule => [.elem b!"hr" [] []]
  | .code lang c =>
    [.elem b!"pre" [] [.elem b!"code" (if lang = [] then [] else [(b!"class", b!"language-" ++ lang)]) [.text c]]]
  | .group name bs => [.elem name [] (htmlL bs)]
  | .quote bs => [.elem b!"blockquote" [] (htmlL bs)]
  | .list kind gap items => [.elem kind.tag kind.attrs (htmlItems gap items)]
/-- The HTML of blocks. -/
def htmlL : List Block → List Node
  | [] => []
  | b :: bs => b.html ++ htmlL bs
/-- The HTML of the items of a list. -/
def htmlItems (gap : Bytes) : List (List Block) → List Node
  | [] => [.text gap]
  | i :: is => .text gap :: .elem b!"li" [] (htmlL i) :: htmlItems gap is
end

/-- A page as a parser of HTML returns it: `headNodes` are in the `<head>`. -/
def htmlPage (headNodes : List Node) (bs : List Block) : Node :=
  .document [.elem b!"html" [] [.elem b!"head" [] headNodes, .elem b!"body" [] (htmlL bs)]]

/-- What is seen of a text that is alone in a block: runs of white space count as one space, at both ends they do not count. -/
def shown (t : Bytes) : Bytes :=
  let s := oneSpace t
  let s := if s.head? = some 32 then s.tail else s
  if s.getLast? = some 32 then s.dropLast else s

/-- The same for a text that begins a paragraph. -/
def shownFirst (t : Bytes) : Bytes :=
  let s := oneSpace t
  if s.head? = some 32 then s.tail else s

/-- The same for a text that ends a paragraph. -/
def shownLast (t : Bytes) : Bytes :=
  let s := oneSpace t
  if s.getLast? = some 32 then s.dropLast else s

/-- What a reader of Markdown finds. -/
inductive Md
  | paragraph (line : List Span)
  | heading (level : Nat) (line : List Span)
  | rule
  | code (info : Bytes) (lines : List Bytes)
  | quote (blocks : List Md)
  /-- the number of an ordered list is that of its first item -/
  | list (start : Option Nat) (items : List (List Md))

/-- Code without one line feed at its end, in lines. -/
def codeLines (c : Bytes) : List Bytes := lines (if c.getLast? = some 10 then c.dropLast else c)

/-- The number of the first item of a list. -/
def ListKind.first : ListKind → Option Nat
  | .bullet => none
  | .ordered none => some 1
  | .ordered (some s) => some (decimalValue s)

/-- The elements that are shown bold. -/
def strongNames : List Bytes := [b!"strong", b!"b"]

/-- What a text should be read as. -/
def textSpans (t : Bytes) : List Span := if t = [] then [] else [.text t]

mutual
/-- What an element in a paragraph should be read as; `resolve` is what happens to addresses. -/
def Inl.span (resolve : Bytes → Bytes) : Inl → Span
  | .emph name first rest =>
    if name ∈ strongNames then .strong (textSpans (oneSpace first) ++ spansRest resolve rest)
    else .em (textSpans (oneSpace first) ++ spansRest resolve rest)
  | .code c => .code c
  | .link href title first rest => .link (resolve href) title (textSpans (oneSpace first) ++ spansRest resolve rest)
  | .image src title alt => .image (resolve src) title alt

/-- What elements with texts behind them should be read as. -/
def spansRest (resolve : Bytes → Bytes) : List (Inl × Bytes) → List Span
  | [] => []
  | [(i, t)] => i.span resolve :: textSpans (shownLast t)
  | (i, t) :: rest => i.span resolve :: (textSpans (oneSpace t) ++ spansRest resolve rest)
end

mutual
/-- What a block should be read as. -/
def Block.md (resolve : Bytes → Bytes) : Block → List Md
  | .text t => if shown t = [] then [] else [.paragraph [.text (shown t)]]
  | .run first rest => [.paragraph (textSpans (shownFirst first) ++ spansRest resolve rest)]
  | .paragraph t => if shown t = [] then [] else [.paragraph [.text (shown t)]]
  | .rich first rest => [.paragraph (textSpans (shownFirst first) ++ spansRest resolve rest)]
  | .heading n t => if shown t = [] then [] else [.heading n [.text (shown t)]]
  | .richHeading n first rest => [.heading n (textSpans (shownFirst first) ++ spansRest resolve rest)]
  | .rule => [.rule]
  | .code lang c => [.code lang (codeLines c)]
  | .group _ bs => mdL resolve bs
  | .quote bs => if mdL resolve bs = [] then [] else [.quote (mdL resolve bs)]
  | .list kind _ items => if mdItems resolve items = [] then [] else [.list kind.first (mdItems resolve items)]
/-- What blocks should be read as. -/
def mdL (resolve : Bytes → Bytes) : List Block → List Md
  | [] => []
  | b :: bs => b.md resolve ++ mdL resolve bs
/-- What the items of a list should be read as; those without anything to see are no items. -/
def mdItems (resolve : Bytes → Bytes) : List (List Block) → List (List Md)
  | [] => []
  | i :: is => if mdL resolve i = [] then mdItems resolve is else mdL resolve i :: mdItems resolve is
end

/-! ## Which pages -/

/-- The settings that matter: the bullet of lists, the delimiters of `<em>` and `<strong>`, what happens to addresses. -/
structure Style where
  bullet : Bytes
  em : UInt8
  strong : UInt8
  resolve : Bytes → Bytes

/-- What is asked of every text, as it is seen:
* no NUL, no bell, no U+F002 (the converter uses the latter two itself);
* nothing that may be an entity;
* no line tabulation, next line, line separator, paragraph separator (they are white space for Go, but not for CommonMark). -/
structure CharsOK (v : Bytes) : Prop where
  no_nul : 0 ∉ v
  no_bell : 7 ∉ v
  no_mark : ¬ [239, 128, 130] <:+: v
  no_entity : hasEntity v = false
  no_sep : ∀ w ∈ [[11], [194, 133], [226, 128, 168], [226, 128, 169]], ¬ w <:+: v

/-- What is asked of a text that is alone in a block, as it is seen; `bullet` is the bullet of lists.
* no white space other than that of HTML at both ends;
* it does not begin with three or more backticks and tildes, and does not consist of two bullets. -/
structure TextOK (bullet : Bytes) (v : Bytes) : Prop extends CharsOK v where
  leading : NoLeadingWhitespace v
  trailing : NoTrailingWhitespace v
  no_fence : startsWithFenceChars v = false
  no_bullets : v ≠ bullet ++ bullet

/-- What is asked of text in an attribute: no control characters, backticks, backslashes, `<`, nothing that may be an entity. -/
structure AttrOK (s : Bytes) : Prop where
  chars : ∀ b ∈ s, 32 ≤ b ∧ b ≠ 60 ∧ b ≠ 92 ∧ b ≠ 96
  no_mark : ¬ [239, 128, 130] <:+: s
  no_entity : hasEntity s = false

/-- What is asked of an address: it can be a destination in Markdown as it is, once it is resolved. -/
structure AddressOK (resolve : Bytes → Bytes) (href : Bytes) : Prop extends AttrOK (resolve href) where
  leading : NoLeadingWhitespace href
  trailing : NoTrailingWhitespace href
  nonempty : href ≠ []
  resolved : resolve href ≠ []
  plain : PlainDestination (resolve href)

/-- What is asked of code in a paragraph: visible, on one line, without tabs and runs of spaces, without white space at the ends,
and with backticks at both ends or at none of them (see C18). -/
structure SpanCodeOK (c : Bytes) : Prop where
  nonempty : c ≠ []
  chars : ∀ b ∈ c, 32 ≤ b
  no_two : ¬ [32, 32] <:+: c
  no_mark : ¬ [239, 128, 130] <:+: c
  leading : NoLeadingWhitespace c
  trailing : NoTrailingWhitespace c
  ticks : c.head? = some 96 ↔ c.getLast? = some 96

/-- The delimiter of an element. -/
def Style.delim (st : Style) (name : Bytes) : UInt8 := if name ∈ strongNames then st.strong else st.em

/-- What emphasis puts around its content. -/
def Style.around (st : Style) (name : Bytes) : Around := .delim (st.delim name) (if name ∈ strongNames then 2 else 1)

/-- Is it bold or italic? -/
def Inl.isEmph : Inl → Bool
  | .emph _ _ _ => true
  | _ => false

/-- Is it code? -/
def Inl.isCode : Inl → Bool
  | .code _ => true
  | _ => false

/-- Is it a link? -/
def Inl.isLink : Inl → Bool
  | .link _ _ _ _ => true
  | _ => false

/-- The last text of a content. -/
def lastText (first : Bytes) (rest : List (Inl × Bytes)) : Bytes := (rest.getLast?.map Prod.snd).getD first

/-- What is asked of the content of an element: there is some, and it has no white space at both ends. -/
structure InnerOK (first : Bytes) (rest : List (Inl × Bytes)) : Prop where
  nonempty : first ≠ [] ∨ rest ≠ []
  chars : CharsOK (oneSpace first)
  leading : NoLeadingWhitespace (oneSpace first)
  trailing : NoTrailingWhitespace (oneSpace (lastText first rest))

/-- What is asked of a text inside of `ctx`: no delimiter of the emphasis around it with white space behind it (it would end the
emphasis). -/
def TextIn (ctx : List Around) (v : Bytes) : Prop := ∀ c n, .delim c n ∈ ctx → ∀ w ∈ whitespace, ¬ (c :: w) <:+: v

/-- What is asked of emphasis inside of `ctx` and between the texts `v1` and `v2` (as they are seen):
* no bold text in bold text, no italic text in italic text (the converter leaves out the inner one);
* if the delimiter is also used by the emphasis around it (as for italic in bold text), there is a space in front of the element and some
  text behind it: other delimiters may be matched in other ways;
* the text behind the element does not begin with the delimiter;
* in front of the element is a space, punctuation or nothing, or the delimiter is `*` and the content begins with a letter or digit of
  ASCII; and the same behind it: other delimiters may have no meaning for CommonMark;
* the content does not begin or end with code (the converter adds spaces), and is not a link alone (the converter turns them around). -/
structure EmphOK (st : Style) (ctx : List Around) (v1 : Bytes) (name first : Bytes) (rest : List (Inl × Bytes)) (v2 : Bytes) : Prop where
  tag : name ∈ [b!"strong", b!"b", b!"em", b!"i"]
  once : st.around name ∉ ctx
  same : ∀ n, .delim (st.delim name) n ∈ ctx → v1.getLast? = some 32 ∧ v2 ≠ []
  behind : v2.head? ≠ some (st.delim name)
  left : edge v1.getLast? = true ∨ st.delim name = 42 ∧ (oneSpace first).head?.any isWordByte = true
  right : edge v2.head? = true ∨ st.delim name = 42 ∧ (oneSpace (lastText first rest)).getLast?.any isWordByte = true
  code_first : first = [] → ∀ x, rest.head? = some x → x.1.isCode = false
  code_last : ∀ x, rest.getLast? = some x → x.2 = [] → x.1.isCode = false
  no_link : first = [] → ∀ x, rest = [x] → x.2 = [] → x.1.isLink = false

/-- What is asked of an element with the text `t` behind it and `rest` behind that: something is between two elements for emphasis, and
between two elements for code. -/
def between (i : Inl) (t : Bytes) (rest : List (Inl × Bytes)) : Prop :=
  t = [] → ∀ x, rest.head? = some x → (i.isEmph && x.1.isEmph) = false ∧ (i.isCode && x.1.isCode) = false

mutual
/-- What is asked of an element inside of `ctx` and between the texts `v1` and `v2` (as they are seen). -/
def Inl.OK (st : Style) (ctx : List Around) (v1 : Bytes) (v2 : Bytes) : Inl → Prop
  | .emph name first rest =>
    EmphOK st ctx v1 name first rest v2 ∧ InnerOK first rest ∧ TextIn (st.around name :: ctx) (oneSpace first) ∧
      RestOK st (st.around name :: ctx) (oneSpace first) rest
  | .code c => SpanCodeOK c
  | .link href title first rest =>
    AddressOK st.resolve href ∧ AttrOK title ∧ .bracket ∉ ctx ∧ InnerOK first rest ∧ TextIn (.bracket :: ctx) (oneSpace first) ∧
      RestOK st (.bracket :: ctx) (oneSpace first) rest
  | .image src title alt => AddressOK st.resolve src ∧ AttrOK title ∧ AttrOK alt ∧ 42 ∉ alt ∧ 95 ∉ alt

/-- What is asked of elements with texts behind them, inside of `ctx`; `v1` is the text in front. -/
def RestOK (st : Style) (ctx : List Around) (v1 : Bytes) : List (Inl × Bytes) → Prop
  | [] => True
  | [(i, t)] => CharsOK (shownLast t) ∧ NoTrailingWhitespace (shownLast t) ∧ TextIn ctx (shownLast t) ∧ i.OK st ctx v1 (shownLast t)
  | (i, t) :: rest =>
    between i t rest ∧ CharsOK (oneSpace t) ∧ TextIn ctx (oneSpace t) ∧ i.OK st ctx v1 (oneSpace t) ∧ RestOK st ctx (oneSpace t) rest
end

/-- Is there more to see than asterisks, hyphens and underscores? -/
def visibleText (t : Bytes) : Prop := ∃ b ∈ t, b ∉ b!" *-_"

mutual
/-- Is there more to see of an element than asterisks, hyphens and underscores? -/
def Inl.visible : Inl → Prop
  | .emph _ first rest => visibleText (oneSpace first) ∨ visibleRest rest
  | .code _ | .link _ _ _ _ | .image _ _ _ => True
/-- The same for elements with texts behind them. -/
def visibleRest : List (Inl × Bytes) → Prop
  | [] => False
  | (i, t) :: rest => i.visible ∨ visibleText (oneSpace t) ∨ visibleRest rest
end

/-- What is asked of a paragraph with elements:
* the text in front does not begin with a backtick or a tilde (or with white space other than that of HTML);
* there is more to see than asterisks, hyphens and underscores (such a line may be a thematic break). -/
structure RichOK (st : Style) (first : Bytes) (rest : List (Inl × Bytes)) : Prop where
  nonempty : rest ≠ []
  chars : CharsOK (shownFirst first)
  leading : NoLeadingWhitespace (shownFirst first)
  no_fence : (shownFirst first).head? ≠ some 96 ∧ (shownFirst first).head? ≠ some 126
  elements : RestOK st [] (shownFirst first) rest
  visible : visibleText (shownFirst first) ∨ visibleRest rest

mutual
/-- There are no two spaces in a row in the title of a link or an image and in the text for an image (headings lose them, see
`c82_title_in_heading_counterexample`). -/
def Inl.single : Inl → Prop
  | .emph _ _ rest => singleRest rest
  | .code _ => True
  | .link _ title _ rest => ¬ [32, 32] <:+: title ∧ singleRest rest
  | .image _ title alt => ¬ [32, 32] <:+: title ∧ ¬ [32, 32] <:+: alt
/-- The same for elements with texts behind them. -/
def singleRest : List (Inl × Bytes) → Prop
  | [] => True
  | (i, _) :: rest => i.single ∧ singleRest rest
end

/-- What is asked of the elements of a heading, beside what is asked of those of a paragraph: the heading does not end with `#`. -/
structure HeadingOK (rest : List (Inl × Bytes)) : Prop where
  single : singleRest rest
  last : ∀ x, rest.getLast? = some x → (shownLast x.2).getLast? ≠ some 35

/-- What is asked of a code block. -/
structure CodeOK (lang c : Bytes) : Prop where
  lang_chars : ∀ b ∈ lang, isLetter b ∨ isDigit b ∨ b = 35 ∨ b = 43 ∨ b = 46 ∨ b = 95
  nonempty : c ≠ []
  no_nul : 0 ∉ c
  no_bell : 7 ∉ c
  no_cr : 13 ∉ c
  no_mark : ¬ [239, 128, 130] <:+: c

/-- The attribute `start`, if it is there, is a number, and the numbers of `n` items have at most nine digits. -/
def ListKind.OK (n : Nat) : ListKind → Prop
  | .bullet => True
  | .ordered none => n < 10 ^ 9
  | .ordered (some s) => Digits s ∧ decimalValue s + n ≤ 10 ^ 9

/-- Is it without an element of its own? -/
def Block.isText : Block → Bool
  | .text _ => true
  | .run _ _ => true
  | _ => false

/-- No two texts follow each other (a parser of HTML makes one of them). -/
def textsApart : List Block → Bool
  | [] => true
  | [_] => true
  | a :: b :: bs => !(a.isText && b.isText) && textsApart (b :: bs)

/-- A line that begins with `v` is no heading with number signs, no list item and no thematic break. -/
structure NoStart (v : Bytes) : Prop where
  heading : isAtxHeading v = false
  bullet : isBulletItem v = false
  ordered : isOrderedItem v = false
  rule : isThematicBreak v = false

mutual
/-- The code blocks have one line (`Block.OK` asks it of those in quotes). -/
def Block.oneLine : Block → Prop
  | .code _ c => (codeLines c).length = 1
  | .group _ bs => oneLineL bs
  | .list _ _ items => oneLineItems items
  | .text _ | .run _ _ | .paragraph _ | .rich _ _ | .heading _ _ | .richHeading _ _ _ | .rule | .quote _ => True
/-- The code blocks in blocks have one line. -/
def oneLineL : List Block → Prop
  | [] => True
  | b :: bs => b.oneLine ∧ oneLineL bs
/-- The code blocks in the items of a list have one line. -/
def oneLineItems : List (List Block) → Prop
  | [] => True
  | i :: is => oneLineL i ∧ oneLineItems is
end

mutual
/-- What is asked of a block in a quote: its code blocks have one line (see C21), and outside of lists its texts do not begin like a heading, a list item or a
thematic break (see `c82_counterexample_quote`). -/
def Block.quotable : Block → Prop
  | .text t => NoStart (shown t)
  | .run first _ => NoStart (shownFirst first)
  | .paragraph t => NoStart (shown t)
  | .rich first _ => NoStart (shownFirst first)
  | .heading n t => n < 3 → NoStart (shown t)
  | .richHeading n first _ => n < 3 → NoStart (shownFirst first)
  | .rule => True
  | .code _ c => (codeLines c).length = 1
  | .group _ bs => quotableL bs
  | .quote _ => True
  | .list _ _ items => oneLineItems items
/-- What is asked of blocks in a quote. -/
def quotableL : List Block → Prop
  | [] => True
  | b :: bs => b.quotable ∧ quotableL bs
end

mutual
/-- What is asked of a block. -/
def Block.OK (st : Style) : Block → Prop
  | .text t => TextOK st.bullet (shown t)
  | .run first rest => RichOK st first rest
  | .paragraph t => TextOK st.bullet (shown t)
  | .rich first rest => RichOK st first rest
  | .heading n t => 1 ≤ n ∧ n ≤ 6 ∧ shown t ≠ [] ∧ TextOK st.bullet (shown t)
  | .richHeading n first rest => 1 ≤ n ∧ n ≤ 6 ∧ RichOK st first rest ∧ HeadingOK rest
  | .rule => True
  | .code lang c => CodeOK lang c
  | .group name bs => name ∈ groupNames ∧ textsApart bs ∧ BlocksOK st bs
  | .quote bs => textsApart bs ∧ BlocksOK st bs ∧ mdL st.resolve bs ≠ [] ∧ quotableL bs
  | .list kind gap items => (∀ b ∈ gap, isHtmlSpace b) ∧ kind.OK items.length ∧ mdItems st.resolve items ≠ [] ∧ ItemsOK st items
/-- What is asked of blocks. -/
def BlocksOK (st : Style) : List Block → Prop
  | [] => True
  | b :: bs => b.OK st ∧ BlocksOK st bs
/-- What is asked of the items of a list. -/
def ItemsOK (st : Style) : List (List Block) → Prop
  | [] => True
  | i :: is => textsApart i ∧ BlocksOK st i ∧ ItemsOK st is
end

/-- What is asked of a page: the headings, lists and quotes are not empty (texts around an empty heading would be glued together). -/
def PageOK (st : Style) (bs : List Block) : Prop := textsApart bs ∧ BlocksOK st bs

/-! ## Reading Markdown: blocks -/

/-- A list marker with one space behind it. -/
structure Marker where
  /-- `-`, `+`, `*` or the delimiter of an ordered list, `.` or `)` -/
  kind : UInt8
  /-- the number of an ordered list -/
  number : Option Nat
  /-- where the content starts -/
  width : Nat
deriving DecidableEq

/-- CommonMark 5.2: a list marker at the start of the line, with exactly one space and then something else behind it. -/
def readMarker : Bytes → Option Marker
  | [] => none
  | c :: line =>
    if c = 45 ∨ c = 43 ∨ c = 42 then
      match line with
      | 32 :: x :: _ => if x = 32 ∨ x = 9 then none else some ⟨c, none, 2⟩
      | _ => none
    else
      let ds := (c :: line).takeWhile isDigit
      if 1 ≤ ds.length ∧ ds.length ≤ 9 then
        match (c :: line).dropWhile isDigit with
        | d :: 32 :: x :: _ =>
          if (d = 46 ∨ d = 41) ∧ ¬ (x = 32 ∨ x = 9) then some ⟨d, some (decimalValue ds), ds.length + 2⟩ else none
        | _ => none
      else none

/-- Is this a line of the list item whose content starts at column `w`? -/
def belongs (w : Nat) (l : Bytes) : Bool := isBlankLine l || (List.replicate w 32).isPrefixOf l

mutual
/-- Read lines as blocks.  The first argument bounds the number of steps. -/
def readBlocks : Nat → List Bytes → Option (List Md)
  | 0, _ => none
  | _ + 1, [] => some []
  | f + 1, l :: ls =>
    if isBlankLine l then readBlocks f ls
    else if l.head? = some 32 ∨ l.head? = some 9 then none
    else if isThematicBreak l then (readBlocks f ls).map (.rule :: ·)
    else
    match readAtx l with
    | some (n, s) => (readInline s).bind fun t => (readBlocks f ls).map (.heading n t :: ·)
    | none =>
    match readFenced (l :: ls) with
    | some b =>
      if b.closed ∧ 92 ∉ b.info ∧ 38 ∉ b.info then (readBlocks f b.rest).map (.code b.info b.code :: ·) else none
    | none =>
    if l = b!"<!--THE END-->" then readBlocks f ls
    else
    match readMarker l with
    | some m =>
      (readList f m l ls).bind fun r => (readBlocks f r.2).map (.list m.number r.1 :: ·)
    | none =>
    if l.head? = some 62 then
      let own := (l :: ls).takeWhile (b!"> ".isPrefixOf ·)
      let rest := (l :: ls).dropWhile (b!"> ".isPrefixOf ·)
      if own ≠ [] ∧ rest.head?.all isBlankLine then
        (readBlocks f (own.map (·.drop 2))).bind fun q => (readBlocks f rest).map (.quote q :: ·)
      else none
    else if isBulletItem l ∨ isOrderedItem l ∨ l.head? = some 60 then none
    else
    match ls with
    | [] => (readInline l).map fun t => [.paragraph t]
    | l2 :: ls2 =>
      if isBlankLine l2 then (readInline l).bind fun t => (readBlocks f ls2).map (.paragraph t :: ·)
      else if (l2.head? = some 61 ∨ l2.head? = some 45) ∧ isSetextUnderline l2 then
        (readInline l).bind fun t => (readBlocks f ls2).map (.heading (if l2.head? = some 61 then 1 else 2) t :: ·)
      else none
/-- Read the items of a list whose next item is at the line `l` with the marker `m`; the result are the items and the lines behind the
list. -/
def readList : Nat → Marker → Bytes → List Bytes → Option (List (List Md) × List Bytes)
  | 0, _, _, _ => none
  | f + 1, m, l, ls =>
    let own := ls.takeWhile (belongs m.width)
    let rest := ls.dropWhile (belongs m.width)
    (readBlocks f (l.drop m.width :: own.map (·.drop m.width))).bind fun item =>
      match rest with
      | [] => some ([item], [])
      | l2 :: ls2 =>
        match readMarker l2 with
        | some m2 =>
          if m2.kind = m.kind ∧ isThematicBreak l2 = false then
            (readList f m2 l2 ls2).map fun r => (item :: r.1, r.2)
          else if own.getLast?.any isBlankLine then some ([item], l2 :: ls2) else none
        | none => if own.getLast?.any isBlankLine then some ([item], l2 :: ls2) else none
end

/-- Read Markdown (carriage returns and NUL bytes are not treated). -/
def readMarkdown (s : Bytes) : Option (List Md) := if 13 ∈ s ∨ 0 ∈ s then none else readBlocks (2 * s.length + 4) (lines s)

end Verif.Spec
