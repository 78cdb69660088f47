# Formal model of html-to-markdown in Lean 4

The model is in `lean/Verif/Model`, the properties are in `properties.jsonl`, their theorems in `lean/Verif/Props`.
`MANIFEST.json` says which theorems belong to which property, `AXIOMS.md` which axioms each of them uses.

## 1. Layout

* `lean/Verif/Basic` - byte strings and the functions of Go's standard library that the code calls.
* `lean/Verif/Model` - the model, one file per Go package; every definition cites the lines it models (`tools/citations.py` checks that).
* `lean/Verif/Spec` - small specifications that know nothing of the model: CommonMark readers, lines, characters, HTML trees, ...
* `lean/Verif/Proofs` - helper lemmas.
* `lean/Verif/Props` - the theorems about the properties, and for each an `example` or a theorem which shows that its hypotheses can be met.
* `seeded/LOG.jsonl` - faults that were put into a copy of the model, and which theorems failed (section 6).
* `tools/` - `conformance` (section 6), `citations.py`, `axioms.py`, `mkman.py` (writes `MANIFEST.json`).

Theorems whose name ends in `_partial` prove a property under a restriction; names with `counterexample` or `fails` prove that
the code violates (part of) a property, on a concrete input.

## 2. Modelling decisions

* Go `[]byte` and `string` are `List UInt8`; `nil` and the empty slice are the same value unless the code tells them apart.
* Go `int` is `Nat`/`Int` without overflow, except where the overflow is observable (the start of lists); this is said at the definition.
* A DOM is an inductive tree (`Model/Dom.lean`). Functions that change the tree in place become functions that return the new tree. The node that is
  converted is the root: it has no parent and no siblings. (If a user converts a node in the middle of a tree, some passes of the code walk beyond it.)
* Loops over slices with index arithmetic become recursion over a zipper (bytes before, reversed; bytes after).
* A panic is the result `none` (`Model/Commonmark.lean: heading`, `Model/Render.lean`).
* Handlers of the engine are interaction trees, so that theorems about the engine hold for every plugin (`Model/Engine.lean`).
* The file system of the command line tool is a map from paths to contents; a run is the list of all states it goes through, down to single
  bytes of a write, so that theorems about it hold at every crash point (`Model/Cli.lean`).
* Concurrency: one step is one read or write of one element of the shared slice; theorems hold for all schedules (`Model/Concurrency.lean`).

## 3. What is modelled

| Go file | model | remarks |
|---|---|---|
| `convert.go`, `converter/convert.go`, `render.go`, `ctx.go`, `plugin.go`, `prioritized.go`, `register.go`, `converter.go`, `status.go` | `Engine`, `Stock`, `Convert`, `Render`, `Concurrency` | `Engine`: arbitrary plugins, with fuel. `Stock`: the four stock plugins as plugins, with their registrations and priorities. `Render`: the stock plugins built in, structural recursion. That `Engine` with `Stock` computes `Render` is C83 |
| `converter/escape.go`, `internal/escape/*` | `Escape` | complete |
| `converter/url.go` | `Url` | `url.Parse` and `ResolveReference` are parameters |
| `internal/textutils/*` | `TextUtils` | complete |
| `internal/domutils/*` | `DomUtils` | complete |
| `collapse/*` | `Collapse` | complete |
| `marker/marker.go` | `Commonmark` | constants |
| `plugin/base/base.go`, `renderers.go` | `Commonmark`, `Render`, `Stock` | complete; `html.Render` is a parameter |
| `plugin/commonmark/*` | `Commonmark`, `Config`, `Render`, `Stock` | complete |
| `plugin/strikethrough/strikethrough.go` | `Render`, `Stock` | complete |
| `plugin/table/*` | `Table`, `Render`, `Stock` | complete; errors are named without the value |
| `cli/html2markdown/cmd/cmd_convert.go`, `exec.go`, `flags.go`, `io_input.go`, `io_output.go` | `Cli`, `CliDom`, `CliConvert` | `Cli` has the conversion as a parameter; `CliConvert` is the conversion |
| `cli/html2markdown/cmd/cmd_version.go`, `cmd_help.go`, `errors.go`, `flags_categorize.go`, `cli_run.go` | `Cli`, `CliExec` | the texts of the usage and of most messages are parameters |

Not modelled: colors (`print.go`), how it is decided that stdin is a pipe (`util_pipe.go`),
`main.go`, `examples`, `internal/tester`; handlers that register handlers while a conversion runs; memory exhaustion by huge spans.

## 4. Trusted base

* Lean's kernel.
* The axioms `propext`, `Classical.choice` and `Quot.sound`; `AXIOMS.md` lists them for each theorem. There are no other axioms, no `sorry`,
  no `native_decide`, no `bv_decide`, no `implemented_by`.
* That the definitions in `Model` say what the Go code does. Evidence: section 6.
* Libraries that are not in `/repo`. They appear in one of two ways.
  * As parameters over which theorems quantify: `url.Parse`/`ResolveReference` (`UrlLib`), CSS selectors (any function of a node and its
    surroundings), `doublestar`, `sha256`, `filepath` (`Cli.Env`), the tables of block and inline names of package dom (`NameTables`), `unicode.IsDigit`,
    `sort.Slice` (`GoSort`: it sorts and permutes, leaves a sorted slice alone, and is insertion sort up to 12 elements, as in Go's source).
  * As definitions from their documentation: `unicode.IsSpace`, `strings`/`bytes` functions, `strconv.Atoi`, `QueryEscape`/`QueryUnescape`, UTF-8;
    of package dom: the walks to neighbours (`GetNextNeighborNodeExcludingOwnChild` and others), `RemoveNode` does nothing without a parent,
    `UnwrapNode`, `AllNodes`/`FindFirstNode`/`FindAllNodes` in document order without the start node, attribute lookup takes the first
    attribute with the name; `cascadia.QueryAll` gives the matching descendants in document order.
* The HTML parser is not modelled. Theorems about whole conversions assume what it guarantees (`Spec/Render.lean: Page`): texts and
  attribute values are UTF-8, void elements have no children, documents are not nested.

## 5. What the code does otherwise than one would expect

These came up while proving; those marked with * are theorems.

Escaping: a bell byte (U+0007) in the text is dropped. * `&` is not escaped, so the text `&lt;` becomes `<` (C16). * With a tab between the
characters a thematic break gets through (C09). * Go's white space is larger than that of CommonMark, so `*` before U+2028 can open
emphasis (C12). * A backtick after a fence-like line is not escaped (C14). * `[` is escaped only if `]` follows on the same line (C15),
also for a line break inside of a link (C69). * A `*` with a space behind it ends emphasis: `<em>2* 3</em>` becomes
`*2* 3*`, and `* <b>*</b>` becomes `\* *****` (C82). * Delimiters between a letter and punctuation, and underscores in words, have no meaning: `a<b>"b"</b>c`, `a<em>b</em>c` (C82). * Bold text directly behind italic text is merged into it: `<em>a</em><b>b</b>` becomes `*ab*` (C82); bold
code in a word gets spaces around it (C82). * Inside of a quote
no character is at the start of a line for the escaping, so `<blockquote><p># a</p></blockquote>` becomes `> # a`, a heading (C82). * Two spaces in the title of an image or a link in an ATX heading become one (C82). * In a list, the text `--` becomes a
thematic break (C82).

Code: * with a backtick at one end of inline code only one space is added (C18). * A newline or backtick in the language breaks the fence (C19).
* U+F002 or a bell in code is changed (C20). * A code block in a quote loses the `> ` of its lines (C21).

Links, images, headings: * titles with backslashes are read differently (C24). * Backslashes and control characters at the end of an address (C25).
* The validation accepts the link styles `referenced_index` and `referenced_short`, with which links are rendered as their text (C82).
* A break at the end of a setext heading (C27). * A backslash before a bracket in alternative texts (C28). * Code in headings (C29).
* With EscapeModeDisabled `<h1>C#</h1>` loses the C, and `<h1>#</h1>` panics (C30, C64).

Lists: * negative start numbers, overflow, more than nine digits (C34, C35, C82). * A rule of bullets in a list is a rule without a list (C82). * Empty
headings, lists and quotes do not separate the texts around them: `a<ul></ul>b` becomes `ab` (C82). Trimming: * C32, C33. * A paragraph of only a bell character vanishes, but not the blank lines around it (C94).

Tree: * an italic element next to a bold one becomes bold, and merging pulls text out of blocks (C40). * After merging, bold can be inside of
bold again (C39). * Blank texts in lists move (C37). * Two text nodes after an image are not collapsed properly (C45, C73). The merging step of the strikethrough
plugin runs after blocks were taken out of headings and can move blocks into a heading. List end comments are inserted between lists of different kinds, too.
* HTML that `RenderAsHTML` keeps loses blank lines (C91). * `code` is treated differently from `kbd`, `samp`, `tt` and `var`: an empty one is left out, an empty
`kbd` becomes two backticks (C98).

Engine: * what a renderer writes before it answers "try next" stays in the output (C47). * `getTagType` sorts a shared slice while holding a
read lock only (C51). `append(marker.BytesMarkerCodeBlockNewline, ...)` may write to a shared array. A custom un-escape handler that returns 0 never ends.

Tables: * a pipe in inline code splits the cell (C55). * Two column spans in a row, or overlapping row spans, misplace cells; a row span
beyond the last row adds rows (C57). * `<pre>` in preserve mode breaks the row (C54). * The caption moves behind the table, and a
second caption is lost (C64). The alignments are taken by index and ignore spans. Spans are not limited (`plugin/table/utils.go:47-61`), so a huge column span exhausts the memory (C97).

Options: * the delimiters are checked by counting characters, so `*#` is accepted (C58). The delimiter of the strikethrough plugin is not checked at all.

Command line: * different inputs can get the same output path (C60). * With the overwrite flag a crash loses the old content (C66), and an input can be
overwritten before it is read. * Only the input and output flags are refused when repeated (C62). * Positional selectors look at the tree while nodes are removed (C63). * Nested
matches of an include selector: the inner one is moved out of the outer one (C63). The output directory is created before the other flags are checked.

## 6. Evidence that the model is the code, and that the theorems are strong

* **Conformance.** `tools/conformance/run.py` takes the HTML of the golden files in `/repo/plugin/*/testdata/GoldenFiles`, builds the tree with a small parser,
  evaluates the model in Lean and compares with the expected Markdown. All 14 files (8 CommonMark, 1 strikethrough, 5 table) agree byte for byte; the only exception is `&amp;` in a
  comment of `code.in.html`, which is due to the parser of the tool. (The golden files of the CommonMark plugin render comments as HTML; the tool
  uses a copy of the model with this change.) The code itself cannot be run here.
* **Citations.** `tools/citations.py` checks that every definition of the model cites lines that exist.
* **Seeded faults.** `seeded/LOG.jsonl` has one line for each fault put into a copy of the model: the definition, the edit, the claim it breaks, the
  theorems that failed. Where none failed a theorem was added or made stronger (`tightened`).

## 7. The properties

For each property: what is modelled, how it is proved, and what is missing. Where the code violates a property, the full statement
stays in `properties.jsonl`, the violation is proved on a witness, and the `_partial` theorem says under which condition the property holds.

### Escaping (`Model/Escape`, specifications `Spec/Blocks`, `Spec/Inline`, `Spec/Pointwise`)

The handlers look at a zipper; the invariant of the un-escape loop relates what they look at (the text with markers) with what is written.

* **C01** only backslashes are inserted: induction over the loop; `InsertsBackslash` in Spec. Proved.
* **C02** no bell in the output: induction over the loop. Proved, for any handlers.
* **C03** NUL becomes U+FFFD: induction over the escape loop. Proved.
* **C04** EscapeModeDisabled is the identity: case split. Proved.
* **C05-C08, C10, C11** no heading, quote, list item, setext underline, fence: Spec says what such a line is in CommonMark; the invariant says that the bytes
  before a position in the output are blank exactly if they are in the text. Proved.
* **C09** thematic break: the same; proved for text without tabs, witness for a tab.
* **C12** emphasis: proved for Go white space, witness for U+2028.
* **C13** backslashes: the CommonMark unescape of the output is the text. Proved.
* **C14, C15** code spans, links: proved under the condition that the handlers look for, witnesses otherwise.
* **C16** raw HTML: that no angle bracket is left is proved; decoding entities returns the text only if it has no `&lt;` or `&gt;` itself (partial, witness).

* **C79** tildes, with the strikethrough plugin: as C12; partial, witness.
* **C81** escaping is local to a block: the handlers do not look beyond an empty line, induction over the scan. Proved.

### Inline and block renderers (`Model/TextUtils`, `Model/Commonmark`, specifications of CommonMark readers in `Spec/Inline`, `Spec/Lines`, `Spec/Links`, `Spec/Lists`)

* **C17** inline code fence: maximal runs. Proved. **C18** reading a code span: partial, witness.
* **C19, C20** fenced code and what post-processing does to it: a reader for fenced blocks; partial, witnesses.
* **C21** quotes: every line; partial, witness. **C22, C23** emphasis per line, surrounding spaces: split and join lemmas. Proved.
* **C24, C28, C69** titles, alternative texts, links and images as a whole: readers for titles, bracketed texts and links; partial, witnesses.
* **C25, C26, C71** addresses: for every URL library; C25 partial, the others proved.
* **C27, C29, C30** headings: C30 has an exact characterisation of the panic, and whole conversions (below).
* **C31, C32, C33** newlines and trimming: an automaton and its invariant. C31 proved, the others partial.
* **C34, C35** lists: decimal numbers, de-indentation reader. Proved for non-negative numbers; which attributes `start` with a sign are read is stated as well.
* **C58** configuration: partial. **C80** each inline element gets its own delimiter: decision logic and C22. Proved.

### Trees (`Model/DomUtils`, `Model/Collapse`, specification `Spec/Dom`, `Spec/Collapse`)

Statements are about lists of items (a node and the names around it) or about the HTML source as a list of tags. Induction over trees.

* **C36, C37, C38, C41, C42, C70, C74, C75**: proved. **C78** (the steps of the strikethrough plugin): proved.
  **C39, C40**: partial, because merging comes after removing (witnesses).
* **C43, C44** collapsing loses no visible text: proved. **C45, C73**: partial (texts that follow each other without an element between).

### Engine (`Model/Engine`, `Model/Concurrency`, specification `Spec/Engine`)

* **C46, C47, C48, C49, C50, C52**: proved for all handlers (interaction trees) and any fuel.
* **C83** the engine with the stock plugins is the conversion that the other properties are about. `Spec/Stock.lean` has the converters (`Options.converter`); `Props/Stock.lean` proves for every
  usual order of the plugins that `Engine.convertNode` gives, from some fuel on, the result of `Render.convertNode` and leaves the converter unchanged. By induction on the fuel and the depth of the tree; each handler is run symbolically.
  `Render` renders the children of links and images also where the engine does not, so the theorem is an implication: where `Render` gives a result, so does the engine. By C30, `Render` always gives one in the default escape mode.
  Not usual is the strikethrough plugin before the CommonMark plugin: the un-escape handlers then run in another order (counterexample).
* **C84** rejected options: the loop over the options by induction; the error of a plugin by C49.
* **C51**: all schedules of any number of threads. Proved if the registrations of each name are in order of priority (so for the stock plugins); witness schedules otherwise.
  For registrations in any order: goroutines that do not overlap find the first one in order (invariant of the insertion sort), and for every schedule a goroutine returns something that was registered
  within a bounded number of its own steps (`Props/ConcurrencyAlone`).

### Tables (`Model/Table`, `Model/Render`, specifications `Spec/Table`, `Spec/TableNodes`)

* **C53, C56, C67, C68, C72**: proved. **C54, C55, C57**: partial, witnesses.
* **C76** the rows of the Markdown table are those of the HTML table: nodes below a table are listed with their paths, which identify them. Proved.
* **C77** tables that Markdown cannot express: decision logic. Proved.

### Command line tool (`Model/Cli`, `Model/CliDom`, specifications `Spec/Cli`, `Spec/Selectors`)

* **C59, C61**: proved; C59 for every state of every run. **C60, C62, C63, C66**: partial, witnesses.
* **C85** the converter that the tool builds is one of C83, with the settings that `Spec/CliConvert.lean` reads off the flags; selecting keeps pages pages (induction over the tree), so C30 applies. Proved.
  Proving the errors showed that the model of the checks had them in the wrong order: `setError` overwrites, so that the error of the plugin that is registered last is reported.
* **C86** cases of a run; the search for the nearest flag by induction over the list of flags. Proved.
* **C87** the simulation of C83, restricted to trees whose names are not concerned by the registrations; the functions that ask for tag types are
  congruent in the names of the tree, and handlers of which at most one takes a node may be tried in any order. Proved.
* **C88** `Spec.characters` decodes a text into code points, `Spec.widest` counts those of the longest line without the escape marker.  `c88_underline`
  holds for any content; `c88_text` says that for a text on one line the width is that of the text itself, whatever is escaped: the markers are
  ASCII bytes, so they never join or split characters.
* **C89** joins C30, C64, C65 and carries them through C83 and C85 to the functions of the package and to runs of the tool.  The default escape mode is the smart one,
  so what makes C30 and C64 partial (the disabled escape mode, tables) does not arise for the package. Proved.

* **C90** `Model/Convert` has the options and the three functions; `lastDomain` and `lastValues` in `Props/Convert.lean` are the specification. Proved.
* **C91** node by node: the registration is the first in priority order (`sort_first`), the rest is running the renderer. What comes before does not matter (`c47_frame`, an
  induction over programs and fuel, `Proofs/EngineFrame`). Partial: in the whole output newlines in kept HTML are trimmed (witness).
* **C92** `Spec/Context.lean` says what it means that a handler passes a value on (`Passes`, for arbitrary programs). Induction over programs, handlers and fuel: handlers that do the same for this value can be
  exchanged. For the stock plugins `Passes` is checked handler by handler. Proved.

* **C95** the rows of a table without spans are its cells (C57), so both options can be computed. `Props/TableNewlines.lean`. Proved.
* **C96** induction over the inputs with the names seen so far; name and extension are specified by splitting the path. `Props/OutputNames.lean`. Proved.

* **C93** `Spec/CodeNodes.lean` lists the start tags and texts of a tree with the names of the elements around them; the code is what the shown ones say, in order. Mutual induction
  over the tree (`Props/CodeNodes.lean`), joined with C18 to C20. Partial as these are.

### Whole conversions (`Model/Render`, specifications `Spec/Render`, `Spec/Characters`, `Spec/TableNodes`)

* **C64** all visible characters of a page are in the Markdown, in their order. Characters are read by UTF-8; `<`, `>` and NUL may be spelled as the text transformer does.
  The steps before rendering keep the characters (`Proofs/CharsTree`); each renderer keeps the characters of its content (`Proofs/CharsParts`, `CharsHeading`, `CharsTable`);
  rendering is an induction over the tree (`Proofs/CharsMain`). The delicate part is the heading, which replaces the byte in front of a final `#`:
  the invariant says that such a byte is a marker, and that blocks are not inside of headings. Partial: default escape mode or no `#`; tables are read from top to bottom (in order), or
  all text of a table is in its rows and first caption (in some order). Witnesses for the rest.
* **C33, C94** white space at the edges and blank lines, for whole conversions. For each renderer it is proved that its result is UTF-8, that its first and last visible character is not the
  marker for newlines of code, that escape markers stay in front of visible characters (`Proofs/Marks`), and that there are no newline markers at all without `pre`
  (`Proofs/Inner`, `Proofs/Edge`, `Proofs/EdgeTable`); `Proofs/EdgeTree` is the induction over the tree and the steps before rendering. Then the last steps keep the automaton of C31 (`Props/Edges`). `Props/EdgesEngine` carries both over to the functions of the package and the command line tool.
  Partial: the texts and attributes do not contain the two characters that the converter uses for itself (witnesses), and the conditions of C30.
* **C97** the length of the Markdown. `Spec/Size.lean` says what the size of a page is. The steps before rendering grow a page by a constant factor (`Proofs/SizeTree`). Rendering: the invariant is about
  length and number of line breaks, as a quote or a list adds to each line of its content (`Proofs/SizeBytes`, `SizeParts`, `SizeRender`);
  underlines of headings are as long as the heading, so the nesting of headings has to be limited (`Proofs/SizeHeading`: at most 2); tables are a grid (`Proofs/SizeTable`). `Props/Size`, and for the package and the tool
  `Props/SizeEngine`. That spans have to be counted is `Props/SizeSpans`. Proved. (The exponents are not claimed to be the best.)
* **C98** documents that mean the same have the same Markdown. `Spec/Alike.lean` says when: names that are synonyms or have no special meaning, the same values of the attributes that
  are used, the same texts. `relabel` gives all elements other names and attributes; each step before rendering commutes with it, and rendering does not see it (`Proofs/Alike`, `AlikeRender`).
  Every document has the Markdown of its canonical form (one name for each meaning, only the attributes that are used), and documents that mean the same have the same canonical form
  (`Proofs/AlikeNames`). The one step that does not commute puts the attributes of a block on a `span`; there the attributes are dropped after the step once more. `Props/Alike`. Proved, with a witness that `code` is not a synonym of `kbd`.
* **C99** documents that look the same have the same Markdown: `Spec/Invisible.lean` has the smallest equivalence relation for which comments and other hidden nodes at any place, and the places where texts are split, do not count.
  Induction over this relation: the trees are equal after the first pre-render handler. `Props/Invisible`. A doctype at the beginning stays there until the white space is collapsed, and until then no step looks at it
  (`Proofs/Doctype`). Proved.
* **C100** a rule separates a document. `Spec/Sections.lean` says what a document with a rule in containers is, and what it means that the Markdown of the whole is made of the two parts.
  The place of the rule is given by the containers around it and, for each of them, the nodes before and behind the way to the rule (`around`, like a zipper); the two parts are the tree without what is
  behind the way, and without what is before it. Every step before rendering treats these separately (`Proofs/CutDom`, `CutTree`): for each step there are two functions, one of the lists before and one of the
  lists behind. So do trimming, removing newlines and un-escaping, for all bytes (`Proofs/CutBytes`,
  `Proofs/LocalRaw`: the un-escape handlers do not look beyond a blank line). `Props/Sections`. For pages with doctype and head (`c100_page`) this uses C99. Proved. Assumed of the tables: `hr` is a block name, and U+0000 and the newline are no digits.
* **C101** a heading or a paragraph with a text separates a document. `Spec/TitleSections.lean`. The proofs of C100 about the tree and the bytes are for separators in general: the steps before rendering only
  need that the separator is a block with a visible text (`preRender_tree`), the steps after it that what is rendered does not end with white space and is followed by a blank line (`post_cut`). What is rendered for a title
  has this form in both heading styles (`Props/TitleSections`). Proved. A title without text does not separate lists (`c101_empty_title`), and a title that ends with a no-break space does not
  separate at all (`c101_blank_title`).
* **C102** a block with any content between its first and its last text separates a document. `Spec/BlockSections.lean`. The steps before rendering change the content of such a block, but not depending on what is around it, and it
  still begins and ends with text (`Proofs/CutFrame`: what each step makes of a block that is framed by texts). That what is rendered ends with a character that is not white space, and so is not trimmed with
  what comes behind, is shown from the last text alone (`Props/BlockSections`); for quotes, trimming and prefixing the lines keep this end (`quote_shape`). Proved, with a counterexample for a block that ends with bold texts (`c102_bold_end_not`).
* **C104** a code block separates a document. `Spec/CodeSections.lean`: code is written with texts, `span` elements and line breaks (`br`), in a `pre` element or in a `code` element in it. The steps before rendering leave it as it is, apart from the
  joining of texts (`Proofs/CutCode`), and what is rendered begins and ends with a fence. Proved. Assumed of the tables: `pre` is a block name, `span`, `#text` and `br` are not. The code has a text that is not empty
  (line breaks alone do not count). Other elements in the code (bold texts, links) are not covered.
* **C103** parts that begin and end with blocks with text, code blocks or rules can be converted separately and joined with blank lines. `Spec/Join.lean`. By C102 (C104, C100) for the last block of the first part and for the first block of the second one,
  it is left to show that the Markdown of two blocks alone is the Markdown of each with a blank line between: the steps before rendering change two blocks as they change each of them (`Proofs/CutPair`), and what is
  rendered for a block begins with a character that is not trimmed (`Lead` in `Props/Join`). Any number of parts by induction. Proved, with counterexamples for lists and for no-break spaces at the seam.
* **C105** an edit of a part changes only its Markdown; parts can be removed and reordered. Corollaries of C103, with its conditions: what is before and behind the part in the Markdown is chosen before the part (`∃ u v, ∀ part`).
  Proved, with an example of lists for which the surroundings change (`c105_list_edit`).
* **C30** for whole conversions: the same induction without the characters, so without conditions on tables.
* **C65** no markers in the Markdown: for every rendered document and the post-render handlers of the stock plugins. Partial: with EscapeModeDisabled a bell byte of the text stays.
* **C82** a page is read back as it was. `Spec/Page.lean` says which pages (`Block`), what is seen of them (`Block.md`) and has a reader of Markdown that gives up on everything it does not
  treat. The steps before rendering are computed for all pages (`Proofs/PageTree`). What is rendered is a sequence of pieces with newlines between (`Proofs/PageSolid`); a
  piece is a list of tokens (markers and bytes), so that C81 gives the escaped form of the whole from that of the pieces (`Proofs/PagePieces`). For each piece it is proved how
  its lines are read, whatever follows (`Proofs/PageText`, `PageHeading`, `PageLeaf`), for paragraphs and headings with emphasis, code, links and images in them
  by the reader of lines of `Spec/Spans.lean` (`Proofs/PageLoop`, `PageInert`, `PageSpans`, `PageRich`, `PageRichHeading`, `PageRichRender`), for lists from that of their items (`Proofs/PageList`, `PageItems`), and for quotes from that of the blocks in them (`Proofs/PageQuote`), with a lemma on what escaping does
  behind the `> ` of a line, where nothing is at its start (`Proofs/PageQuoteLoop`, `PageQuoteLine`). Lists do not follow each other because of the
  comments of C36. Partial: conditions on texts (no entities, no fence characters at the start, no white space that CommonMark does not know at the ends), on what is
  around emphasis and on addresses, and in quotes on the starts of texts and on code (one line), with witnesses. Inline elements may be in each other to any depth, with some text between them; bold and italic text
  in each other may not touch (`*a**b***`), as the reader does not split runs of delimiters.
  `c82_package_partial` and `c82_tool_partial` (`Props/PageEngine.lean`) say the same of the default converter of the package, through C83, and of a run of the command line tool
  from standard input to standard output, through C85. With C98 and C99 all of this holds for every document that is the same as such a page (`Spec/SameDocument.lean`: other attributes,
  synonyms, comments, scripts, a doctype): `Props/SameDocument.lean`.
