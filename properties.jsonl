{"id": "C01", "title": "Escaping only inserts backslashes", "statement": "In smart escape mode, for any text that contains neither the bell byte (7) nor NUL, escaping followed by un-escaping yields the same text with zero or more backslashes inserted, each one directly in front of a byte that some plugin registered as an escaped character. Nothing is removed, reordered or replaced.", "quantifier": "every byte string, every set of registered escaped characters and every list of un-escape handlers", "why_tests_cant": "the decision per character depends on unbounded look-behind and look-ahead; a test fixes one surrounding text", "anchors": ["converter/escape.go: escapeContent, unEscapeContent", "converter/register.go: EscapedChar, UnEscaper"]}
{"id": "C02", "title": "Internal escape marker never reaches the output", "statement": "In smart escape mode the output of un-escaping contains no bell byte whatever the input contains, so the marker of the escape mechanism never leaks into the Markdown.", "quantifier": "every byte string (including ones that already contain the marker) and every un-escape handler", "why_tests_cant": "a leak needs an input containing the marker in a particular position; the input space is infinite", "anchors": ["converter/escape.go: escapeContent, unEscapeContent", "marker/marker.go: MarkerEscaping"]}
{"id": "C03", "title": "NUL bytes are neutralised in text", "statement": "In smart escape mode the escaped form of any text contains no NUL byte; each NUL is replaced by U+FFFD and all other bytes are kept in order.", "quantifier": "every byte string", "why_tests_cant": "needs all inputs", "anchors": ["converter/escape.go: escapeContent, unEscapeContent"]}
{"id": "C04", "title": "EscapeModeDisabled is the identity", "statement": "With EscapeModeDisabled escaping and un-escaping return their input unchanged.", "quantifier": "every byte string, every registration", "why_tests_cant": "needs all inputs and all registrations", "anchors": ["converter/escape.go: escapeContent, unEscapeContent", "converter/converter.go: WithEscapeMode"]}
{"id": "C05", "title": "Text never starts an ATX heading", "statement": "With the CommonMark plugin, no line of the escaped-and-unescaped form of a text (no bell) is an ATX heading in the sense of CommonMark (up to three spaces, one to six #, then a space, tab, carriage return or end of line).", "quantifier": "every text, every line of it", "why_tests_cant": "quantifies over all texts and all neighbouring lines", "anchors": ["internal/escape/elem_header.go: IsAtxHeader", "converter/escape.go: escapeContent, unEscapeContent"]}
{"id": "C06", "title": "Text never starts a block quote", "statement": "With the CommonMark plugin, no line of the escaped-and-unescaped form of a text has > as its first non-space character.", "quantifier": "every text, every line of it", "why_tests_cant": "all texts", "anchors": ["internal/escape/elem_quote.go: IsBlockQuote", "converter/escape.go: escapeContent, unEscapeContent"]}
{"id": "C07", "title": "Text never starts a bullet list item", "statement": "No line of the escaped-and-unescaped form of a text starts (after spaces) with -, + or * followed by a space, a tab, a carriage return or the end of the line.", "quantifier": "every text, every line of it", "why_tests_cant": "all texts", "anchors": ["internal/escape/elem_list.go: IsUnorderedList", "converter/escape.go: escapeContent, unEscapeContent"]}
{"id": "C08", "title": "Text never starts an ordered list item", "statement": "No line of the escaped-and-unescaped form of a text starts (after spaces) with one to nine digits followed by . or ) followed by a space, a tab, a carriage return or the end of the line.", "quantifier": "every text, every line of it", "why_tests_cant": "all texts; digit runs of every length", "anchors": ["internal/escape/elem_list.go: IsOrderedList", "converter/escape.go: escapeContent, unEscapeContent"]}
{"id": "C09", "title": "Text never forms a thematic break", "statement": "No line of the escaped-and-unescaped form of a text is a thematic break: three or more matching -, _ or *, with any number of spaces between.", "quantifier": "every text, every line of it", "why_tests_cant": "all texts, unbounded runs", "anchors": ["internal/escape/elem_divider.go: IsDivider", "converter/escape.go: escapeContent, unEscapeContent"]}
{"id": "C10", "title": "Text never forms a setext underline", "statement": "No line of the escaped-and-unescaped form of a text that follows a non-blank line consists only of = characters or only of - characters (with surrounding spaces).", "quantifier": "every text, every pair of consecutive lines", "why_tests_cant": "all texts", "anchors": ["internal/escape/elem_header.go: IsSetextHeader", "converter/escape.go: escapeContent, unEscapeContent"]}
{"id": "C11", "title": "Text never opens a fenced code block", "statement": "No line of the escaped-and-unescaped form of a text starts (after spaces) with three or more backticks or three or more tildes.", "quantifier": "every text, every line of it", "why_tests_cant": "all texts", "anchors": ["internal/escape/elem_code.go: IsFencedCode", "converter/escape.go: escapeContent, unEscapeContent"]}
{"id": "C12", "title": "Text never opens emphasis", "statement": "In the escaped-and-unescaped form of a text, every * or _ that is not backslash-escaped is followed (possibly after more such characters that are also not left-flanking) by Unicode whitespace or the end of the text, so it is never the start of a left-flanking delimiter run.", "quantifier": "every text, every occurrence", "why_tests_cant": "all texts, all Unicode followers", "anchors": ["internal/escape/elem_italic_bold.go: IsItalicOrBold", "converter/escape.go: escapeContent, unEscapeContent"]}
{"id": "C13", "title": "Backslashes in text stay literal", "statement": "Every backslash of the text is itself preceded by an inserted backslash, so that CommonMark's backslash-unescape of the output returns the text.", "quantifier": "every text", "why_tests_cant": "all texts", "anchors": ["internal/escape/elem_backslash.go: IsBackslash", "converter/escape.go: escapeContent, unEscapeContent"]}
{"id": "C14", "title": "Text never opens a code span", "statement": "In the escaped-and-unescaped form of a text every backtick is backslash-escaped, so no code span can start in text.", "quantifier": "every text, every occurrence", "why_tests_cant": "interaction between the fenced-code and inline-code handlers happens only for particular runs over several lines", "anchors": ["internal/escape/elem_code.go: IsFencedCode, IsInlineCode", "converter/escape.go: escapeContent, unEscapeContent"]}
{"id": "C15", "title": "Text never opens an inline link or image", "statement": "In the escaped-and-unescaped form of a text every [ that is later closed by ] is backslash-escaped, so that text is never read as a link or an image.", "quantifier": "every text, every pair of brackets", "why_tests_cant": "closing bracket may be arbitrarily far away", "anchors": ["internal/escape/elem_image.go: IsImageOrLink", "converter/escape.go: escapeContent, unEscapeContent"]}
{"id": "C16", "title": "Text never becomes raw HTML", "statement": "The base plugin's text transformation leaves no < and no > in the text, hence no text node can become an HTML tag, an autolink or a comment in the Markdown, and decoding the entities returns the text.", "quantifier": "every text", "why_tests_cant": "all texts", "anchors": ["plugin/base/base.go: handleTextTransform"]}
{"id": "C17", "title": "Inline code is always closed by its own fence", "statement": "For every content, the backtick fence put around inline code is strictly longer than every run of backticks inside the content, so the content cannot close the span early.", "quantifier": "every byte string", "why_tests_cant": "unbounded runs", "anchors": ["plugin/commonmark/render_code.go: renderInlineCode", "internal/textutils/codefence.go: CalculateCodeFenceOccurrences"]}
{"id": "C18", "title": "Inline code round-trips", "statement": "Reading the produced code span with CommonMark's code span rules returns exactly the whitespace-collapsed content of the <code> element.", "quantifier": "every content without markers", "why_tests_cant": "all contents, in particular backticks or spaces at either edge", "anchors": ["plugin/commonmark/render_code.go: renderInlineCode", "internal/textutils/collapse_code.go: CollapseInlineCodeContent"]}
{"id": "C19", "title": "Fenced code is always closed by its own fence", "statement": "For every content and either fence character, the fence has at least three characters and is strictly longer than every run of that character in the content; parsing the block with CommonMark's fenced code rules returns the content.", "quantifier": "every content, both fence characters", "why_tests_cant": "unbounded runs and line structures", "anchors": ["internal/textutils/codefence.go: CalculateCodeFence", "plugin/commonmark/render_code.go: renderBlockCode"]}
{"id": "C20", "title": "Code block content survives post-processing", "statement": "The content of a code block, with any number of consecutive newlines and trailing spaces, comes out of the post-render steps (trimming consecutive newlines, un-escaping, restoring newlines) byte for byte.", "quantifier": "every content without markers", "why_tests_cant": "the newline trimming is global over the document", "anchors": ["plugin/commonmark/render_code.go: renderBlockCode", "plugin/commonmark/commonmark.go: handlePostRenderCodeBlockNewline", "plugin/base/base.go: postRenderTrimContent"]}
{"id": "C21", "title": "Every line of a block quote is prefixed", "statement": "Every line of the Markdown of a <blockquote> starts with > , so the whole content stays inside the quote.", "quantifier": "every rendered content, including nested code blocks", "why_tests_cant": "depends on every line of arbitrary content", "anchors": ["plugin/commonmark/render_blockquote.go: renderBlockquote", "internal/textutils/prefix_lines.go: PrefixLines"]}
{"id": "C22", "title": "Emphasis delimiters wrap every non-blank line", "statement": "For every content and delimiter each line with visible content is wrapped in exactly one pair of delimiters that touch non-whitespace on their inner side, blank lines get none, and removing the delimiters returns the content.", "quantifier": "every content, every delimiter", "why_tests_cant": "all line structures", "anchors": ["internal/textutils/delimiter.go: DelimiterForEveryLine", "internal/textutils/surrounding_spaces.go: SurroundingSpaces"]}
{"id": "C23", "title": "Leading and trailing space extraction is lossless", "statement": "Splitting content into leading whitespace, trimmed content and trailing whitespace loses nothing: their concatenation is the content, the outer parts are whitespace only and the middle part neither starts nor ends with whitespace.", "quantifier": "every byte string, valid UTF-8 or not", "why_tests_cant": "all Unicode inputs", "anchors": ["internal/textutils/surrounding_spaces.go: SurroundingSpaces"]}
{"id": "C24", "title": "Link titles round-trip", "statement": "Reading the produced title with CommonMark's link title rules returns the title text.", "quantifier": "every title", "why_tests_cant": "all combinations of quotes and backslashes", "anchors": ["internal/textutils/quote.go: SurroundByQuotes", "plugin/commonmark/render_link.go: renderLinkInlined"]}
{"id": "C25", "title": "Link destinations cannot break out of the link", "statement": "The destination written for any href or src contains no space, no <, no > and no square or round brackets, so the parentheses of the link always enclose it, whatever the URL parser returned.", "quantifier": "every attribute value, every behaviour of the URL parser", "why_tests_cant": "all attribute values", "anchors": ["converter/url.go: defaultAssembleAbsoluteURL"]}
{"id": "C26", "title": "Query re-encoding preserves meaning and order", "statement": "Re-encoding the query of a URL keeps number and order of its parameters, decodes to the same keys and values, and encoding twice equals encoding once. A key or value that is a valid percent encoding is written canonically: letters, digits, - . _ and ~ as they are, every other byte as a percent sign and two hexadecimal digits.", "quantifier": "every query string", "why_tests_cant": "all query strings", "anchors": ["converter/url.go: parseAndEncodeQuery"]}
{"id": "C27", "title": "Multi-line links and headings have no blank line", "statement": "The content of a link after line escaping never contains a blank line, so the link is not interrupted by a paragraph break, and every line break is a hard line break.", "quantifier": "every content", "why_tests_cant": "all line structures", "anchors": ["internal/textutils/escape_multiline.go: EscapeMultiLine"]}
{"id": "C28", "title": "Image alt text cannot close the bracket", "statement": "In the alternative text every [ and ] is preceded by a backslash so that the brackets of the image always enclose it.", "quantifier": "every alt text", "why_tests_cant": "all combinations of brackets and backslashes", "anchors": ["plugin/commonmark/render_image.go: escapeAlt"]}
{"id": "C29", "title": "ATX headings are one line with the right level", "statement": "An <hN> rendered in ATX style is a single line with exactly N # characters, one space and the content, and trailing # of the content are escaped so CommonMark does not strip them as closing sequence.", "quantifier": "every rendered content, N = 1..6", "why_tests_cant": "all contents", "anchors": ["plugin/commonmark/render_heading.go: renderAtxHeading, escapePoundSignAtEnd"]}
{"id": "C30", "title": "Heading rendering does not panic", "statement": "Rendering a heading never panics and never drops content, whatever the content is and whichever escape mode is active.", "quantifier": "every content, both escape modes", "why_tests_cant": "a crash needs a particular content", "anchors": ["plugin/commonmark/render_heading.go: escapePoundSignAtEnd"]}
{"id": "C31", "title": "At most one blank line outside code", "statement": "After the newline trimming the text has no three newlines in a row, not even when separated by spaces; every other byte is kept in order.", "quantifier": "every byte string", "why_tests_cant": "all inputs", "anchors": ["internal/textutils/consecutive_newlines.go: TrimConsecutiveNewlines"]}
{"id": "C32", "title": "Hard line breaks before blank lines are dropped", "statement": "Trimming unnecessary hard line breaks removes only spaces in front of newlines; no visible character changes, and afterwards no two-space hard break directly precedes a blank line.", "quantifier": "every byte string", "why_tests_cant": "all inputs", "anchors": ["internal/textutils/consecutive_newlines.go: TrimUnnecessaryHardLineBreaks"]}
{"id": "C33", "title": "Output is trimmed", "statement": "The Markdown returned by a conversion neither starts nor ends with whitespace (unless a code block is at the edge).", "quantifier": "every document", "why_tests_cant": "all inputs", "anchors": ["plugin/base/base.go: postRenderTrimContent"]}
{"id": "C34", "title": "Ordered list numbering", "statement": "Item i of an ordered list with start s gets the number s+i, as long as the numbers fit into a 64 bit int; all markers of one list have the same width for non-negative s, so the items are aligned. A start attribute of digits is read as its decimal value, a missing or unreadable one as 1.", "quantifier": "every start value, every number of items", "why_tests_cant": "unbounded", "anchors": ["plugin/commonmark/render_list.go: renderListItem, getStartAt, getPrefixFunc"]}
{"id": "C35", "title": "List item content is indented under its marker", "statement": "In bullet lists, and in ordered lists with non-negative numbers, the continuation lines of a list item are indented by exactly the width of the marker, so that a reader who takes away that indentation finds exactly the items with their contents.", "quantifier": "every item content, every marker", "why_tests_cant": "all contents", "anchors": ["plugin/commonmark/render_list.go: renderListItem"]}
{"id": "C36", "title": "Adjacent lists stay separate", "statement": "Two lists that directly follow each other are separated by an end comment; nothing else is added or moved, and where no list directly follows another nothing is added at all.", "quantifier": "every tree", "why_tests_cant": "all trees", "anchors": ["internal/domutils/list_end_comment.go: AddListEndComments"]}
{"id": "C37", "title": "List children are list items", "statement": "After normalisation every child of a <ul>/<ol> is an <li> or blank text, and the text of the document that is not blank is unchanged and in document order.", "quantifier": "every tree", "why_tests_cant": "all trees, all depths", "anchors": ["internal/domutils/list_items.go: MoveListItems"]}
{"id": "C38", "title": "Removed tags leave nothing behind", "statement": "The content of head, script, style, link, meta, iframe, noscript, input and textarea never reaches the output; all other nodes survive.", "quantifier": "every tree, any nesting", "why_tests_cant": "all trees", "anchors": ["plugin/base/base.go: preRenderRemove", "converter/ctx.go"]}
{"id": "C39", "title": "No redundant nesting of bold and italic", "statement": "After normalisation no bold element contains a bold element, no italic element an italic one and no link a link; the text is unchanged and every text is bold or italic exactly if it was before.", "quantifier": "every tree", "why_tests_cant": "all trees, all depths", "anchors": ["internal/domutils/redundant.go: RemoveRedundant"]}
{"id": "C40", "title": "Merging adjacent inline elements keeps the text", "statement": "Merging adjacent bold/italic (or code) elements never loses, duplicates or reorders text, leaves no two of them next to each other, and leaves every piece of text in its block.", "quantifier": "every tree", "why_tests_cant": "all trees", "anchors": ["internal/domutils/adjacent.go: MergeAdjacentType"]}
{"id": "C41", "title": "Block content inside headings and links is replaced", "statement": "After normalisation no heading, link, emphasis or code contains block elements that Markdown cannot express; the text is unchanged, apart from quotation marks and spaces around block quotations.", "quantifier": "every tree", "why_tests_cant": "all trees", "anchors": ["internal/domutils/alternatives.go: LeafBlockAlternatives"]}
{"id": "C42", "title": "Adjacent text nodes are merged", "statement": "Merging adjacent text nodes leaves no two adjacent text siblings, keeps the text, and doing it twice equals doing it once.", "quantifier": "every tree", "why_tests_cant": "all trees", "anchors": ["internal/domutils/domutils.go: MergeAdjacentTextNodes"]}
{"id": "C43", "title": "Whitespace collapsing of a string", "statement": "Replacing whitespace yields the string where each maximal run of HTML whitespace is one space; doing it twice equals doing it once.", "quantifier": "every byte string", "why_tests_cant": "all inputs", "anchors": ["collapse/whitespace.go: replaceAnyWhitespaceWithSpace"]}
{"id": "C44", "title": "Whitespace collapsing of a tree loses no visible text", "statement": "Collapsing keeps every element and comment in its place, the content of preformatted elements byte for byte, and every non-whitespace character of the other texts in its place between the elements.", "quantifier": "every tree", "why_tests_cant": "all trees, all depths", "anchors": ["collapse/collapse.go: Collapse"]}
{"id": "C45", "title": "Whitespace collapsing is idempotent", "statement": "Collapsing an already collapsed tree changes nothing but that empty text nodes go.", "quantifier": "every tree", "why_tests_cant": "all trees", "anchors": ["collapse/collapse.go: Collapse"]}
{"id": "C46", "title": "Handlers run in priority order", "statement": "Registered handlers run in ascending priority; with equal priority in order of registration (as long as at most 12 handlers are registered).", "quantifier": "every sequence of registrations", "why_tests_cant": "all histories of registrations", "anchors": ["converter/prioritized.go: prioritizedSlice", "converter/register.go"]}
{"id": "C47", "title": "First successful renderer wins", "statement": "For every node the renderers are asked in priority order and the first one that answers with success ends the search; the output is what it writes (after what earlier renderers wrote before they answered try-next, which is not undone). If none succeeds, the node is rendered through the fallback, which renders its children in order, between blank lines for a block. Output is only ever appended.", "quantifier": "every list of renderers, every tree", "why_tests_cant": "all handler lists", "anchors": ["converter/render.go: handleRenderNode, handleRenderNodes", "converter/convert.go"]}
{"id": "C48", "title": "Text transformers compose in priority order", "statement": "The result of a text node is the composition of all text transformers in priority order.", "quantifier": "every list of transformers", "why_tests_cant": "all lists", "anchors": ["converter/render.go: handleTextTransform"]}
{"id": "C49", "title": "Conversion fails loudly when misconfigured", "statement": "A converter with a failed option or plugin, without renderers, or without the base plugin returns an error and no output; the error sticks for every later conversion.", "quantifier": "every sequence of options, registrations and conversions", "why_tests_cant": "all histories", "anchors": ["converter/convert.go: ConvertNode", "converter/converter.go: NewConverter, setError"]}
{"id": "C50", "title": "Tag type is decided by the highest-priority registration", "statement": "The tag type of a name is that of the registration with the lowest priority number, otherwise the HTML default (block/inline).", "quantifier": "every sequence of registrations, every name", "why_tests_cant": "all histories", "anchors": ["converter/register.go: TagType, getTagType"]}
{"id": "C51", "title": "Concurrent use of one converter", "statement": "Concurrent conversions on one converter give the result of sequential ones: a read of the tag types never changes what other or later reads see.", "quantifier": "every interleaving of two or more conversions", "why_tests_cant": "needs all schedules", "anchors": ["converter/register.go: getTagType (sorts the shared slice under RLock)"]}
{"id": "C52", "title": "Conversions are independent", "statement": "A conversion starts with empty per-conversion state, so converting documents one after the other gives the same results as converting each with a fresh converter.", "quantifier": "every sequence of documents", "why_tests_cant": "all histories", "anchors": ["converter/convert.go: ConvertNode", "converter/ctx.go: GlobalState"]}
{"id": "C53", "title": "Tables are rectangular", "statement": "In every rendered table the header, the separator and all body rows have the same number of cells.", "quantifier": "every table, any col/row spans", "why_tests_cant": "all combinations of spans", "anchors": ["plugin/table/utils.go", "plugin/table/3_render.go"]}
{"id": "C54", "title": "Each table row is one line", "statement": "No cell of a rendered table contains a newline, so that each row is one line.", "quantifier": "every cell content", "why_tests_cant": "all contents", "anchors": ["plugin/table/2_collect.go: collectCellsInRow"]}
{"id": "C55", "title": "Cell content cannot create cells", "statement": "Splitting a rendered row by the GFM rules returns exactly the cells.", "quantifier": "every cell content", "why_tests_cant": "all contents, in particular pipes in code spans and URLs", "anchors": ["plugin/table/3_render.go", "plugin/table/table.go"]}
{"id": "C56", "title": "Columns are aligned", "statement": "In the aligned cell-padding mode all lines of a table have the same number of characters.", "quantifier": "every table", "why_tests_cant": "all contents incl. Unicode", "anchors": ["plugin/table/3_render.go: writeRow, calculateMaxCounts"]}
{"id": "C57", "title": "Row and column spans place content where HTML does", "statement": "The grid produced for a table with spans has each cell's content at its HTML grid position, and the covered positions are empty or mirrored according to the option.", "quantifier": "every table, every span", "why_tests_cant": "all combinations of spans", "anchors": ["plugin/table/utils.go: applyModifications", "plugin/table/2_collect.go"]}
{"id": "C58", "title": "Configuration validation", "statement": "Delimiters, markers and styles accepted by the CommonMark plugin produce valid Markdown; unset fields get the documented default; documented values are accepted.", "quantifier": "every configuration", "why_tests_cant": "all strings", "anchors": ["plugin/commonmark/validation.go", "plugin/commonmark/options.go"]}
{"id": "C59", "title": "CLI never overwrites without the flag", "statement": "Without the overwrite flag an existing output file is never changed.", "quantifier": "every file system state, every list of inputs", "why_tests_cant": "all states", "anchors": ["cli/html2markdown/cmd/io_output.go: WriteFile"]}
{"id": "C60", "title": "CLI output paths are distinct", "statement": "For several inputs each output goes to its own path, so that no result overwrites another.", "quantifier": "every list of inputs", "why_tests_cant": "all lists of file names", "anchors": ["cli/html2markdown/cmd/io_output.go: calculateOutputPaths"]}
{"id": "C61", "title": "CLI output type is decided consistently", "statement": "The output destination (stdout, file, directory) is decided only by the output flag, the number of inputs and the file system, with an error when several inputs would go into one file.", "quantifier": "every combination", "why_tests_cant": "all strings", "anchors": ["cli/html2markdown/cmd/io_output.go: determineOutputType"]}
{"id": "C62", "title": "CLI flags are validated", "statement": "Table options without the table plugin, a flag given twice or an unknown value are errors and nothing is written.", "quantifier": "every argument list", "why_tests_cant": "all argument lists", "anchors": ["cli/html2markdown/cmd/flags.go", "cli/html2markdown/cmd/exec.go"]}
{"id": "C63", "title": "Selectors keep exactly what was asked for", "statement": "With an exclude selector no matching node reaches the converter; with an include selector exactly the matching nodes do, with their text in order.", "quantifier": "every tree, every matching predicate", "why_tests_cant": "all trees", "anchors": ["cli/html2markdown/cmd/cmd_convert.go"]}
{"id": "C64", "title": "No visible text is lost", "statement": "Converting with the base and CommonMark plugins, all non-whitespace text of the document outside of removed tags appears in the output in document order.", "quantifier": "every tree", "why_tests_cant": "all documents", "anchors": ["converter/convert.go: ConvertNode", "plugin/base", "plugin/commonmark", "collapse/collapse.go"]}
{"id": "C65", "title": "No internal markers in the output", "statement": "The Markdown of a conversion contains neither the bell byte nor U+F002, whatever the document contains.", "quantifier": "every tree", "why_tests_cant": "all documents", "anchors": ["converter/convert.go: ConvertNode", "plugin/commonmark/commonmark.go", "marker/marker.go"]}
{"id": "C66", "title": "CLI output survives interruption", "statement": "Wherever a run of the command line tool is interrupted or fails, every file holds either what it held before the run or the complete result, and no file other than the requested outputs is touched.", "quantifier": "every file system, every list of inputs, every point at which the process stops, every failing write", "why_tests_cant": "all crash points", "anchors": ["cli/html2markdown/cmd/io_output.go: WriteFile, writeOutput", "cli/html2markdown/cmd/exec.go: run"]}
{"id": "C67", "title": "Column alignment", "statement": "The delimiter row of a written table marks column i as left, right or centre exactly as the align attribute of cell i of the row the alignments are taken from says, and any other value gives a column without alignment.", "quantifier": "every table, every list of alignment values, every padding option", "why_tests_cant": "all tables", "anchors": ["plugin/table/3_render.go: writeHeaderUnderline, getAlignmentFor"]}
{"id": "C68", "title": "Skipping empty rows and promoting the first row lose no content", "statement": "With the option to skip empty rows the table has exactly the rows it has without the option, minus the rows all of whose cells are empty; the header stays unless there is no content at all. With header promotion a table without header row gets its first row as header, and a table with a header that has content is unchanged.", "quantifier": "every table, every option set", "why_tests_cant": "all tables", "anchors": ["plugin/table/utils.go: removeEmptyRows, removeFirstRowIfEmpty, isEmptyRow", "plugin/table/2_collect.go: collectRows"]}
{"id": "C69", "title": "Links and images are read back as they were written", "statement": "The Markdown of a link is read by CommonMark as a link with the address, the title (line feeds as spaces) and the text of the element, between the white space that surrounded its content, whatever text stands before and after it; brackets in the text neither end nor extend the link. The Markdown of an image is read as an image with the address, the title and the alternative text. A link is left out exactly if an option says so, an image exactly if its address is blank.", "quantifier": "every text before, in and after the link, every address and title, every option", "why_tests_cant": "all combinations of brackets, backslashes and white space in the text and its surroundings", "anchors": ["plugin/commonmark/render_link.go: renderLink, renderLinkInlined", "plugin/commonmark/render_image.go: renderImage, escapeAlt", "plugin/commonmark/commonmark.go: handleTextTransform", "internal/escape/elem_image.go: IsImageOrLink"]}
{"id": "C70", "title": "The normalisation of the tree keeps the visible text", "statement": "All normalisation steps of the CommonMark plugin together (removing redundant and merging adjacent emphasis and code, swapping tags, moving list items, replacing blocks where Markdown has none, adding spaces) keep every visible character of the text, in document order, apart from quotation marks.", "quantifier": "every tree", "why_tests_cant": "all trees and all combinations of the steps", "anchors": ["plugin/commonmark/commonmark.go: handlePreRender", "internal/domutils"]}
{"id": "C71", "title": "Relative addresses are resolved against the domain", "statement": "With a domain option the address of a link or image is resolved against the domain (with http:// if it has no scheme of its own); absolute addresses, data addresses and the bare # do not depend on the domain, and without a usable domain the address is only encoded.", "quantifier": "every address, every domain, every URL library", "why_tests_cant": "all addresses", "anchors": ["converter/url.go: defaultAssembleAbsoluteURL, parseBaseDomain"]}
{"id": "C72", "title": "The caption follows the table", "statement": "A table with a caption is rendered as the table without it, followed by the trimmed caption as a paragraph of its own; a blank caption adds nothing.", "quantifier": "every table, every caption", "why_tests_cant": "all tables", "anchors": ["plugin/table/2_collect.go: collectCaption", "plugin/table/3_render.go: renderTable"]}
{"id": "C73", "title": "Whitespace is collapsed as a browser does", "statement": "After collapsing, the text of each line (a line ends at blocks and line breaks) has single spaces only, whichever inline elements it is spread over, and neither begins nor ends with a space, unless an image, inline code or the like is there; everything else of the line is kept.", "quantifier": "every tree, every choice of block, void and preformatted elements", "why_tests_cant": "all trees and all positions of whitespace", "anchors": ["collapse/collapse.go: Collapse", "collapse/whitespace.go: replaceAnyWhitespaceWithSpace"]}
{"id": "C74", "title": "Spans around blocks are treated as blocks", "statement": "A span that contains a block element, at any depth, is treated as a div; no other node is changed and none is moved.", "quantifier": "every tree, every table of block names", "why_tests_cant": "all trees", "anchors": ["internal/domutils/span.go: RenameFakeSpans"]}
{"id": "C75", "title": "Emphasis around code is set apart by spaces", "statement": "A text in front of a bold or italic element that begins with inline code ends with a space, a text behind one that ends with inline code begins with a space, and no other text and no other node is changed.", "quantifier": "every tree", "why_tests_cant": "all trees, any nesting of spans", "anchors": ["internal/domutils/add_space.go: AddSpace"]}
{"id": "C76", "title": "A Markdown table has the rows of the HTML table", "statement": "If a table is rendered as a Markdown table, its rows are exactly the rows of the HTML table, each used once: the header row (the first row of the thead, else the row of the first th) comes first, the others follow in document order, and the cells of each row are the th and td elements inside of it in document order.", "quantifier": "every tree with a table, any nesting of table sections, rows and cells", "why_tests_cant": "all table structures", "anchors": ["plugin/table/1_select.go: selectHeaderRowNode, selectNormalRowNodes", "plugin/table/2_collect.go: collectCellsInRow"]}
{"id": "C77", "title": "Tables that Markdown cannot express are rendered as normal content", "statement": "A table that contains a heading, list, quote, rule or another table, that is inside of a link or emphasis, or that is marked as presentation (unless the option allows it) is rendered as if there were no table plugin, except that each row is a paragraph; nothing of it is lost.", "quantifier": "every table, every surrounding, every configuration", "why_tests_cant": "all combinations of contents and ancestors", "anchors": ["plugin/table/2_collect.go: hasProblematicChildNode, hasProblematicParentNode, collectTableContent", "plugin/table/table.go: handleRender, renderFallbackRow"]}
{"id": "C78", "title": "Deletions are normalised and keep their text", "statement": "With the strikethrough plugin every text stays, in document order, and is deleted (inside of del, s or strike) exactly if it was in the source; afterwards no deletion is inside of another one and no two deletions stand next to each other.", "quantifier": "every tree", "why_tests_cant": "all trees, any nesting and neighbourhood of deletions", "anchors": ["plugin/strikethrough/strikethrough.go: handlePreRender", "internal/domutils/redundant.go: RemoveRedundant", "internal/domutils/adjacent.go: MergeAdjacent"]}
{"id": "C79", "title": "Text never opens strikethrough", "statement": "With the strikethrough plugin no run of tildes that comes from the text of the page can open a deletion: an unescaped tilde is at the end of the text or in front of white space.", "quantifier": "every text", "why_tests_cant": "all byte strings", "anchors": ["plugin/strikethrough/strikethrough.go: handleUnEscapers", "converter/escape.go: unEscapeContent"]}
{"id": "C80", "title": "Each inline element gets its own delimiter", "statement": "Bold elements (b, strong) are wrapped by the configured bold delimiter, italic ones (i, em) by the configured italic delimiter, deleted ones (del, s, strike) by the delimiter of the strikethrough plugin: each non-blank line of their content exactly once, directly around its visible part, and blank lines not at all.", "quantifier": "every element, every content, every configured delimiter", "why_tests_cant": "all contents and configurations", "anchors": ["plugin/commonmark/render_bold_italic.go: getDelimiter, renderBoldItalic", "plugin/strikethrough/strikethrough.go: renderStrikethrough", "internal/textutils/delimiter.go: DelimiterForEveryLine"]}
{"id": "C81", "title": "Escaping is local to a block", "statement": "What the text of a block is escaped to does not depend on the rest of the document: escaping and un-escaping texts that are separated by blank lines gives the same Markdown as doing so with each text alone.", "quantifier": "every list of texts, the escape handlers of the CommonMark plugin with or without those of the strikethrough plugin", "why_tests_cant": "the un-escaping scans the whole document and its handlers look backwards and forwards from every special character without a fixed bound; tests sample neighbours", "anchors": ["converter/escape.go: unEscapeContent, checkElements", "internal/escape/elem_*.go: the Is... handlers"]}
{"id": "C82", "title": "A page is read back as it was", "statement": "The Markdown of a page of bare texts, paragraphs and headings (all with bold and italic text, code, links and images in them and, where HTML has it, in each other), horizontal rules, code blocks, grouping elements, (nested) lists and (nested) quotes is read by a CommonMark parser as the same paragraphs, headings, rules, code blocks, lists and quotes, in the same order, with the same visible texts, heading levels, languages, lines of code, list numbers and nesting, and with the same emphasis, code, links (destination, title, text) and images (source, title, alternative text) in the same places; nothing of a text is taken as markup, and no block swallows or joins another.", "quantifier": "every page of these elements, of any size and nesting depth; every documented configuration of the CommonMark plugin with the default escape mode", "why_tests_cant": "blocks of any kind, text and nesting follow each other; golden files only show a few combinations", "anchors": ["convert.go: ConvertString, ConvertNode", "converter/convert.go: ConvertNode", "plugin/base/base.go", "plugin/commonmark/commonmark.go", "plugin/commonmark/render_list.go", "plugin/commonmark/render_blockquote.go", "plugin/commonmark/render_heading.go", "plugin/commonmark/render_code.go", "internal/domutils/add_list_comments.go", "collapse/collapse.go", "plugin/commonmark/render_bold_italic.go", "plugin/commonmark/render_link.go", "plugin/commonmark/render_image.go"]}
{"id": "C83", "title": "The stock plugins work together as documented, in any usual order", "statement": "A converter built from the base, the CommonMark and optionally the strikethrough and the table plugin converts every document in the documented way: the pre-render steps, renderers, text transformers and post-render steps of the plugins run by priority, and the result does not depend on where the base and the table plugin are in the list of plugins, on the other conversions done with the same converter, or on how often it is used. The top-level functions do the same as a converter with the base and the CommonMark plugin.", "quantifier": "every document, every list of the stock plugins that contains base and CommonMark once and CommonMark before strikethrough, all accepted options, every history of conversions", "why_tests_cant": "handlers of all plugins meet at every node of every tree; an example runs one tree and one order of the plugins", "anchors": ["converter/convert.go: ConvertNode", "converter/render.go: handleRenderNode", "plugin/base/base.go: Init", "plugin/commonmark/commonmark.go: Init", "plugin/strikethrough/strikethrough.go: Init", "plugin/table/table.go: Init", "convert.go: ConvertNode"]}
{"id": "C84", "title": "Options of the table plugin are validated and the last one counts", "statement": "If every option of the table plugin has a documented value (or the empty string), the last option for a setting decides it and settings without option have their documented default; otherwise every conversion with a converter that has this plugin returns an error. The same holds for settings that the CommonMark plugin does not accept.", "quantifier": "every list of options, every list of stock plugins, every document", "why_tests_cant": "all strings and all sequences of options", "anchors": ["plugin/table/table.go: WithSpanCellBehavior, WithNewlineBehavior, WithCellPaddingBehavior, NewTablePlugin, Init", "plugin/commonmark/commonmark.go: Init"]}
{"id": "C85", "title": "The command line tool converts with the options of its flags", "statement": "With accepted values of the flags, the tool converts exactly the selected parts of its input: with the base and the CommonMark plugin, the given delimiter for bold text and otherwise default options, with the strikethrough and the table plugin if and only if they are switched on, with the table settings of the flags, and relative addresses resolved against the given domain. It prints this Markdown and a newline. With the delimiters ** and __ (and any other accepted delimiter of ASCII characters other than #) every page is converted, whatever the selectors are. With a value that is not accepted every conversion is an error: that of the table plugin if one of its options is unknown, otherwise that about the delimiter.", "quantifier": "every combination of values of the flags, every selector, every page", "why_tests_cant": "all strings as values of flags, all documents and all selectors", "anchors": ["cli/html2markdown/cmd/cmd_convert.go: convert, parseInputWithSelectors", "cli/html2markdown/cmd/exec.go: run", "plugin/table/table.go: NewTablePlugin", "plugin/commonmark/validation.go: validateConfig"]}
{"id": "C86", "title": "Exit code, output and messages of the command line tool", "statement": "The exit code is 0 or 1. With 0 nothing is written to stderr, with 1 an error is written to stderr and nothing to stdout. The help flag prints the usage and the version flag the release, both with exit code 0 and without reading or writing files; help does so wherever it stands after valid flags. For an unknown flag a known flag is suggested if and only if one is at most four edits (and fewer than the name has characters) away, and it is one of the nearest.", "quantifier": "every command line, every state of the file system and of stdin, every name of a flag, every distance function", "why_tests_cant": "all command lines, and all points at which a run can fail", "anchors": ["cli/html2markdown/cmd/exec.go: Execute, run", "cli/html2markdown/cmd/flags_categorize.go: getAlternativeFlag, categorizeFlagError", "cli/html2markdown/cmd/errors.go: PrintDetails", "cli/html2markdown/cmd/cmd_version.go: printVersion", "cli/html2markdown/cmd/cmd_help.go: printUsage"]}
{"id": "C87", "title": "Renderers for some tags leave other documents as they are", "statement": "After registering any number of renderers and tag types for certain tags (with RendererFor, TagType, Renderer or in a plugin, with any handlers and priorities) on a converter with the stock plugins, every document without these tags is converted to exactly the same Markdown as before, in every history of conversions. The tags must not be ones that the normalisation itself produces (such as strong for a heading inside of a heading).", "quantifier": "every set of tags, every handler, priority and number of registrations, every document without these tags, every history", "why_tests_cant": "the handlers are arbitrary code, and all documents", "anchors": ["converter/register.go: RendererFor, TagType, Renderer, Plugin", "converter/render.go: handleRenderNode", "converter/prioritized.go: Sort", "plugin/base/base.go: preRenderRemove, preRenderCollapse", "plugin/base/renderers.go: RenderAsHTML"]}
{"id": "C88", "title": "The underline of a heading is as wide as its text", "statement": "With the setext heading style a heading of level 1 or 2 that is not blank is its text and, on a line of its own, an underline of = (level 1) or - (level 2). The underline is as long as the longest line of the text has characters (code points, not bytes), but at least three; the internal escape markers do not count, so for a text on one line the width is that of the text whichever of its characters are escaped.", "quantifier": "every content of a heading, every text", "why_tests_cant": "all texts, in any mix of scripts, invalid UTF-8 and escaped characters", "anchors": ["plugin/commonmark/render_heading.go: renderHeading, getUnderlineWidth, runeCount, setextUnderline", "converter/escape.go: escapeContent"]}
{"id": "C89", "title": "Every page is converted, and completely", "statement": "With the functions of the package every HTML page is converted to Markdown without error and without panic; the Markdown is valid UTF-8, contains neither of the characters that the library uses internally, and shows every visible character of the page in its order (only <, > and NUL may be spelled differently). The same holds for what the command line tool prints for a page from stdin or from a file, with any accepted flags and selectors, and it changes no file; with the table plugin this is for pages whose tables are read from top to bottom (the header row comes first, the caption last).", "quantifier": "every page (any tree of elements and texts in UTF-8 as a parser returns it), every context without the internal link flag, every library for addresses, every combination of accepted flags and selectors", "why_tests_cant": "all documents, nestings and texts, and all combinations of flags", "anchors": ["convert.go: ConvertNode, ConvertString, ConvertReader", "converter/convert.go: ConvertNode", "cli/html2markdown/cmd/exec.go: run", "cli/html2markdown/cmd/cmd_convert.go: convert"]}
{"id": "C90", "title": "The functions that convert agree, and the last option counts", "statement": "ConvertString, ConvertReader and ConvertNode (of a converter and of the package) return the same Markdown for the same page and options; an error of the reader or the parser is returned as it is, also by a misconfigured converter; with an error there is no output. Of several WithDomain and WithContext options the last of each kind counts, in any order, and a domain in the given context is not used.", "quantifier": "every converter, every input and parser, every list of options", "why_tests_cant": "options come in any number and order, and readers fail anywhere", "anchors": ["convert.go: ConvertString, ConvertReader, ConvertNode", "converter/convert.go: ConvertString, ConvertReader, ConvertNode, WithDomain, WithContext"]}
{"id": "C91", "title": "Elements kept as HTML or as their content", "statement": "With base.RenderAsHTML an element is written as its HTML, with base.RenderAsHTMLWrapper as a start tag, its content as Markdown and an end tag, with base.RenderAsPlaintextWrapper as its content; blocks are apart from what is around them by blank lines, inline elements are not. Nothing else is written, and what is kept as HTML is in the Markdown byte by byte.", "quantifier": "every converter, element, context and position, every tag type of the registration", "why_tests_cant": "any plugin may be registered besides, and elements of any kind contain each other", "anchors": ["plugin/base/renderers.go", "converter/register.go: RendererFor"]}
{"id": "C92", "title": "Values attached to the context reach the renderers below", "statement": "A value that a renderer attaches to the context with WithValue when it renders some nodes is seen by all renderers and text transformers for these nodes and the nodes in them, also through links, lists, tables and other elements of the stock plugins, and the domain is the same everywhere.", "quantifier": "every key except the one the library uses for links, every value, document and nesting, all options and orders of the stock plugins, any further handlers that pass the value on", "why_tests_cant": "the nesting is unbounded, and each renderer on the way may lose the value", "anchors": ["converter/ctx.go: WithValue, RenderNodes, RenderChildNodes", "plugin/commonmark", "plugin/strikethrough", "plugin/table"]}
{"id": "C93", "title": "Coloured code is converted as plain code", "statement": "The code of a pre, code, kbd, samp, tt or var element is all text in it, in order, whatever elements are around the texts; a br and the start of a div are line breaks, and the contents of script, style and textarea are left out. The language of a code block is the first that the class of its pre or code elements names. A CommonMark parser reads this code and language back.", "quantifier": "every element with any elements nested in it, at any place of a document", "why_tests_cant": "highlighters nest elements in any way", "anchors": ["plugin/commonmark/render_code.go: getCodeWithoutTags, renderBlockCode, renderInlineCode"]}
{"id": "C94", "title": "No run of blank lines", "statement": "The Markdown of a document without code blocks never has two blank lines in a row; a line of only spaces counts as blank.", "quantifier": "every document without pre elements, with any nesting of the elements that the stock plugins treat, all options", "why_tests_cant": "each renderer adds newlines around and inside of what it renders, so the number of newlines depends on the nesting and on the neighbours, which are unbounded", "anchors": ["plugin/base/base.go: postRenderTrimContent", "internal/textutils/consecutive_newlines.go: TrimConsecutiveNewlines", "plugin/commonmark/commonmark.go: post render of code blocks"]}
{"id": "C95", "title": "The newline option of tables", "statement": "If the content of a cell has a newline, then with the option skip the table is not written as a Markdown table, and with the option preserve it is, with <br /> in place of each newline of each cell. If there are no newlines, both options write the same table.", "quantifier": "every table without spans, every cell content, every other option", "why_tests_cant": "all tables and contents", "anchors": ["plugin/table/2_collect.go: collectTableContent", "plugin/table/table.go: WithNewlineBehavior"]}
{"id": "C96", "title": "CLI output files are named after their inputs", "statement": "In an output directory the result of an input goes to the file that has the name of the input with the extension .md instead of its own; if an input before it has the same name without extension, the hash of its path relative to the pattern is put in between.", "quantifier": "every list of inputs, every path", "why_tests_cant": "all lists of file names", "anchors": ["cli/html2markdown/cmd/io_output.go: calculateOutputPaths", "cli/html2markdown/cmd/io_input.go: fileNameWithoutExtension"]}
{"id": "C97", "title": "The Markdown is not much longer than the page", "statement": "For given options there is a constant such that the Markdown of every page is at most this constant times a power of the size of the page: the square without the table plugin, the eighth power with it. The size is the number of nodes and the bytes of their texts, names and attributes, where the number of a rowspan or colspan counts as such; without counting it there is no such bound, a cell with colspan N becomes N columns.", "quantifier": "every page, all options whose delimiters have no newlines and no private characters, any resolution of addresses that adds at most a constant factor", "why_tests_cant": "all pages, nested as deep as you like; growth can only be seen for all sizes", "anchors": ["converter/convert.go: ConvertNode", "converter/render.go: handleRenderNodes", "plugin/commonmark/render_list.go: renderListContainer", "plugin/table/utils.go: getNumberAttributeOr"]}
{"id": "C98", "title": "Documents that mean the same have the same Markdown", "statement": "If two documents have the same texts and comments at the same places, and the elements around them have names that mean the same (b and strong; i and em; del, s and strike; kbd, samp, tt and var; or two names that the converter does not know, both of blocks or both not) and the same values of the attributes that are used (href and title of links, src, alt and title of images, start of ordered lists, class of code, align, rowspan and colspan of cells, role of tables), then their Markdown is the same: other attributes, the order of attributes and the choice between synonyms make no difference.", "quantifier": "every two documents, all options and plugins", "why_tests_cant": "all pairs of documents; a step that looks at one name of a pair only shows up in some combination of elements", "anchors": ["plugin/commonmark/handle_pre_render.go: handlePreRender", "plugin/commonmark/handle_render.go: handleRender", "plugin/strikethrough/strikethrough.go: nameIsStrikethough", "internal/domutils/alternatives.go: LeafBlockAlternatives", "collapse/collapse.go: Collapse"]}
{"id": "C99", "title": "Hidden nodes make no difference", "statement": "Comments, scripts, styles, head, link, meta, iframe, noscript, input and textarea elements can be put anywhere in a document or removed from it, a text can be split into several adjacent text nodes, and a doctype can stand at the beginning or not, without any change of the Markdown, not even of its white space.", "quantifier": "every document, every place in it, any number of such changes", "why_tests_cant": "all documents and all places", "anchors": ["plugin/base/base.go: preRenderRemove", "internal/domutils/adjacent.go: MergeAdjacentTextNodes"]}
{"id": "C100", "title": "A rule separates a document", "statement": "An hr element in a document (in body, or at any depth in elements that have no meaning of their own in Markdown, as main, section, div, form or my-element, whatever else is in them) separates it: the Markdown of the whole document is the Markdown of the document up to and with the rule, followed by what is behind the rule in the Markdown of the document from the rule on. Escaping, white space, numbers of lists and everything else on one side of the rule do not depend on what is on the other side, so documents can be converted and joined in pieces.", "quantifier": "every document, every rule in such a place, every content before and behind it; smart and disabled escaping; every rule option made of asterisks, hyphens, underscores and inner spaces", "why_tests_cant": "all pairs of contents", "anchors": ["converter/convert.go: ConvertNode", "plugin/commonmark/render_divider.go: renderDivider", "converter/escape.go: unEscapeContent", "internal/textutils", "collapse/collapse.go: Collapse"]}
{"id": "C101", "title": "A heading or a paragraph separates a document", "statement": "A heading or paragraph with a text (in body, or at any depth in elements that have no meaning of their own in Markdown, as main, section, div, form or my-element, whatever else is in them; the text does not end with a no-break space or another white space character that HTML does not collapse) separates the document: the Markdown of the whole document is the Markdown of the document up to and with the title, followed by exactly what comes behind the title when the document from the title on is converted. If the title consists of plain words, its line (## Title) ends the first part and begins the second. A title without text, or with a no-break space at its end, does not separate.", "quantifier": "every document, every heading or paragraph with such a text in such a place, every content before and behind it; smart and disabled escaping, both heading styles", "why_tests_cant": "all pairs of contents", "anchors": ["converter/convert.go: ConvertNode", "plugin/commonmark/render_heading.go: renderHeading", "converter/escape.go: unEscapeContent", "internal/textutils/consecutive_newlines.go: TrimConsecutiveNewlines", "collapse/collapse.go: Collapse", "plugin/commonmark/handle_pre_render.go: handlePreRender"]}
{"id": "C102", "title": "A block that begins and ends with text separates a document", "statement": "A heading, a quote (blockquote) or any block whose content alone counts (p, div, section, article, dd, figcaption ...) with any content (bold and italic texts, links, images, code, lists, tables, further blocks ...) whose first and last nodes are visible texts separates the document, at any depth in elements that have no meaning of their own in Markdown: the Markdown of the whole document is the Markdown of the document up to and with the block, followed by exactly what comes behind the block when the document from the block on is converted. A block that does not end with text need not separate: two bold texts at the end of a paragraph take in a bold text that follows behind the paragraph.", "quantifier": "every document, every such block with every content between its first and its last text, every content before and behind it; smart and disabled escaping, both heading styles", "why_tests_cant": "all triples of contents", "anchors": ["converter/convert.go: ConvertNode", "plugin/commonmark/render_heading.go: renderHeading", "plugin/commonmark/render_blockquote.go: renderBlockquote", "converter/render.go: handleRenderFallback", "internal/domutils/adjacent.go: MergeAdjacentTextNodes, MergeAdjacent", "collapse/collapse.go: Collapse", "converter/escape.go: unEscapeContent"]}
{"id": "C103", "title": "Documents can be converted in parts and joined", "statement": "If parts of a document each begin and end with a block with text (a heading, blockquote, p, div, section ... whose content begins and ends with a text; white space characters that HTML does not collapse, as the no-break space, do not count as text), a code block (pre with texts, line breaks and spans, or with a code element with these) or a rule, with any content between (lists, code, tables, images ...), then the parts can be converted separately: the Markdown of the whole document is the Markdown of the parts, joined with one blank line. The conversion of the whole fails if and only if that of a part fails. The parts may be whole pages with different heads and doctypes. Without such blocks it does not hold: between two lists a comment is inserted, and a no-break space at the beginning is removed only if the document begins with it.", "quantifier": "every number of parts, every content of them, every containers without a meaning of their own in Markdown around them; smart and disabled escaping, both heading styles", "why_tests_cant": "all lists of contents", "anchors": ["converter/convert.go: ConvertNode", "plugin/commonmark/render_heading.go: renderHeading", "plugin/commonmark/render_code.go: renderBlockCode", "plugin/commonmark/render_divider.go: renderDivider", "converter/render.go: handleRenderFallback", "internal/domutils/adjacent.go: MergeAdjacentTextNodes, MergeAdjacent", "internal/textutils/consecutive_newlines.go: TrimConsecutiveNewlines", "collapse/collapse.go: Collapse", "converter/escape.go: unEscapeContent"]}
{"id": "C104", "title": "A code block separates a document", "statement": "A code block (pre, or pre with one code element in it, with any attributes, whose code has a text that is not empty and is written with texts, line breaks and span elements nested in any way) separates the document, at any depth in elements that have no meaning of their own in Markdown: the Markdown of the whole document is the Markdown of the document up to and with the code block, followed by exactly what comes behind it when the document from the code block on is converted. Nothing in the code (blank lines, Markdown characters, fences) changes what is around it, nothing around it changes the code. The conversion fails if and only if that of one of the two parts fails.", "quantifier": "every document, every code, every content before and behind it; smart and disabled escaping, both fences", "why_tests_cant": "all triples of contents", "anchors": ["converter/convert.go: ConvertNode", "plugin/commonmark/render_code.go: renderBlockCode, getCodeWithoutTags", "plugin/commonmark/commonmark.go: handlePostRenderCodeBlockNewline", "internal/domutils/empty_code.go: RemoveEmptyCode", "internal/domutils/swap.go: SwapTags", "collapse/collapse.go: Collapse", "converter/escape.go: unEscapeContent"]}
{"id": "C105", "title": "An edit of a part of a document changes only its Markdown", "statement": "If a document consists of parts as in C103, then whatever one part is replaced with, the Markdown before it and the Markdown behind it stay the same byte for byte, and between them is the Markdown of the part converted alone. A part that is removed takes exactly its own Markdown and a blank line with it. Parts in any other order can be converted if they can be in the first order, and give the same pieces of Markdown in the new order. For parts that begin or end with lists this does not hold: a list put between two lists brings comments with it.", "quantifier": "every part, every replacement, every content before and behind, every permutation of every number of parts; smart and disabled escaping, both heading styles", "why_tests_cant": "all pairs of an old and a new content in all surroundings, all permutations", "anchors": ["converter/convert.go: ConvertNode", "internal/domutils/list_end_comment.go: AddListEndComments", "converter/escape.go: unEscapeContent", "internal/textutils/consecutive_newlines.go: TrimConsecutiveNewlines"]}
