{
 "claims": [
  {
   "property": "C01",
   "status": "proved",
   "theorems": [
    "Verif.Props.c01_only_inserts"
   ],
   "note": ""
  },
  {
   "property": "C02",
   "status": "proved",
   "theorems": [
    "Verif.Props.c02_no_marker"
   ],
   "note": ""
  },
  {
   "property": "C03",
   "status": "proved",
   "theorems": [
    "Verif.Props.c03_no_nul",
    "Verif.Props.c03_rest_kept"
   ],
   "note": ""
  },
  {
   "property": "C04",
   "status": "proved",
   "theorems": [
    "Verif.Props.c04_disabled"
   ],
   "note": ""
  },
  {
   "property": "C05",
   "status": "proved",
   "theorems": [
    "Verif.Props.c05_no_atx_heading"
   ],
   "note": ""
  },
  {
   "property": "C06",
   "status": "proved",
   "theorems": [
    "Verif.Props.c06_no_block_quote"
   ],
   "note": ""
  },
  {
   "property": "C07",
   "status": "proved",
   "theorems": [
    "Verif.Props.c07_no_bullet_item"
   ],
   "note": ""
  },
  {
   "property": "C08",
   "status": "proved",
   "theorems": [
    "Verif.Props.c08_no_ordered_item"
   ],
   "note": ""
  },
  {
   "property": "C09",
   "status": "partial",
   "theorems": [
    "Verif.Props.c09_no_thematic_break_partial",
    "Verif.Props.c09_fails_with_tab"
   ],
   "note": "text without tabs; with a tab the property is false of the code (witness proved)"
  },
  {
   "property": "C10",
   "status": "proved",
   "theorems": [
    "Verif.Props.c10_no_setext_underline"
   ],
   "note": ""
  },
  {
   "property": "C11",
   "status": "proved",
   "theorems": [
    "Verif.Props.c11_no_fence"
   ],
   "note": ""
  },
  {
   "property": "C12",
   "status": "partial",
   "theorems": [
    "Verif.Props.c12_followed_by_space",
    "Verif.Props.c12_no_emphasis_partial",
    "Verif.Props.c12_fails"
   ],
   "note": "exact for Go white space; false for U+000B/0085/2028/2029 (witness proved)"
  },
  {
   "property": "C13",
   "status": "proved",
   "theorems": [
    "Verif.Props.c13_reads_back",
    "Verif.Props.c13_backslash_escaped"
   ],
   "note": ""
  },
  {
   "property": "C14",
   "status": "partial",
   "theorems": [
    "Verif.Props.c14_no_code_span_partial",
    "Verif.Props.c14_fails"
   ],
   "note": "false for texts with fence-like lines (witness proved)"
  },
  {
   "property": "C15",
   "status": "partial",
   "theorems": [
    "Verif.Props.c15_no_link_partial",
    "Verif.Props.c15_fails"
   ],
   "note": "same line only; false across lines (witness proved)"
  },
  {
   "property": "C16",
   "status": "partial",
   "theorems": [
    "Verif.Props.c16_no_angle",
    "Verif.Props.c16_decode_partial",
    "Verif.Props.c16_counterexample"
   ],
   "note": "no < or > is left for any text; decoding returns the text only when it contains no &lt; or &gt; (ampersands are not escaped; witness proved)"
  },
  {
   "property": "C17",
   "status": "proved",
   "theorems": [
    "Verif.Props.c17_fence",
    "Verif.Props.c17_fence_blank"
   ],
   "note": ""
  },
  {
   "property": "C18",
   "status": "partial",
   "theorems": [
    "Verif.Props.c18_code_span_partial",
    "Verif.Props.c18_counterexample"
   ],
   "note": "content with a backtick on exactly one side is padded on one side only, and reads back with an extra space (witness proved)"
  },
  {
   "property": "C19",
   "status": "partial",
   "theorems": [
    "Verif.Props.c19_fence",
    "Verif.Props.c20_survives_partial",
    "Verif.Props.c19_language_no_space",
    "Verif.Props.c19_language_of_class",
    "Verif.Props.c19_counterexample_backtick",
    "Verif.Props.c19_counterexample_newline"
   ],
   "note": "the fence is always longer; reading back needs an info string without backtick/newline (witnesses proved)"
  },
  {
   "property": "C20",
   "status": "partial",
   "theorems": [
    "Verif.Props.c20_survives_partial",
    "Verif.Props.c20_counterexample_marker",
    "Verif.Props.c20_counterexample_bell"
   ],
   "note": "content without the internal markers U+F002 and BEL (witnesses proved)"
  },
  {
   "property": "C21",
   "status": "partial",
   "theorems": [
    "Verif.Props.c21_lines_prefixed_partial",
    "Verif.Props.c21_blank",
    "Verif.Props.c21_counterexample"
   ],
   "note": "false for a code block inside of a quote, whose newlines are restored later (witness proved)"
  },
  {
   "property": "C22",
   "status": "proved",
   "theorems": [
    "Verif.Props.c22_delimiters"
   ],
   "note": ""
  },
  {
   "property": "C23",
   "status": "proved",
   "theorems": [
    "Verif.Props.c23_surrounding_spaces"
   ],
   "note": ""
  },
  {
   "property": "C24",
   "status": "partial",
   "theorems": [
    "Verif.Props.c24_title_partial",
    "Verif.Props.c24_counterexample_end",
    "Verif.Props.c24_counterexample_punct"
   ],
   "note": "false for titles with backslashes (witnesses proved)"
  },
  {
   "property": "C27",
   "status": "partial",
   "theorems": [
    "Verif.Props.c27_link",
    "Verif.Props.c27_setext_partial",
    "Verif.Props.c27_counterexample"
   ],
   "note": "links: proved; setext headings: false with a trailing break (witness proved)"
  },
  {
   "property": "C28",
   "status": "partial",
   "theorems": [
    "Verif.Props.c28_bracket_after_backslash",
    "Verif.Props.c28_brackets_escaped_partial",
    "Verif.Props.c28_reads_back_partial",
    "Verif.Props.c28_counterexample"
   ],
   "note": "false when the alt text has a backslash in front of a bracket (witness proved)"
  },
  {
   "property": "C29",
   "status": "partial",
   "theorems": [
    "Verif.Props.c29_atx_partial",
    "Verif.Props.c29_level",
    "Verif.Props.c29_counterexample_code"
   ],
   "note": "content whose last # carries an escape marker and without code newlines (witness proved)"
  },
  {
   "property": "C30",
   "status": "partial",
   "theorems": [
    "Verif.Props.c30_panics_iff_partial",
    "Verif.Props.c30_conversion_no_panic_partial",
    "Verif.Props.c30_counterexample_panic",
    "Verif.Props.c30_counterexample_lost",
    "Verif.Props.c30_counterexample_conversion"
   ],
   "note": "exact characterisation of the panic; whole conversions with all four stock plugins never panic in the default escape mode; false with EscapeModeDisabled (witnesses proved)"
  },
  {
   "property": "C31",
   "status": "proved",
   "theorems": [
    "Verif.Props.c31_no_three_newlines",
    "Verif.Props.c31_visible_lines_kept",
    "Verif.Props.c31_sublist"
   ],
   "note": ""
  },
  {
   "property": "C32",
   "status": "partial",
   "theorems": [
    "Verif.Props.c32_only_line_ends",
    "Verif.Props.c32_sublist",
    "Verif.Props.c32_counterexample",
    "Verif.Props.c32_counterexample_blank"
   ],
   "note": "only spaces at line ends are removed: proved; the second half is false (witnesses proved)"
  },
  {
   "property": "C25",
   "status": "partial",
   "theorems": [
    "Verif.Props.c25_no_brackets",
    "Verif.Props.c25_no_newline",
    "Verif.Props.c25_destination_partial",
    "Verif.Props.c25_counterexample_backslash",
    "Verif.Props.c25_counterexample_control"
   ],
   "note": "no space, bracket or angle bracket for any URL library: proved; that the parentheses always enclose the destination is false for a trailing backslash and for control characters (witnesses proved)"
  },
  {
   "property": "C26",
   "status": "proved",
   "theorems": [
    "Verif.Props.c26_same_parameters",
    "Verif.Props.c26_idempotent",
    "Verif.Props.c26_valid_parts",
    "Verif.Props.c26_canonical"
   ],
   "note": ""
  },
  {
   "property": "C33",
   "status": "partial",
   "theorems": [
    "Verif.Props.c33_document_partial",
    "Verif.Props.c94_package_partial",
    "Verif.Props.c94_tool_partial",
    "Verif.Props.c33_trimmed_partial",
    "Verif.Props.c33_counterexample_bell",
    "Verif.Props.c33_counterexample_marker",
    "Verif.Props.c33_counterexample_document"
   ],
   "note": "whole documents that contain neither the bell character nor U+F002, which the converter uses for itself (witnesses proved), in the default escape mode or without pound signs in the texts"
  },
  {
   "property": "C34",
   "status": "proved",
   "theorems": [
    "Verif.Props.c34_numbers",
    "Verif.Props.c34_value",
    "Verif.Props.c34_start",
    "Verif.Props.c34_start_signed",
    "Verif.Props.c34_start_too_large",
    "Verif.Props.c34_start_default",
    "Verif.Props.c34_counterexample_negative",
    "Verif.Props.c34_counterexample_overflow",
    "Verif.Props.c34_counterexample_ten_digits"
   ],
   "note": "for non-negative numbers that fit into an int, as the property says; behaviour outside of it is shown by witnesses"
  },
  {
   "property": "C35",
   "status": "proved",
   "theorems": [
    "Verif.Props.c35_items",
    "Verif.Props.c35_counterexample_negative"
   ],
   "note": "for non-negative start numbers; the witness shows what happens otherwise"
  },
  {
   "property": "C65",
   "status": "partial",
   "theorems": [
    "Verif.Props.c65_no_markers",
    "Verif.Props.c65_document"
   ],
   "note": "for every rendered document and the post-render handlers of the stock plugins; EscapeModeDisabled keeps bell bytes of the text, as it inserts none"
  },
  {
   "property": "C58",
   "status": "partial",
   "theorems": [
    "Verif.Props.c58_defaults",
    "Verif.Props.c58_unset_fields",
    "Verif.Props.c58_documented_accepted",
    "Verif.Props.c58_enumerated",
    "Verif.Props.c58_accepted_partial",
    "Verif.Props.c58_counterexample_em",
    "Verif.Props.c58_counterexample_rule"
   ],
   "note": "defaults and documented values: proved; accepted values are valid only if they consist of delimiter bytes, which the code does not check (witnesses proved)"
  },
  {
   "property": "C46",
   "status": "proved",
   "theorems": [
    "Verif.Props.c46_order",
    "Verif.Props.c46_ascending",
    "Verif.Props.c46_order_unique",
    "Verif.Props.c46_conversion",
    "Verif.Props.c46_registered"
   ],
   "note": "for any sort.Slice that is insertion sort up to 12 elements"
  },
  {
   "property": "C47",
   "status": "proved",
   "theorems": [
    "Verif.Props.c47_first_success",
    "Verif.Props.c47_fallback",
    "Verif.Props.c47_in_order",
    "Verif.Props.c47_frame",
    "Verif.Props.c47_appends",
    "Verif.Props.c47_renderer_for",
    "Verif.Props.c47_counterexample_leak"
   ],
   "note": "for all handlers (interaction trees); the witness shows that writes of a handler that answers try-next stay"
  },
  {
   "property": "C48",
   "status": "proved",
   "theorems": [
    "Verif.Props.c48_text"
   ],
   "note": ""
  },
  {
   "property": "C49",
   "status": "proved",
   "theorems": [
    "Verif.Props.c49_error_iff",
    "Verif.Props.c49_error_sticks",
    "Verif.Props.c49_later_failure",
    "Verif.Props.c49_output_iff"
   ],
   "note": ""
  },
  {
   "property": "C50",
   "status": "proved",
   "theorems": [
    "Verif.Props.c50_tag_type",
    "Verif.Props.c50_read_stable"
   ],
   "note": ""
  },
  {
   "property": "C51",
   "status": "partial",
   "theorems": [
    "Verif.Props.c51_sorted_partial",
    "Verif.Props.c51_one_after_the_other_partial",
    "Verif.Props.c51_returns_registered_partial",
    "Verif.Props.c51_read_only",
    "Verif.Props.c51_stock",
    "Verif.Props.c51_counterexample_read",
    "Verif.Props.c51_counterexample_lost"
   ],
   "note": "proved for all schedules when the registrations of each tag are in priority order (so for the stock plugins); false otherwise, as the slice is sorted in place under a read lock (witness schedules proved)"
  },
  {
   "property": "C52",
   "status": "proved",
   "theorems": [
    "Verif.Props.c52_independent"
   ],
   "note": "for all handlers that keep no state of their own between conversions"
  },
  {
   "property": "C59",
   "status": "proved",
   "theorems": [
    "Verif.Props.c59_no_overwrite",
    "Verif.Props.c59_only_outputs"
   ],
   "note": "every state of every run, including all crash points and failing writes; other processes and links are not modelled"
  },
  {
   "property": "C60",
   "status": "partial",
   "theorems": [
    "Verif.Props.c60_success",
    "Verif.Props.c60_distinct_partial",
    "Verif.Props.c60_overwrite_partial",
    "Verif.Props.c60_counterexample",
    "Verif.Props.c60_counterexample_lost"
   ],
   "note": "without the overwrite flag an error-free run has lost nothing (proved); names are distinct only under hypotheses on hashes and file names, counterexamples for any hash function"
  },
  {
   "property": "C61",
   "status": "proved",
   "theorems": [
    "Verif.Props.c61_decision",
    "Verif.Props.c61_many",
    "Verif.Props.c61_stdout"
   ],
   "note": ""
  },
  {
   "property": "C62",
   "status": "partial",
   "theorems": [
    "Verif.Props.c62_accept_iff",
    "Verif.Props.c62_reading_unique",
    "Verif.Props.c62_settings",
    "Verif.Props.c62_rejected",
    "Verif.Props.c62_values",
    "Verif.Props.c62_counterexample"
   ],
   "note": "exact characterisation of the accepted command lines; only input and output are refused when given twice, and the bold delimiter is validated loosely (counterexample)"
  },
  {
   "property": "C66",
   "status": "partial",
   "theorems": [
    "Verif.Props.c66_interrupted_partial",
    "Verif.Props.c66_counterexample"
   ],
   "note": "holds without the overwrite flag; with it the old content is truncated first (counterexample)"
  },
  {
   "property": "C53",
   "status": "proved",
   "theorems": [
    "Verif.Props.c53_rectangular",
    "Verif.Props.c53_gfm"
   ],
   "note": "the first theorem holds for arbitrary cell contents; the second reads the lines by the rules of GFM"
  },
  {
   "property": "C54",
   "status": "partial",
   "theorems": [
    "Verif.Props.c54_one_line",
    "Verif.Props.c54_counterexample"
   ],
   "note": "every row is one line unless a cell contains a preformatted block in preserve mode (counterexample)"
  },
  {
   "property": "C55",
   "status": "partial",
   "theorems": [
    "Verif.Props.c55_row_partial",
    "Verif.Props.c55_marked_partial",
    "Verif.Props.c55_text_partial",
    "Verif.Props.c55_counterexample"
   ],
   "note": "cells are read back for text content; a pipe in inline code splits the cell (counterexample)"
  },
  {
   "property": "C56",
   "status": "proved",
   "theorems": [
    "Verif.Props.c56_aligned"
   ],
   "note": "all rows and the delimiter row have the same number of characters"
  },
  {
   "property": "C57",
   "status": "partial",
   "theorems": [
    "Verif.Props.c57_grid_partial",
    "Verif.Props.c57_no_spans",
    "Verif.Props.c57_counterexample_columns",
    "Verif.Props.c57_counterexample_rows",
    "Verif.Props.c57_counterexample_overlong"
   ],
   "note": "proved when spanning cells are in the column of their index and cells do not overlap; otherwise cells are misplaced (counterexamples)"
  },
  {
   "property": "C67",
   "status": "proved",
   "theorems": [
    "Verif.Props.c67_alignment"
   ],
   "note": ""
  },
  {
   "property": "C68",
   "status": "proved",
   "theorems": [
    "Verif.Props.c68_skip_empty",
    "Verif.Props.c68_promotion"
   ],
   "note": ""
  },
  {
   "property": "C69",
   "status": "partial",
   "theorems": [
    "Verif.Props.c69_skipped_iff",
    "Verif.Props.c69_link_partial",
    "Verif.Props.c69_text_partial",
    "Verif.Props.c69_counterexample_newline",
    "Verif.Props.c69_image_skipped_iff",
    "Verif.Props.c69_image_partial"
   ],
   "note": "end to end for text without line feeds; with a line break inside of the link an opening bracket is not escaped (counterexample); addresses, titles and alternative texts under the conditions of C25, C24 and C28"
  },
  {
   "property": "C36",
   "status": "proved",
   "theorems": [
    "Verif.Props.c36_separated",
    "Verif.Props.c36_nothing_else",
    "Verif.Props.c36_only_if_needed"
   ],
   "note": "lists of different kinds are separated too"
  },
  {
   "property": "C37",
   "status": "proved",
   "theorems": [
    "Verif.Props.c37_items",
    "Verif.Props.c37_document",
    "Verif.Props.c37_text",
    "Verif.Props.c37_counterexample_blank"
   ],
   "note": "blank text between items may change its place (shown by an example)"
  },
  {
   "property": "C38",
   "status": "proved",
   "theorems": [
    "Verif.Props.c38_removed",
    "Verif.Props.c38_base"
   ],
   "note": "for every set of removed names; the parser gives a document whose root is not removed"
  },
  {
   "property": "C39",
   "status": "partial",
   "theorems": [
    "Verif.Props.c39_no_nesting_partial",
    "Verif.Props.c39_no_nested_links",
    "Verif.Props.c39_links_document",
    "Verif.Props.c39_text",
    "Verif.Props.c39_counterexample_document"
   ],
   "note": "links: proved after all steps. Bold and italic: proved after the step that removes what is redundant; after all steps it is false (counterexample: merging comes later)"
  },
  {
   "property": "C40",
   "status": "partial",
   "theorems": [
    "Verif.Props.c40_text_partial",
    "Verif.Props.c40_code_partial",
    "Verif.Props.c40_no_neighbours",
    "Verif.Props.c40_no_neighbours_code",
    "Verif.Props.c40_counterexample_block",
    "Verif.Props.c40_counterexample_kind"
   ],
   "note": "no text is lost, duplicated or reordered and none gains or loses the markup; that text stays in its block is false (counterexample), and an italic text next to a bold one becomes bold (counterexample)"
  },
  {
   "property": "C41",
   "status": "proved",
   "theorems": [
    "Verif.Props.c41_no_blocks",
    "Verif.Props.c41_document",
    "Verif.Props.c41_text",
    "Verif.Props.c41_text_exact"
   ],
   "note": "horizontal rules have no content, as the parser guarantees"
  },
  {
   "property": "C42",
   "status": "proved",
   "theorems": [
    "Verif.Props.c42_no_adjacent",
    "Verif.Props.c42_text",
    "Verif.Props.c42_idempotent"
   ],
   "note": ""
  },
  {
   "property": "C70",
   "status": "proved",
   "theorems": [
    "Verif.Props.c70_text"
   ],
   "note": "horizontal rules have no content, as the parser guarantees"
  },
  {
   "property": "C71",
   "status": "proved",
   "theorems": [
    "Verif.Props.c71_resolved",
    "Verif.Props.c71_no_domain",
    "Verif.Props.c71_absolute",
    "Verif.Props.c71_kept"
   ],
   "note": "for every URL library; resolving itself is the library's"
  },
  {
   "property": "C72",
   "status": "proved",
   "theorems": [
    "Verif.Props.c72_caption"
   ],
   "note": ""
  },
  {
   "property": "C43",
   "status": "proved",
   "theorems": [
    "Verif.Props.c43_runs",
    "Verif.Props.c43_result",
    "Verif.Props.c43_visible"
   ],
   "note": ""
  },
  {
   "property": "C44",
   "status": "proved",
   "theorems": [
    "Verif.Props.c44_seen",
    "Verif.Props.c44_base"
   ],
   "note": "no document node below the root, as in every parsed page"
  },
  {
   "property": "C45",
   "status": "partial",
   "theorems": [
    "Verif.Props.c45_twice_partial",
    "Verif.Props.c45_pre",
    "Verif.Props.c45_counterexample"
   ],
   "note": "proved for trees whose texts have an element between them; false without (two texts after an image), proved by counterexample"
  },
  {
   "property": "C73",
   "status": "partial",
   "theorems": [
    "Verif.Props.c73_flow_partial",
    "Verif.Props.c73_base_partial",
    "Verif.Props.c73_counterexample"
   ],
   "note": "proved for trees whose texts have an element between them; false without (two texts after an image), proved by counterexample"
  },
  {
   "property": "C74",
   "status": "proved",
   "theorems": [
    "Verif.Props.c74_spans"
   ],
   "note": ""
  },
  {
   "property": "C75",
   "status": "proved",
   "theorems": [
    "Verif.Props.c75_before",
    "Verif.Props.c75_after",
    "Verif.Props.c75_only"
   ],
   "note": ""
  },
  {
   "property": "C64",
   "status": "partial",
   "theorems": [
    "Verif.Props.c64_visible_text_partial",
    "Verif.Props.c64_visible_text_any_order_partial",
    "Verif.Props.c64_counterexample_disabled",
    "Verif.Props.c64_counterexample_caption",
    "Verif.Props.c64_counterexample_caption2",
    "Verif.Props.demoPage_ok",
    "Verif.Props.demoPage_converted",
    "Verif.Props.tablePage_ok",
    "Verif.Props.tablePage_converted",
    "Verif.Props.tablePage_topDown"
   ],
   "note": "whole conversions with all four stock plugins: proved for the default escape mode, and for EscapeModeDisabled if no text has a pound sign; with it the character in front of the sign is lost (counterexample). Delimiters are ASCII without pound signs; trees are as the HTML parser makes them. With the table plugin: in order for tables that are read from top to bottom, in some order for tables with a caption; a second caption is lost (counterexample)"
  },
  {
   "property": "C63",
   "status": "partial",
   "theorems": [
    "Verif.Props.c63_exclude_partial",
    "Verif.Props.c63_nothing_left_partial",
    "Verif.Props.c63_include_nodes",
    "Verif.Props.c63_include_whole_partial",
    "Verif.Props.c63_include_texts_partial",
    "Verif.Props.c63_both_partial",
    "Verif.Props.c63_no_selectors",
    "Verif.Props.c63_counterexample_cascade",
    "Verif.Props.c63_counterexample_left",
    "Verif.Props.c63_counterexample_nested"
   ],
   "note": "A selector is an arbitrary function of a node and its surroundings. Exclude: for selectors that do not look at what follows a node, exactly the nodes that match or are inside of a match go, the rest stays unchanged in order; for type/class/id/attribute selectors with descendant and child combinators nothing in the result matches. Include: for every selector exactly the matching nodes arrive in document order, with exactly the texts inside of matches; whole and in order if matches are not nested. The code violates the full property (three proved counterexamples)."
  },
  {
   "property": "C76",
   "status": "proved",
   "theorems": [
    "Verif.Props.c76_rows_once",
    "Verif.Props.c76_rows_in_order",
    "Verif.Props.c76_other_rows",
    "Verif.Props.c76_header_thead",
    "Verif.Props.c76_header_th",
    "Verif.Props.c76_no_header",
    "Verif.Props.c76_markdown_table"
   ],
   "note": "header cells are directly inside of rows (as the HTML parser builds them)"
  },
  {
   "property": "C77",
   "status": "proved",
   "theorems": [
    "Verif.Props.c77_fallback",
    "Verif.Props.c77_row",
    "Verif.Props.c77_inside"
   ],
   "note": "that nothing is lost: C64, whose theorems need no condition on such tables"
  },
  {
   "property": "C78",
   "status": "proved",
   "theorems": [
    "Verif.Props.c78_text",
    "Verif.Props.c78_no_nesting",
    "Verif.Props.c78_no_neighbours"
   ],
   "note": ""
  },
  {
   "property": "C79",
   "status": "partial",
   "theorems": [
    "Verif.Props.c79_tilde_followed_by_space_partial",
    "Verif.Props.c79_no_deletion_partial",
    "Verif.Props.c79_fails",
    "Verif.Props.c79_document"
   ],
   "note": "false for texts with fence-like lines (witness proved), and for white space that CommonMark does not know, as in C12"
  },
  {
   "property": "C80",
   "status": "proved",
   "theorems": [
    "Verif.Props.c80_bold",
    "Verif.Props.c80_italic",
    "Verif.Props.c80_deleted"
   ],
   "note": ""
  },
  {
   "property": "C81",
   "status": "proved",
   "theorems": [
    "Verif.Props.c81_local",
    "Verif.Props.c81_needs_blank_line"
   ],
   "note": "c81_needs_blank_line shows why a blank line is needed."
  },
  {
   "property": "C82",
   "status": "partial",
   "theorems": [
    "Verif.Props.c82_page_partial",
    "Verif.Props.c82_package_partial",
    "Verif.Props.c82_tool_partial",
    "Verif.Props.c82_document_partial",
    "Verif.Props.c82_package_document_partial",
    "Verif.Props.c82_tool_document_partial",
    "Verif.Props.pageEnv_ok",
    "Verif.Props.pageLib_ok",
    "Verif.Props.samplePage_ok",
    "Verif.Props.c82_counterexample_bullets",
    "Verif.Props.c82_counterexample_heading",
    "Verif.Props.c82_counterexample_list",
    "Verif.Props.c82_counterexample_rule",
    "Verif.Props.c82_counterexample_number",
    "Verif.Props.c82_counterexample_fence",
    "Verif.Props.c82_counterexample_entity",
    "Verif.Props.c82_counterexample_quote",
    "Verif.Props.c82_counterexample_quoted_code",
    "Verif.Props.c82_counterexample_empty_quote",
    "Verif.Props.c82_counterexample_link_style",
    "Verif.Props.c82_counterexample_emphasis",
    "Verif.Props.c82_counterexample_delimiter",
    "Verif.Props.c82_counterexample_flanking",
    "Verif.Props.c82_counterexample_word",
    "Verif.Props.c82_counterexample_adjacent",
    "Verif.Props.c82_counterexample_bold_code",
    "Verif.Props.c82_counterexample_bold_link",
    "Verif.Props.c82_counterexample_twice",
    "Verif.Props.c82_title_in_heading_counterexample"
   ],
   "note": "whole conversions, read by a CommonMark reader that is part of the specification; false for the texts, empty blocks, rules, numbers and quoted code of the counterexamples, which the theorem excludes; emphasis, code, links and images may be in paragraphs, headings and directly in list items, quotes, groups and the body, and inside of each other, to any depth, with some text between them; other inline markup, tables and HTML white space inside of pre are not covered"
  },
  {
   "property": "C83",
   "status": "proved",
   "theorems": [
    "Verif.Props.c83_engine",
    "Verif.Props.c83_default_converter",
    "Verif.Props.c83_default",
    "Verif.Props.c83_history",
    "Verif.Props.c83_any_order",
    "Verif.Props.c83_counterexample_order"
   ],
   "note": "c83_counterexample_order shows why the CommonMark plugin has to come before the strikethrough plugin. The link context value is_inside_link must not be set by the caller"
  },
  {
   "property": "C84",
   "status": "proved",
   "theorems": [
    "Verif.Props.c84_settings",
    "Verif.Props.c84_unknown",
    "Verif.Props.c84_rejected"
   ],
   "note": ""
  },
  {
   "property": "C85",
   "status": "proved",
   "theorems": [
    "Verif.Props.c85_conversion",
    "Verif.Props.c85_total",
    "Verif.Props.c85_rejected",
    "Verif.Props.c85_run",
    "Verif.Props.c85_run_file"
   ],
   "note": "html.Parse and the CSS selectors are parameters"
  },
  {
   "property": "C86",
   "status": "proved",
   "theorems": [
    "Verif.Props.c86_exit",
    "Verif.Props.c86_success",
    "Verif.Props.c86_help",
    "Verif.Props.c86_version",
    "Verif.Props.c86_suggestion",
    "Verif.Props.c86_unknown"
   ],
   "note": "the edit distance, the text of the usage and the colors are parameters"
  },
  {
   "property": "C87",
   "status": "proved",
   "theorems": [
    "Verif.Props.c87_other_tags",
    "Verif.Props.c87_history",
    "Verif.Props.c87_counterexample_made"
   ],
   "note": "c87_counterexample_made shows why the tags that the normalisation produces are excluded; the further registrations come after the stock plugins"
  },
  {
   "property": "C88",
   "status": "proved",
   "theorems": [
    "Verif.Props.c88_underline",
    "Verif.Props.c88_text"
   ],
   "note": ""
  },
  {
   "property": "C89",
   "status": "proved",
   "theorems": [
    "Verif.Props.c89_package",
    "Verif.Props.c89_tool",
    "Verif.Props.c89_tool_file"
   ],
   "note": "with the table plugin of the tool, for tables that are read from top to bottom, as written in the statement"
  },
  {
   "property": "C90",
   "status": "proved",
   "theorems": [
    "Verif.Props.c90_last_option",
    "Verif.Props.c90_agree",
    "Verif.Props.c90_parse_error",
    "Verif.Props.c90_error_or_output",
    "Verif.Props.c90_package"
   ],
   "note": "html.Parse is a parameter; c90_package carries C89 to the three functions of the package"
  },
  {
   "property": "C91",
   "status": "partial",
   "theorems": [
    "Verif.Props.c91_html",
    "Verif.Props.c91_wrapper",
    "Verif.Props.c91_plaintext",
    "Verif.Props.c91_counterexample_newlines"
   ],
   "note": "for elements wherever they are rendered, in any converter where the registration has the lowest priority number; false for the whole output: HTML with several blank lines loses some of them"
  },
  {
   "property": "C92",
   "status": "proved",
   "theorems": [
    "Verif.Props.c92_value_reaches",
    "Verif.Props.c92_stock"
   ],
   "note": "c92_value_reaches is for all converters, c92_stock says that the stock plugins meet its condition"
  },
  {
   "property": "C93",
   "status": "partial",
   "theorems": [
    "Verif.Props.c93_code",
    "Verif.Props.c93_language",
    "Verif.Props.c93_block_partial",
    "Verif.Props.c93_inline_partial"
   ],
   "note": "what the code and the language are is proved for all elements; reading it back has the exceptions of C18, C19 and C20 (with their counterexamples)"
  },
  {
   "property": "C94",
   "status": "partial",
   "theorems": [
    "Verif.Props.c94_one_blank_line_partial",
    "Verif.Props.c94_package_partial",
    "Verif.Props.c94_tool_partial",
    "Verif.Props.c94_counterexample_bell",
    "Verif.Props.blankPage_converted"
   ],
   "note": "for documents that contain neither the bell character nor U+F002 (witness: a paragraph of a bell character leaves four newlines), in the default escape mode or without pound signs in the texts"
  },
  {
   "property": "C95",
   "status": "proved",
   "theorems": [
    "Verif.Props.c54_newlines"
   ],
   "note": "tables without spans and with the default options for rows"
  },
  {
   "property": "C96",
   "status": "proved",
   "theorems": [
    "Verif.Props.c60_names"
   ],
   "note": ""
  },
  {
   "property": "C97",
   "status": "proved",
   "theorems": [
    "Verif.Props.c97_size",
    "Verif.Props.c97_size_tables",
    "Verif.Props.c97_package",
    "Verif.Props.c97_tool",
    "Verif.Props.c97_spans"
   ],
   "note": "c97_spans shows that the numbers of spans have to be counted"
  },
  {
   "property": "C98",
   "status": "proved",
   "theorems": [
    "Verif.Props.c98_same_meaning",
    "Verif.Props.c98_attributes",
    "Verif.Props.c98_package",
    "Verif.Props.c98_tool",
    "Verif.Props.c98_code_is_not_kbd"
   ],
   "note": "c98_code_is_not_kbd is a witness that code and kbd are not treated alike"
  },
  {
   "property": "C99",
   "status": "proved",
   "theorems": [
    "Verif.Props.c99_looks_same",
    "Verif.Props.c99_looks_same_node",
    "Verif.Props.c99_doctype",
    "Verif.Props.c99_same_document",
    "Verif.Props.c99_package",
    "Verif.Props.c99_tool"
   ],
   "note": "a node that is converted by itself is never left out (c99_hidden_root)"
  },
  {
   "property": "C100",
   "status": "proved",
   "theorems": [
    "Verif.Props.c100_rule_anywhere",
    "Verif.Props.c100_rule_separates",
    "Verif.Props.c100_rule_panics",
    "Verif.Props.c100_page",
    "Verif.Props.c100_package",
    "Verif.Props.c100_tool",
    "Verif.Props.c100_without_the_rule"
   ],
   "note": "for every document that can be converted (c100_rule_panics: when it can be) and both escape modes; c100_without_the_rule shows why the rule is kept on both sides"
  },
  {
   "property": "C101",
   "status": "proved",
   "theorems": [
    "Verif.Props.c101_title_anywhere",
    "Verif.Props.c101_title_separates",
    "Verif.Props.c101_title_panics",
    "Verif.Props.c101_words",
    "Verif.Props.c101_page",
    "Verif.Props.c101_package",
    "Verif.Props.c101_tool",
    "Verif.Props.c101_empty_title",
    "Verif.Props.c101_blank_title"
   ],
   "note": "for every document that can be converted; c101_empty_title and c101_blank_title show that a title without text, or with a no-break space at the end, does not separate"
  },
  {
   "property": "C102",
   "status": "proved",
   "theorems": [
    "Verif.Props.c102_block_separates",
    "Verif.Props.c102_block_panics",
    "Verif.Props.c102_package",
    "Verif.Props.c102_tool",
    "Verif.Props.c102_bold_end",
    "Verif.Props.c102_bold_end_not"
   ],
   "note": "for every document that can be converted; c102_bold_end and c102_bold_end_not show that a block that does not end with text need not separate"
  },
  {
   "property": "C103",
   "status": "proved",
   "theorems": [
    "Verif.Props.c103_join",
    "Verif.Props.c103_chapters",
    "Verif.Props.c103_chapters_panic",
    "Verif.Props.c103_page",
    "Verif.Props.c103_package",
    "Verif.Props.c103_tool",
    "Verif.Props.c103_lists",
    "Verif.Props.c103_no_break_space"
   ],
   "note": "c103_join is an equation of conversions that can fail; c103_lists and c103_no_break_space show what happens without the conditions"
  },
  {
   "property": "C104",
   "status": "proved",
   "theorems": [
    "Verif.Props.c104_code_separates",
    "Verif.Props.c104_code_panics",
    "Verif.Props.c104_package",
    "Verif.Props.c104_tool"
   ],
   "note": "for code that is written with texts, span elements and line breaks, in pre or in pre and code"
  },
  {
   "property": "C105",
   "status": "proved",
   "theorems": [
    "Verif.Props.c105_edit",
    "Verif.Props.c105_remove",
    "Verif.Props.c105_reorder",
    "Verif.Props.c105_package",
    "Verif.Props.c105_tool",
    "Verif.Props.c105_list_edit"
   ],
   "note": "from C103, with its conditions on the parts; c105_list_edit shows what happens with lists beside each other"
  }
 ]
}