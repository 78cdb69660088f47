import json
claims=[]
def add(p,s,t,n): claims.append({"property":p,"status":s,"theorems":["Verif.Props."+x for x in t],"note":n})
add("C01","proved",["c01_only_inserts"],"")
add("C02","proved",["c02_no_marker"],"")
add("C03","proved",["c03_no_nul","c03_rest_kept"],"")
add("C04","proved",["c04_disabled"],"")
add("C05","proved",["c05_no_atx_heading"],"")
add("C06","proved",["c06_no_block_quote"],"")
add("C07","proved",["c07_no_bullet_item"],"")
add("C08","proved",["c08_no_ordered_item"],"")
add("C09","partial",["c09_no_thematic_break_partial","c09_fails_with_tab"],"text without tabs; with a tab the property is false of the code (witness proved)")
add("C10","proved",["c10_no_setext_underline"],"")
add("C11","proved",["c11_no_fence"],"")
add("C12","partial",["c12_followed_by_space","c12_no_emphasis_partial","c12_fails"],"exact for Go white space; false for U+000B/0085/2028/2029 (witness proved)")
add("C13","proved",["c13_reads_back","c13_backslash_escaped"],"")
add("C14","partial",["c14_no_code_span_partial","c14_fails"],"false for texts with fence-like lines (witness proved)")
add("C15","partial",["c15_no_link_partial","c15_fails"],"same line only; false across lines (witness proved)")
add("C16","partial",["c16_no_angle","c16_decode_partial","c16_counterexample"],"no < or > is left for any text; decoding returns the text only when it contains no &lt; or &gt; (ampersands are not escaped; witness proved)")
add("C17","proved",["c17_fence","c17_fence_blank"],"")
add("C18","partial",["c18_code_span_partial","c18_counterexample"],"content with a backtick on exactly one side is padded on one side only, and reads back with an extra space (witness proved)")
add("C19","partial",["c19_fence","c20_survives_partial","c19_language_no_space","c19_language_of_class","c19_counterexample_backtick","c19_counterexample_newline"],"the fence is always longer; reading back needs an info string without backtick/newline (witnesses proved)")
add("C20","partial",["c20_survives_partial","c20_counterexample_marker","c20_counterexample_bell"],"content without the internal markers U+F002 and BEL (witnesses proved)")
add("C21","partial",["c21_lines_prefixed_partial","c21_blank","c21_counterexample"],"false for a code block inside of a quote, whose newlines are restored later (witness proved)")
add("C22","proved",["c22_delimiters"],"")
add("C23","proved",["c23_surrounding_spaces"],"")
add("C24","partial",["c24_title_partial","c24_counterexample_end","c24_counterexample_punct"],"false for titles with backslashes (witnesses proved)")
add("C27","partial",["c27_link","c27_setext_partial","c27_counterexample"],"links: proved; setext headings: false with a trailing break (witness proved)")
add("C28","partial",["c28_bracket_after_backslash","c28_brackets_escaped_partial","c28_reads_back_partial","c28_counterexample"],"false when the alt text has a backslash in front of a bracket (witness proved)")
add("C29","partial",["c29_atx_partial","c29_level","c29_counterexample_code"],"content whose last # carries an escape marker and without code newlines (witness proved)")
add("C30","partial",["c30_panics_iff_partial","c30_conversion_no_panic_partial","c30_counterexample_panic","c30_counterexample_lost","c30_counterexample_conversion"],"exact characterisation of the panic; whole conversions with all four stock plugins never panic in the default escape mode; false with EscapeModeDisabled (witnesses proved)")
add("C31","proved",["c31_no_three_newlines","c31_visible_lines_kept","c31_sublist"],"")
add("C32","partial",["c32_only_line_ends","c32_sublist","c32_counterexample","c32_counterexample_blank"],"only spaces at line ends are removed: proved; the second half is false (witnesses proved)")
add("C25","partial",["c25_no_brackets","c25_no_newline","c25_destination_partial","c25_counterexample_backslash","c25_counterexample_control"],"no space, bracket or angle bracket for any URL library: proved; that the parentheses always enclose the destination is false for a trailing backslash and for control characters (witnesses proved)")
add("C26","proved",["c26_same_parameters","c26_idempotent","c26_valid_parts","c26_canonical"],"")
add("C33","partial",["c33_document_partial","c94_package_partial","c94_tool_partial","c33_trimmed_partial","c33_counterexample_bell","c33_counterexample_marker","c33_counterexample_document"],"whole documents that contain neither the bell character nor U+F002, which the converter uses for itself (witnesses proved), in the default escape mode or without pound signs in the texts")
add("C34","proved",["c34_numbers","c34_value","c34_start","c34_start_signed","c34_start_too_large","c34_start_default","c34_counterexample_negative","c34_counterexample_overflow","c34_counterexample_ten_digits"],"for non-negative numbers that fit into an int, as the property says; behaviour outside of it is shown by witnesses")
add("C35","proved",["c35_items","c35_counterexample_negative"],"for non-negative start numbers; the witness shows what happens otherwise")
add("C65","partial",["c65_no_markers","c65_document"],"for every rendered document and the post-render handlers of the stock plugins; EscapeModeDisabled keeps bell bytes of the text, as it inserts none")
add("C58","partial",["c58_defaults","c58_unset_fields","c58_documented_accepted","c58_enumerated","c58_accepted_partial","c58_counterexample_em","c58_counterexample_rule"],"defaults and documented values: proved; accepted values are valid only if they consist of delimiter bytes, which the code does not check (witnesses proved)")
add("C46","proved",["c46_order","c46_ascending","c46_order_unique","c46_conversion","c46_registered"],"for any sort.Slice that is insertion sort up to 12 elements")
add("C47","proved",["c47_first_success","c47_fallback","c47_in_order","c47_frame","c47_appends","c47_renderer_for","c47_counterexample_leak"],"for all handlers (interaction trees); the witness shows that writes of a handler that answers try-next stay")
add("C48","proved",["c48_text"],"")
add("C49","proved",["c49_error_iff","c49_error_sticks","c49_later_failure","c49_output_iff"],"")
add("C50","proved",["c50_tag_type","c50_read_stable"],"")
add("C51","partial",["c51_sorted_partial","c51_one_after_the_other_partial","c51_returns_registered_partial","c51_read_only","c51_stock","c51_counterexample_read","c51_counterexample_lost"],"proved for all schedules when the registrations of each tag are in priority order (so for the stock plugins); false otherwise, as the slice is sorted in place under a read lock (witness schedules proved)")
add("C52","proved",["c52_independent"],"for all handlers that keep no state of their own between conversions")
add("C59","proved",["c59_no_overwrite","c59_only_outputs"],"every state of every run, including all crash points and failing writes; other processes and links are not modelled")
add("C60","partial",["c60_success","c60_distinct_partial","c60_overwrite_partial","c60_counterexample","c60_counterexample_lost"],"without the overwrite flag an error-free run has lost nothing (proved); names are distinct only under hypotheses on hashes and file names, counterexamples for any hash function")
add("C61","proved",["c61_decision","c61_many","c61_stdout"],"")
add("C62","partial",["c62_accept_iff","c62_reading_unique","c62_settings","c62_rejected","c62_values","c62_counterexample"],"exact characterisation of the accepted command lines; only input and output are refused when given twice, and the bold delimiter is validated loosely (counterexample)")
add("C66","partial",["c66_interrupted_partial","c66_counterexample"],"holds without the overwrite flag; with it the old content is truncated first (counterexample)")
add("C53","proved",["c53_rectangular","c53_gfm"],"the first theorem holds for arbitrary cell contents; the second reads the lines by the rules of GFM")
add("C54","partial",["c54_one_line","c54_counterexample"],"every row is one line unless a cell contains a preformatted block in preserve mode (counterexample)")
add("C55","partial",["c55_row_partial","c55_marked_partial","c55_text_partial","c55_counterexample"],"cells are read back for text content; a pipe in inline code splits the cell (counterexample)")
add("C56","proved",["c56_aligned"],"all rows and the delimiter row have the same number of characters")
add("C57","partial",["c57_grid_partial","c57_no_spans","c57_counterexample_columns","c57_counterexample_rows","c57_counterexample_overlong"],"proved when spanning cells are in the column of their index and cells do not overlap; otherwise cells are misplaced (counterexamples)")
add("C67","proved",["c67_alignment"],"")
add("C68","proved",["c68_skip_empty","c68_promotion"],"")
add("C69","partial",["c69_skipped_iff","c69_link_partial","c69_text_partial","c69_counterexample_newline","c69_image_skipped_iff","c69_image_partial"],"end to end for text without line feeds; with a line break inside of the link an opening bracket is not escaped (counterexample); addresses, titles and alternative texts under the conditions of C25, C24 and C28")
add("C36","proved",["c36_separated","c36_nothing_else","c36_only_if_needed"],"lists of different kinds are separated too")
add("C37","proved",["c37_items","c37_document","c37_text","c37_counterexample_blank"],"blank text between items may change its place (shown by an example)")
add("C38","proved",["c38_removed","c38_base"],"for every set of removed names; the parser gives a document whose root is not removed")
add("C39","partial",["c39_no_nesting_partial","c39_no_nested_links","c39_links_document","c39_text","c39_counterexample_document"],"links: proved after all steps. Bold and italic: proved after the step that removes what is redundant; after all steps it is false (counterexample: merging comes later)")
add("C40","partial",["c40_text_partial","c40_code_partial","c40_no_neighbours","c40_no_neighbours_code","c40_counterexample_block","c40_counterexample_kind"],"no text is lost, duplicated or reordered and none gains or loses the markup; that text stays in its block is false (counterexample), and an italic text next to a bold one becomes bold (counterexample)")
add("C41","proved",["c41_no_blocks","c41_document","c41_text","c41_text_exact"],"horizontal rules have no content, as the parser guarantees")
add("C42","proved",["c42_no_adjacent","c42_text","c42_idempotent"],"")
add("C70","proved",["c70_text"],"horizontal rules have no content, as the parser guarantees")
add("C71","proved",["c71_resolved","c71_no_domain","c71_absolute","c71_kept"],"for every URL library; resolving itself is the library's")
add("C72","proved",["c72_caption"],"")
add("C43","proved",["c43_runs","c43_result","c43_visible"],"")
add("C44","proved",["c44_seen","c44_base"],"no document node below the root, as in every parsed page")
add("C45","partial",["c45_twice_partial","c45_pre","c45_counterexample"],"proved for trees whose texts have an element between them; false without (two texts after an image), proved by counterexample")
add("C73","partial",["c73_flow_partial","c73_base_partial","c73_counterexample"],"proved for trees whose texts have an element between them; false without (two texts after an image), proved by counterexample")
add("C74","proved",["c74_spans"],"")
add("C75","proved",["c75_before","c75_after","c75_only"],"")
add("C64","partial",["c64_visible_text_partial","c64_visible_text_any_order_partial","c64_counterexample_disabled","c64_counterexample_caption","c64_counterexample_caption2","demoPage_ok","demoPage_converted","tablePage_ok","tablePage_converted","tablePage_topDown"],"whole conversions with all four stock plugins: proved for the default escape mode, and for EscapeModeDisabled if no text has a pound sign; with it the character in front of the sign is lost (counterexample). Delimiters are ASCII without pound signs; trees are as the HTML parser makes them. With the table plugin: in order for tables that are read from top to bottom, in some order for tables with a caption; a second caption is lost (counterexample)")
add("C63", "partial", ["c63_exclude_partial", "c63_nothing_left_partial", "c63_include_nodes", "c63_include_whole_partial", "c63_include_texts_partial", "c63_both_partial", "c63_no_selectors", "c63_counterexample_cascade", "c63_counterexample_left", "c63_counterexample_nested"],
    "A selector is an arbitrary function of a node and its surroundings. Exclude: for selectors that do not look at what follows a node, exactly the nodes that match or are inside of a match go, the rest stays unchanged in order; for type/class/id/attribute selectors with descendant and child combinators nothing in the result matches. Include: for every selector exactly the matching nodes arrive in document order, with exactly the texts inside of matches; whole and in order if matches are not nested. The code violates the full property (three proved counterexamples).")
add("C76","proved",["c76_rows_once","c76_rows_in_order","c76_other_rows","c76_header_thead","c76_header_th","c76_no_header","c76_markdown_table"],"header cells are directly inside of rows (as the HTML parser builds them)")
add("C77","proved",["c77_fallback","c77_row","c77_inside"],"that nothing is lost: C64, whose theorems need no condition on such tables")
add("C78","proved",["c78_text","c78_no_nesting","c78_no_neighbours"],"")
add("C79","partial",["c79_tilde_followed_by_space_partial","c79_no_deletion_partial","c79_fails","c79_document"],"false for texts with fence-like lines (witness proved), and for white space that CommonMark does not know, as in C12")
add("C80","proved",["c80_bold","c80_italic","c80_deleted"],"")
add("C81","proved",["c81_local","c81_needs_blank_line"],"c81_needs_blank_line shows why a blank line is needed.")
add("C82","partial",["c82_page_partial","c82_package_partial","c82_tool_partial","c82_document_partial","c82_package_document_partial","c82_tool_document_partial","pageEnv_ok","pageLib_ok","samplePage_ok","c82_counterexample_bullets","c82_counterexample_heading","c82_counterexample_list","c82_counterexample_rule","c82_counterexample_number","c82_counterexample_fence","c82_counterexample_entity","c82_counterexample_quote","c82_counterexample_quoted_code","c82_counterexample_empty_quote","c82_counterexample_link_style","c82_counterexample_emphasis","c82_counterexample_delimiter","c82_counterexample_flanking","c82_counterexample_word","c82_counterexample_adjacent","c82_counterexample_bold_code","c82_counterexample_bold_link","c82_counterexample_twice","c82_title_in_heading_counterexample"],"whole conversions, read by a CommonMark reader that is part of the specification; false for the texts, empty blocks, rules, numbers and quoted code of the counterexamples, which the theorem excludes; emphasis, code, links and images may be in paragraphs, headings and directly in list items, quotes, groups and the body, and inside of each other, to any depth, with some text between them; other inline markup, tables and HTML white space inside of pre are not covered")
add("C83","proved",["c83_engine","c83_default_converter","c83_default","c83_history","c83_any_order","c83_counterexample_order"],"c83_counterexample_order shows why the CommonMark plugin has to come before the strikethrough plugin. The link context value is_inside_link must not be set by the caller")
add("C84","proved",["c84_settings","c84_unknown","c84_rejected"],"")
add("C85","proved",["c85_conversion","c85_total","c85_rejected","c85_run","c85_run_file"],"html.Parse and the CSS selectors are parameters")
add("C86","proved",["c86_exit","c86_success","c86_help","c86_version","c86_suggestion","c86_unknown"],"the edit distance, the text of the usage and the colors are parameters")
add("C87","proved",["c87_other_tags","c87_history","c87_counterexample_made"],"c87_counterexample_made shows why the tags that the normalisation produces are excluded; the further registrations come after the stock plugins")
add("C88","proved",["c88_underline","c88_text"],"")
add("C89","proved",["c89_package","c89_tool","c89_tool_file"],"with the table plugin of the tool, for tables that are read from top to bottom, as written in the statement")
add("C90","proved",["c90_last_option","c90_agree","c90_parse_error","c90_error_or_output","c90_package"],"html.Parse is a parameter; c90_package carries C89 to the three functions of the package")
add("C91","partial",["c91_html","c91_wrapper","c91_plaintext","c91_counterexample_newlines"],"for elements wherever they are rendered, in any converter where the registration has the lowest priority number; false for the whole output: HTML with several blank lines loses some of them")
add("C92","proved",["c92_value_reaches","c92_stock"],"c92_value_reaches is for all converters, c92_stock says that the stock plugins meet its condition")
add("C93","partial",["c93_code","c93_language","c93_block_partial","c93_inline_partial"],"what the code and the language are is proved for all elements; reading it back has the exceptions of C18, C19 and C20 (with their counterexamples)")
add("C94","partial",["c94_one_blank_line_partial","c94_package_partial","c94_tool_partial","c94_counterexample_bell","blankPage_converted"],"for documents that contain neither the bell character nor U+F002 (witness: a paragraph of a bell character leaves four newlines), in the default escape mode or without pound signs in the texts")
add("C95","proved",["c54_newlines"],"tables without spans and with the default options for rows")
add("C96","proved",["c60_names"],"")
add("C97","proved",["c97_size","c97_size_tables","c97_package","c97_tool","c97_spans"],"c97_spans shows that the numbers of spans have to be counted")
add("C98","proved",["c98_same_meaning","c98_attributes","c98_package","c98_tool","c98_code_is_not_kbd"],"c98_code_is_not_kbd is a witness that code and kbd are not treated alike")
add("C99","proved",["c99_looks_same","c99_looks_same_node","c99_doctype","c99_same_document","c99_package","c99_tool"],"a node that is converted by itself is never left out (c99_hidden_root)")
add("C100","proved",["c100_rule_anywhere","c100_rule_separates","c100_rule_panics","c100_page","c100_package","c100_tool","c100_without_the_rule"],"for every document that can be converted (c100_rule_panics: when it can be) and both escape modes; c100_without_the_rule shows why the rule is kept on both sides")
add("C101","proved",["c101_title_anywhere","c101_title_separates","c101_title_panics","c101_words","c101_page","c101_package","c101_tool","c101_empty_title","c101_blank_title"],"for every document that can be converted; c101_empty_title and c101_blank_title show that a title without text, or with a no-break space at the end, does not separate")
add("C102","proved",["c102_block_separates","c102_block_panics","c102_package","c102_tool","c102_bold_end","c102_bold_end_not"],"for every document that can be converted; c102_bold_end and c102_bold_end_not show that a block that does not end with text need not separate")
add("C103","proved",["c103_join","c103_chapters","c103_chapters_panic","c103_page","c103_package","c103_tool","c103_lists","c103_no_break_space"],"c103_join is an equation of conversions that can fail; c103_lists and c103_no_break_space show what happens without the conditions")
add("C104","proved",["c104_code_separates","c104_code_panics","c104_package","c104_tool"],"for code that is written with texts, span elements and line breaks, in pre or in pre and code")
add("C105","proved",["c105_edit","c105_remove","c105_reorder","c105_package","c105_tool","c105_list_edit"],"from C103, with its conditions on the parts; c105_list_edit shows what happens with lists beside each other")
json.dump({"claims":claims},open("/verif/MANIFEST.json","w"),indent=1)
