# Axioms of each theorem

Written by `tools/axioms.py` from `#print axioms`.

| property | theorem | axioms |
|---|---|---|
| C01 | `Verif.Props.c01_only_inserts` | propext |
| C02 | `Verif.Props.c02_no_marker` | Quot.sound, propext |
| C03 | `Verif.Props.c03_no_nul` | propext |
| C03 | `Verif.Props.c03_rest_kept` | propext |
| C04 | `Verif.Props.c04_disabled` | propext |
| C05 | `Verif.Props.c05_no_atx_heading` | Classical.choice, Quot.sound, propext |
| C06 | `Verif.Props.c06_no_block_quote` | Classical.choice, Quot.sound, propext |
| C07 | `Verif.Props.c07_no_bullet_item` | Classical.choice, Quot.sound, propext |
| C08 | `Verif.Props.c08_no_ordered_item` | Classical.choice, Quot.sound, propext |
| C09 | `Verif.Props.c09_no_thematic_break_partial` | Classical.choice, Quot.sound, propext |
| C09 | `Verif.Props.c09_fails_with_tab` | propext |
| C10 | `Verif.Props.c10_no_setext_underline` | Classical.choice, Quot.sound, propext |
| C100 | `Verif.Props.c100_rule_anywhere` | Classical.choice, Quot.sound, propext |
| C100 | `Verif.Props.c100_rule_separates` | Classical.choice, Quot.sound, propext |
| C100 | `Verif.Props.c100_rule_panics` | Classical.choice, Quot.sound, propext |
| C100 | `Verif.Props.c100_page` | Classical.choice, Quot.sound, propext |
| C100 | `Verif.Props.c100_package` | Classical.choice, Quot.sound, propext |
| C100 | `Verif.Props.c100_tool` | Classical.choice, Quot.sound, propext |
| C100 | `Verif.Props.c100_without_the_rule` | Quot.sound, propext |
| C101 | `Verif.Props.c101_title_anywhere` | Classical.choice, Quot.sound, propext |
| C101 | `Verif.Props.c101_title_separates` | Classical.choice, Quot.sound, propext |
| C101 | `Verif.Props.c101_title_panics` | Classical.choice, Quot.sound, propext |
| C101 | `Verif.Props.c101_words` | Classical.choice, Quot.sound, propext |
| C101 | `Verif.Props.c101_page` | Classical.choice, Quot.sound, propext |
| C101 | `Verif.Props.c101_package` | Classical.choice, Quot.sound, propext |
| C101 | `Verif.Props.c101_tool` | Classical.choice, Quot.sound, propext |
| C101 | `Verif.Props.c101_empty_title` | Quot.sound, propext |
| C101 | `Verif.Props.c101_blank_title` | Quot.sound, propext |
| C102 | `Verif.Props.c102_block_separates` | Classical.choice, Quot.sound, propext |
| C102 | `Verif.Props.c102_block_panics` | Classical.choice, Quot.sound, propext |
| C102 | `Verif.Props.c102_package` | Classical.choice, Quot.sound, propext |
| C102 | `Verif.Props.c102_tool` | Classical.choice, Quot.sound, propext |
| C102 | `Verif.Props.c102_bold_end` | Quot.sound, propext |
| C102 | `Verif.Props.c102_bold_end_not` | Quot.sound, propext |
| C103 | `Verif.Props.c103_join` | Classical.choice, Quot.sound, propext |
| C103 | `Verif.Props.c103_chapters` | Classical.choice, Quot.sound, propext |
| C103 | `Verif.Props.c103_chapters_panic` | Classical.choice, Quot.sound, propext |
| C103 | `Verif.Props.c103_page` | Classical.choice, Quot.sound, propext |
| C103 | `Verif.Props.c103_package` | Classical.choice, Quot.sound, propext |
| C103 | `Verif.Props.c103_tool` | Classical.choice, Quot.sound, propext |
| C103 | `Verif.Props.c103_lists` | Quot.sound, propext |
| C103 | `Verif.Props.c103_no_break_space` | Quot.sound, propext |
| C104 | `Verif.Props.c104_code_separates` | Classical.choice, Quot.sound, propext |
| C104 | `Verif.Props.c104_code_panics` | Classical.choice, Quot.sound, propext |
| C104 | `Verif.Props.c104_package` | Classical.choice, Quot.sound, propext |
| C104 | `Verif.Props.c104_tool` | Classical.choice, Quot.sound, propext |
| C105 | `Verif.Props.c105_edit` | Classical.choice, Quot.sound, propext |
| C105 | `Verif.Props.c105_remove` | Classical.choice, Quot.sound, propext |
| C105 | `Verif.Props.c105_reorder` | Classical.choice, Quot.sound, propext |
| C105 | `Verif.Props.c105_package` | Classical.choice, Quot.sound, propext |
| C105 | `Verif.Props.c105_tool` | Classical.choice, Quot.sound, propext |
| C105 | `Verif.Props.c105_list_edit` | Quot.sound, propext |
| C11 | `Verif.Props.c11_no_fence` | Classical.choice, Quot.sound, propext |
| C12 | `Verif.Props.c12_followed_by_space` | Classical.choice, Quot.sound, propext |
| C12 | `Verif.Props.c12_no_emphasis_partial` | Classical.choice, Quot.sound, propext |
| C12 | `Verif.Props.c12_fails` | propext |
| C13 | `Verif.Props.c13_reads_back` | Classical.choice, Quot.sound, propext |
| C13 | `Verif.Props.c13_backslash_escaped` | Classical.choice, Quot.sound, propext |
| C14 | `Verif.Props.c14_no_code_span_partial` | Classical.choice, Quot.sound, propext |
| C14 | `Verif.Props.c14_fails` | propext |
| C15 | `Verif.Props.c15_no_link_partial` | Classical.choice, Quot.sound, propext |
| C15 | `Verif.Props.c15_fails` | propext |
| C16 | `Verif.Props.c16_no_angle` | Classical.choice, Quot.sound, propext |
| C16 | `Verif.Props.c16_decode_partial` | Quot.sound, propext |
| C16 | `Verif.Props.c16_counterexample` | none |
| C17 | `Verif.Props.c17_fence` | Classical.choice, Quot.sound, propext |
| C17 | `Verif.Props.c17_fence_blank` | Classical.choice, Quot.sound, propext |
| C18 | `Verif.Props.c18_code_span_partial` | Classical.choice, Quot.sound, propext |
| C18 | `Verif.Props.c18_counterexample` | propext |
| C19 | `Verif.Props.c19_fence` | Classical.choice, Quot.sound, propext |
| C19 | `Verif.Props.c20_survives_partial` | Classical.choice, Quot.sound, propext |
| C19 | `Verif.Props.c19_language_no_space` | Quot.sound, propext |
| C19 | `Verif.Props.c19_language_of_class` | Classical.choice, Quot.sound, propext |
| C19 | `Verif.Props.c19_counterexample_backtick` | propext |
| C19 | `Verif.Props.c19_counterexample_newline` | propext |
| C20 | `Verif.Props.c20_survives_partial` | Classical.choice, Quot.sound, propext |
| C20 | `Verif.Props.c20_counterexample_marker` | propext |
| C20 | `Verif.Props.c20_counterexample_bell` | propext |
| C21 | `Verif.Props.c21_lines_prefixed_partial` | Classical.choice, Quot.sound, propext |
| C21 | `Verif.Props.c21_blank` | Classical.choice, Quot.sound, propext |
| C21 | `Verif.Props.c21_counterexample` | propext |
| C22 | `Verif.Props.c22_delimiters` | Classical.choice, Quot.sound, propext |
| C23 | `Verif.Props.c23_surrounding_spaces` | Classical.choice, Quot.sound, propext |
| C24 | `Verif.Props.c24_title_partial` | Quot.sound, propext |
| C24 | `Verif.Props.c24_counterexample_end` | none |
| C24 | `Verif.Props.c24_counterexample_punct` | none |
| C25 | `Verif.Props.c25_no_brackets` | Classical.choice, Quot.sound, propext |
| C25 | `Verif.Props.c25_no_newline` | Classical.choice, Quot.sound, propext |
| C25 | `Verif.Props.c25_destination_partial` | Classical.choice, Quot.sound, propext |
| C25 | `Verif.Props.c25_counterexample_backslash` | propext |
| C25 | `Verif.Props.c25_counterexample_control` | propext |
| C26 | `Verif.Props.c26_same_parameters` | Quot.sound, propext |
| C26 | `Verif.Props.c26_idempotent` | Quot.sound, propext |
| C26 | `Verif.Props.c26_valid_parts` | Quot.sound, propext |
| C26 | `Verif.Props.c26_canonical` | Quot.sound, propext |
| C27 | `Verif.Props.c27_link` | Classical.choice, Quot.sound, propext |
| C27 | `Verif.Props.c27_setext_partial` | Classical.choice, Quot.sound, propext |
| C27 | `Verif.Props.c27_counterexample` | propext |
| C28 | `Verif.Props.c28_bracket_after_backslash` | Classical.choice, Quot.sound, propext |
| C28 | `Verif.Props.c28_brackets_escaped_partial` | Classical.choice, Quot.sound, propext |
| C28 | `Verif.Props.c28_reads_back_partial` | propext |
| C28 | `Verif.Props.c28_counterexample` | propext |
| C29 | `Verif.Props.c29_atx_partial` | Classical.choice, Quot.sound, propext |
| C29 | `Verif.Props.c29_level` | none |
| C29 | `Verif.Props.c29_counterexample_code` | propext |
| C30 | `Verif.Props.c30_panics_iff_partial` | Classical.choice, Quot.sound, propext |
| C30 | `Verif.Props.c30_conversion_no_panic_partial` | Classical.choice, Quot.sound, propext |
| C30 | `Verif.Props.c30_counterexample_panic` | propext |
| C30 | `Verif.Props.c30_counterexample_lost` | propext |
| C30 | `Verif.Props.c30_counterexample_conversion` | Quot.sound, propext |
| C31 | `Verif.Props.c31_no_three_newlines` | Quot.sound, propext |
| C31 | `Verif.Props.c31_visible_lines_kept` | Classical.choice, Quot.sound, propext |
| C31 | `Verif.Props.c31_sublist` | propext |
| C32 | `Verif.Props.c32_only_line_ends` | Quot.sound, propext |
| C32 | `Verif.Props.c32_sublist` | Classical.choice, Quot.sound, propext |
| C32 | `Verif.Props.c32_counterexample` | none |
| C32 | `Verif.Props.c32_counterexample_blank` | propext |
| C33 | `Verif.Props.c33_document_partial` | Classical.choice, Quot.sound, propext |
| C33 | `Verif.Props.c94_package_partial` | Classical.choice, Quot.sound, propext |
| C33 | `Verif.Props.c94_tool_partial` | Classical.choice, Quot.sound, propext |
| C33 | `Verif.Props.c33_trimmed_partial` | Classical.choice, Quot.sound, propext |
| C33 | `Verif.Props.c33_counterexample_bell` | propext |
| C33 | `Verif.Props.c33_counterexample_marker` | propext |
| C33 | `Verif.Props.c33_counterexample_document` | Quot.sound, propext |
| C34 | `Verif.Props.c34_numbers` | Classical.choice, Quot.sound, propext |
| C34 | `Verif.Props.c34_value` | Quot.sound, propext |
| C34 | `Verif.Props.c34_start` | Quot.sound, propext |
| C34 | `Verif.Props.c34_start_signed` | Quot.sound, propext |
| C34 | `Verif.Props.c34_start_too_large` | Quot.sound, propext |
| C34 | `Verif.Props.c34_start_default` | none |
| C34 | `Verif.Props.c34_counterexample_negative` | none |
| C34 | `Verif.Props.c34_counterexample_overflow` | none |
| C34 | `Verif.Props.c34_counterexample_ten_digits` | none |
| C35 | `Verif.Props.c35_items` | Classical.choice, Quot.sound, propext |
| C35 | `Verif.Props.c35_counterexample_negative` | propext |
| C36 | `Verif.Props.c36_separated` | propext |
| C36 | `Verif.Props.c36_nothing_else` | propext |
| C36 | `Verif.Props.c36_only_if_needed` | Quot.sound, propext |
| C37 | `Verif.Props.c37_items` | Classical.choice, Quot.sound, propext |
| C37 | `Verif.Props.c37_document` | Classical.choice, Quot.sound, propext |
| C37 | `Verif.Props.c37_text` | Quot.sound, propext |
| C37 | `Verif.Props.c37_counterexample_blank` | propext |
| C38 | `Verif.Props.c38_removed` | Quot.sound, propext |
| C38 | `Verif.Props.c38_base` | Quot.sound, propext |
| C39 | `Verif.Props.c39_no_nesting_partial` | Quot.sound, propext |
| C39 | `Verif.Props.c39_no_nested_links` | Quot.sound, propext |
| C39 | `Verif.Props.c39_links_document` | Quot.sound, propext |
| C39 | `Verif.Props.c39_text` | Quot.sound, propext |
| C39 | `Verif.Props.c39_counterexample_document` | Quot.sound, propext |
| C40 | `Verif.Props.c40_text_partial` | Classical.choice, Quot.sound, propext |
| C40 | `Verif.Props.c40_code_partial` | Classical.choice, Quot.sound, propext |
| C40 | `Verif.Props.c40_no_neighbours` | Classical.choice, Quot.sound, propext |
| C40 | `Verif.Props.c40_no_neighbours_code` | Classical.choice, Quot.sound, propext |
| C40 | `Verif.Props.c40_counterexample_block` | Quot.sound, propext |
| C40 | `Verif.Props.c40_counterexample_kind` | Quot.sound, propext |
| C41 | `Verif.Props.c41_no_blocks` | Quot.sound, propext |
| C41 | `Verif.Props.c41_document` | Quot.sound, propext |
| C41 | `Verif.Props.c41_text` | Quot.sound, propext |
| C41 | `Verif.Props.c41_text_exact` | Quot.sound, propext |
| C42 | `Verif.Props.c42_no_adjacent` | Quot.sound, propext |
| C42 | `Verif.Props.c42_text` | propext |
| C42 | `Verif.Props.c42_idempotent` | Quot.sound, propext |
| C43 | `Verif.Props.c43_runs` | Quot.sound, propext |
| C43 | `Verif.Props.c43_result` | Quot.sound, propext |
| C43 | `Verif.Props.c43_visible` | Quot.sound, propext |
| C44 | `Verif.Props.c44_seen` | Quot.sound, propext |
| C44 | `Verif.Props.c44_base` | Quot.sound, propext |
| C45 | `Verif.Props.c45_twice_partial` | Quot.sound, propext |
| C45 | `Verif.Props.c45_pre` | propext |
| C45 | `Verif.Props.c45_counterexample` | propext |
| C46 | `Verif.Props.c46_order` | Classical.choice, Quot.sound, propext |
| C46 | `Verif.Props.c46_ascending` | none |
| C46 | `Verif.Props.c46_order_unique` | Classical.choice, Quot.sound, propext |
| C46 | `Verif.Props.c46_conversion` | Classical.choice, Quot.sound, propext |
| C46 | `Verif.Props.c46_registered` | propext |
| C47 | `Verif.Props.c47_first_success` | propext |
| C47 | `Verif.Props.c47_fallback` | Quot.sound, propext |
| C47 | `Verif.Props.c47_in_order` | propext |
| C47 | `Verif.Props.c47_frame` | propext |
| C47 | `Verif.Props.c47_appends` | Quot.sound, propext |
| C47 | `Verif.Props.c47_renderer_for` | propext |
| C47 | `Verif.Props.c47_counterexample_leak` | Classical.choice, Quot.sound, propext |
| C48 | `Verif.Props.c48_text` | Classical.choice, Quot.sound, propext |
| C49 | `Verif.Props.c49_error_iff` | Quot.sound, propext |
| C49 | `Verif.Props.c49_error_sticks` | Quot.sound, propext |
| C49 | `Verif.Props.c49_later_failure` | Quot.sound, propext |
| C49 | `Verif.Props.c49_output_iff` | Quot.sound, propext |
| C50 | `Verif.Props.c50_tag_type` | Classical.choice, Quot.sound, propext |
| C50 | `Verif.Props.c50_read_stable` | none |
| C51 | `Verif.Props.c51_sorted_partial` | Quot.sound, propext |
| C51 | `Verif.Props.c51_one_after_the_other_partial` | Classical.choice, Quot.sound, propext |
| C51 | `Verif.Props.c51_returns_registered_partial` | Classical.choice, Quot.sound, propext |
| C51 | `Verif.Props.c51_read_only` | Quot.sound, propext |
| C51 | `Verif.Props.c51_stock` | Quot.sound, propext |
| C51 | `Verif.Props.c51_counterexample_read` | propext |
| C51 | `Verif.Props.c51_counterexample_lost` | propext |
| C52 | `Verif.Props.c52_independent` | Quot.sound, propext |
| C53 | `Verif.Props.c53_rectangular` | Quot.sound, propext |
| C53 | `Verif.Props.c53_gfm` | Classical.choice, Quot.sound, propext |
| C54 | `Verif.Props.c54_one_line` | Quot.sound, propext |
| C54 | `Verif.Props.c54_counterexample` | propext |
| C55 | `Verif.Props.c55_row_partial` | Classical.choice, Quot.sound, propext |
| C55 | `Verif.Props.c55_marked_partial` | Classical.choice, Quot.sound, propext |
| C55 | `Verif.Props.c55_text_partial` | Classical.choice, Quot.sound, propext |
| C55 | `Verif.Props.c55_counterexample` | propext |
| C56 | `Verif.Props.c56_aligned` | Classical.choice, Quot.sound, propext |
| C57 | `Verif.Props.c57_grid_partial` | Classical.choice, Quot.sound, propext |
| C57 | `Verif.Props.c57_no_spans` | Classical.choice, Quot.sound, propext |
| C57 | `Verif.Props.c57_counterexample_columns` | Classical.choice, Quot.sound, propext |
| C57 | `Verif.Props.c57_counterexample_rows` | Classical.choice, Quot.sound, propext |
| C57 | `Verif.Props.c57_counterexample_overlong` | propext |
| C58 | `Verif.Props.c58_defaults` | propext |
| C58 | `Verif.Props.c58_unset_fields` | Quot.sound, propext |
| C58 | `Verif.Props.c58_documented_accepted` | Quot.sound, propext |
| C58 | `Verif.Props.c58_enumerated` | Classical.choice, Quot.sound, propext |
| C58 | `Verif.Props.c58_accepted_partial` | Classical.choice, Quot.sound, propext |
| C58 | `Verif.Props.c58_counterexample_em` | propext |
| C58 | `Verif.Props.c58_counterexample_rule` | propext |
| C59 | `Verif.Props.c59_no_overwrite` | Classical.choice, Quot.sound, propext |
| C59 | `Verif.Props.c59_only_outputs` | Classical.choice, Quot.sound, propext |
| C60 | `Verif.Props.c60_success` | Classical.choice, Quot.sound, propext |
| C60 | `Verif.Props.c60_distinct_partial` | Quot.sound, propext |
| C60 | `Verif.Props.c60_overwrite_partial` | Classical.choice, Quot.sound, propext |
| C60 | `Verif.Props.c60_counterexample` | Quot.sound, propext |
| C60 | `Verif.Props.c60_counterexample_lost` | propext |
| C61 | `Verif.Props.c61_decision` | Quot.sound, propext |
| C61 | `Verif.Props.c61_many` | Quot.sound, propext |
| C61 | `Verif.Props.c61_stdout` | Classical.choice, Quot.sound, propext |
| C62 | `Verif.Props.c62_accept_iff` | Classical.choice, Quot.sound, propext |
| C62 | `Verif.Props.c62_reading_unique` | propext |
| C62 | `Verif.Props.c62_settings` | Classical.choice, Quot.sound, propext |
| C62 | `Verif.Props.c62_rejected` | Classical.choice, Quot.sound, propext |
| C62 | `Verif.Props.c62_values` | Classical.choice, Quot.sound, propext |
| C62 | `Verif.Props.c62_counterexample` | propext |
| C63 | `Verif.Props.c63_exclude_partial` | Classical.choice, Quot.sound, propext |
| C63 | `Verif.Props.c63_nothing_left_partial` | propext |
| C63 | `Verif.Props.c63_include_nodes` | propext |
| C63 | `Verif.Props.c63_include_whole_partial` | Classical.choice, Quot.sound, propext |
| C63 | `Verif.Props.c63_include_texts_partial` | Classical.choice, Quot.sound, propext |
| C63 | `Verif.Props.c63_both_partial` | propext |
| C63 | `Verif.Props.c63_no_selectors` | none |
| C63 | `Verif.Props.c63_counterexample_cascade` | propext |
| C63 | `Verif.Props.c63_counterexample_left` | propext |
| C63 | `Verif.Props.c63_counterexample_nested` | propext |
| C64 | `Verif.Props.c64_visible_text_partial` | Classical.choice, Quot.sound, propext |
| C64 | `Verif.Props.c64_visible_text_any_order_partial` | Classical.choice, Quot.sound, propext |
| C64 | `Verif.Props.c64_counterexample_disabled` | Quot.sound, propext |
| C64 | `Verif.Props.c64_counterexample_caption` | Classical.choice, Quot.sound, propext |
| C64 | `Verif.Props.c64_counterexample_caption2` | Quot.sound, propext |
| C64 | `Verif.Props.demoPage_ok` | propext |
| C64 | `Verif.Props.demoPage_converted` | Quot.sound, propext |
| C64 | `Verif.Props.tablePage_ok` | propext |
| C64 | `Verif.Props.tablePage_converted` | Quot.sound, propext |
| C64 | `Verif.Props.tablePage_topDown` | Quot.sound, propext |
| C65 | `Verif.Props.c65_no_markers` | Quot.sound, propext |
| C65 | `Verif.Props.c65_document` | Quot.sound, propext |
| C66 | `Verif.Props.c66_interrupted_partial` | Classical.choice, Quot.sound, propext |
| C66 | `Verif.Props.c66_counterexample` | propext |
| C67 | `Verif.Props.c67_alignment` | Quot.sound, propext |
| C68 | `Verif.Props.c68_skip_empty` | Quot.sound, propext |
| C68 | `Verif.Props.c68_promotion` | Classical.choice, Quot.sound, propext |
| C69 | `Verif.Props.c69_skipped_iff` | Classical.choice, Quot.sound, propext |
| C69 | `Verif.Props.c69_link_partial` | Classical.choice, Quot.sound, propext |
| C69 | `Verif.Props.c69_text_partial` | Classical.choice, Quot.sound, propext |
| C69 | `Verif.Props.c69_counterexample_newline` | propext |
| C69 | `Verif.Props.c69_image_skipped_iff` | Classical.choice, Quot.sound, propext |
| C69 | `Verif.Props.c69_image_partial` | Classical.choice, Quot.sound, propext |
| C70 | `Verif.Props.c70_text` | Classical.choice, Quot.sound, propext |
| C71 | `Verif.Props.c71_resolved` | Classical.choice, Quot.sound, propext |
| C71 | `Verif.Props.c71_no_domain` | Quot.sound, propext |
| C71 | `Verif.Props.c71_absolute` | Classical.choice, Quot.sound, propext |
| C71 | `Verif.Props.c71_kept` | Quot.sound, propext |
| C72 | `Verif.Props.c72_caption` | Classical.choice, Quot.sound, propext |
| C73 | `Verif.Props.c73_flow_partial` | Quot.sound, propext |
| C73 | `Verif.Props.c73_base_partial` | Quot.sound, propext |
| C73 | `Verif.Props.c73_counterexample` | propext |
| C74 | `Verif.Props.c74_spans` | Quot.sound, propext |
| C75 | `Verif.Props.c75_before` | Classical.choice, Quot.sound, propext |
| C75 | `Verif.Props.c75_after` | Classical.choice, Quot.sound, propext |
| C75 | `Verif.Props.c75_only` | Classical.choice, Quot.sound, propext |
| C76 | `Verif.Props.c76_rows_once` | Classical.choice, Quot.sound, propext |
| C76 | `Verif.Props.c76_rows_in_order` | Classical.choice, Quot.sound, propext |
| C76 | `Verif.Props.c76_other_rows` | Quot.sound, propext |
| C76 | `Verif.Props.c76_header_thead` | Quot.sound, propext |
| C76 | `Verif.Props.c76_header_th` | Classical.choice, Quot.sound, propext |
| C76 | `Verif.Props.c76_no_header` | Classical.choice, Quot.sound, propext |
| C76 | `Verif.Props.c76_markdown_table` | Classical.choice, Quot.sound, propext |
| C77 | `Verif.Props.c77_fallback` | Classical.choice, Quot.sound, propext |
| C77 | `Verif.Props.c77_row` | Quot.sound, propext |
| C77 | `Verif.Props.c77_inside` | Quot.sound, propext |
| C78 | `Verif.Props.c78_text` | Classical.choice, Quot.sound, propext |
| C78 | `Verif.Props.c78_no_nesting` | Classical.choice, Quot.sound, propext |
| C78 | `Verif.Props.c78_no_neighbours` | Classical.choice, Quot.sound, propext |
| C79 | `Verif.Props.c79_tilde_followed_by_space_partial` | Classical.choice, Quot.sound, propext |
| C79 | `Verif.Props.c79_no_deletion_partial` | Classical.choice, Quot.sound, propext |
| C79 | `Verif.Props.c79_fails` | propext |
| C79 | `Verif.Props.c79_document` | propext |
| C80 | `Verif.Props.c80_bold` | Classical.choice, Quot.sound, propext |
| C80 | `Verif.Props.c80_italic` | Classical.choice, Quot.sound, propext |
| C80 | `Verif.Props.c80_deleted` | Classical.choice, Quot.sound, propext |
| C81 | `Verif.Props.c81_local` | Classical.choice, Quot.sound, propext |
| C81 | `Verif.Props.c81_needs_blank_line` | propext |
| C82 | `Verif.Props.c82_page_partial` | Classical.choice, Quot.sound, propext |
| C82 | `Verif.Props.c82_package_partial` | Classical.choice, Quot.sound, propext |
| C82 | `Verif.Props.c82_tool_partial` | Classical.choice, Quot.sound, propext |
| C82 | `Verif.Props.c82_document_partial` | Classical.choice, Quot.sound, propext |
| C82 | `Verif.Props.c82_package_document_partial` | Classical.choice, Quot.sound, propext |
| C82 | `Verif.Props.c82_tool_document_partial` | Classical.choice, Quot.sound, propext |
| C82 | `Verif.Props.pageEnv_ok` | Quot.sound, propext |
| C82 | `Verif.Props.pageLib_ok` | Quot.sound, propext |
| C82 | `Verif.Props.samplePage_ok` | Quot.sound, propext |
| C82 | `Verif.Props.c82_counterexample_bullets` | Quot.sound, propext |
| C82 | `Verif.Props.c82_counterexample_heading` | Quot.sound, propext |
| C82 | `Verif.Props.c82_counterexample_list` | Quot.sound, propext |
| C82 | `Verif.Props.c82_counterexample_rule` | Quot.sound, propext |
| C82 | `Verif.Props.c82_counterexample_number` | Quot.sound, propext |
| C82 | `Verif.Props.c82_counterexample_fence` | Quot.sound, propext |
| C82 | `Verif.Props.c82_counterexample_entity` | Quot.sound, propext |
| C82 | `Verif.Props.c82_counterexample_quote` | Quot.sound, propext |
| C82 | `Verif.Props.c82_counterexample_quoted_code` | Quot.sound, propext |
| C82 | `Verif.Props.c82_counterexample_empty_quote` | Quot.sound, propext |
| C82 | `Verif.Props.c82_counterexample_link_style` | Quot.sound, propext |
| C82 | `Verif.Props.c82_counterexample_emphasis` | Quot.sound, propext |
| C82 | `Verif.Props.c82_counterexample_delimiter` | Quot.sound, propext |
| C82 | `Verif.Props.c82_counterexample_flanking` | Quot.sound, propext |
| C82 | `Verif.Props.c82_counterexample_word` | Quot.sound, propext |
| C82 | `Verif.Props.c82_counterexample_adjacent` | Quot.sound, propext |
| C82 | `Verif.Props.c82_counterexample_bold_code` | Quot.sound, propext |
| C82 | `Verif.Props.c82_counterexample_bold_link` | Quot.sound, propext |
| C82 | `Verif.Props.c82_counterexample_twice` | Quot.sound, propext |
| C82 | `Verif.Props.c82_title_in_heading_counterexample` | Quot.sound, propext |
| C83 | `Verif.Props.c83_engine` | Classical.choice, Quot.sound, propext |
| C83 | `Verif.Props.c83_default_converter` | Quot.sound, propext |
| C83 | `Verif.Props.c83_default` | Classical.choice, Quot.sound, propext |
| C83 | `Verif.Props.c83_history` | Classical.choice, Quot.sound, propext |
| C83 | `Verif.Props.c83_any_order` | Classical.choice, Quot.sound, propext |
| C83 | `Verif.Props.c83_counterexample_order` | Classical.choice, Quot.sound, propext |
| C84 | `Verif.Props.c84_settings` | propext |
| C84 | `Verif.Props.c84_unknown` | Classical.choice, Quot.sound, propext |
| C84 | `Verif.Props.c84_rejected` | Classical.choice, Quot.sound, propext |
| C85 | `Verif.Props.c85_conversion` | Classical.choice, Quot.sound, propext |
| C85 | `Verif.Props.c85_total` | Classical.choice, Quot.sound, propext |
| C85 | `Verif.Props.c85_rejected` | Classical.choice, Quot.sound, propext |
| C85 | `Verif.Props.c85_run` | Classical.choice, Quot.sound, propext |
| C85 | `Verif.Props.c85_run_file` | Classical.choice, Quot.sound, propext |
| C86 | `Verif.Props.c86_exit` | Classical.choice, Quot.sound, propext |
| C86 | `Verif.Props.c86_success` | propext |
| C86 | `Verif.Props.c86_help` | Classical.choice, Quot.sound, propext |
| C86 | `Verif.Props.c86_version` | propext |
| C86 | `Verif.Props.c86_suggestion` | Quot.sound, propext |
| C86 | `Verif.Props.c86_unknown` | Classical.choice, Quot.sound, propext |
| C87 | `Verif.Props.c87_other_tags` | Classical.choice, Quot.sound, propext |
| C87 | `Verif.Props.c87_history` | Classical.choice, Quot.sound, propext |
| C87 | `Verif.Props.c87_counterexample_made` | Classical.choice, Quot.sound, propext |
| C88 | `Verif.Props.c88_underline` | Classical.choice, Quot.sound, propext |
| C88 | `Verif.Props.c88_text` | Classical.choice, Quot.sound, propext |
| C89 | `Verif.Props.c89_package` | Classical.choice, Quot.sound, propext |
| C89 | `Verif.Props.c89_tool` | Classical.choice, Quot.sound, propext |
| C89 | `Verif.Props.c89_tool_file` | Classical.choice, Quot.sound, propext |
| C90 | `Verif.Props.c90_last_option` | Quot.sound, propext |
| C90 | `Verif.Props.c90_agree` | propext |
| C90 | `Verif.Props.c90_parse_error` | propext |
| C90 | `Verif.Props.c90_error_or_output` | Classical.choice, Quot.sound, propext |
| C90 | `Verif.Props.c90_package` | Classical.choice, Quot.sound, propext |
| C91 | `Verif.Props.c91_html` | Classical.choice, Quot.sound, propext |
| C91 | `Verif.Props.c91_wrapper` | Classical.choice, Quot.sound, propext |
| C91 | `Verif.Props.c91_plaintext` | Classical.choice, Quot.sound, propext |
| C91 | `Verif.Props.c91_counterexample_newlines` | Classical.choice, Quot.sound, propext |
| C92 | `Verif.Props.c92_value_reaches` | Classical.choice, Quot.sound, propext |
| C92 | `Verif.Props.c92_stock` | Quot.sound, propext |
| C93 | `Verif.Props.c93_code` | Quot.sound, propext |
| C93 | `Verif.Props.c93_language` | Quot.sound, propext |
| C93 | `Verif.Props.c93_block_partial` | Classical.choice, Quot.sound, propext |
| C93 | `Verif.Props.c93_inline_partial` | Classical.choice, Quot.sound, propext |
| C94 | `Verif.Props.c94_one_blank_line_partial` | Classical.choice, Quot.sound, propext |
| C94 | `Verif.Props.c94_package_partial` | Classical.choice, Quot.sound, propext |
| C94 | `Verif.Props.c94_tool_partial` | Classical.choice, Quot.sound, propext |
| C94 | `Verif.Props.c94_counterexample_bell` | Quot.sound, propext |
| C94 | `Verif.Props.blankPage_converted` | Quot.sound, propext |
| C95 | `Verif.Props.c54_newlines` | Classical.choice, Quot.sound, propext |
| C96 | `Verif.Props.c60_names` | Quot.sound, propext |
| C97 | `Verif.Props.c97_size` | Classical.choice, Quot.sound, propext |
| C97 | `Verif.Props.c97_size_tables` | Classical.choice, Quot.sound, propext |
| C97 | `Verif.Props.c97_package` | Classical.choice, Quot.sound, propext |
| C97 | `Verif.Props.c97_tool` | Classical.choice, Quot.sound, propext |
| C97 | `Verif.Props.c97_spans` | Classical.choice, Quot.sound, propext |
| C98 | `Verif.Props.c98_same_meaning` | Classical.choice, Quot.sound, propext |
| C98 | `Verif.Props.c98_attributes` | Classical.choice, Quot.sound, propext |
| C98 | `Verif.Props.c98_package` | Classical.choice, Quot.sound, propext |
| C98 | `Verif.Props.c98_tool` | Classical.choice, Quot.sound, propext |
| C98 | `Verif.Props.c98_code_is_not_kbd` | Quot.sound, propext |
| C99 | `Verif.Props.c99_looks_same` | Quot.sound, propext |
| C99 | `Verif.Props.c99_looks_same_node` | Quot.sound, propext |
| C99 | `Verif.Props.c99_doctype` | Classical.choice, Quot.sound, propext |
| C99 | `Verif.Props.c99_same_document` | Classical.choice, Quot.sound, propext |
| C99 | `Verif.Props.c99_package` | Classical.choice, Quot.sound, propext |
| C99 | `Verif.Props.c99_tool` | Classical.choice, Quot.sound, propext |
