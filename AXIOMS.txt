'Cddlc.C01_scan_returns' depends on axioms: [propext, Classical.choice, Quot.sound]
'Cddlc.C01_bound' depends on axioms: [propext, Classical.choice, Quot.sound]
'Cddlc.C01_reaches_eof' depends on axioms: [propext, Classical.choice, Quot.sound]
'Cddlc.C02_malformed_no_eof' depends on axioms: [propext, Classical.choice, Quot.sound]
'Cddlc.C02_no_tree' depends on axioms: [propext, Classical.choice, Quot.sound]
'Cddlc.C02_nil_nil' depends on axioms: [propext, Quot.sound]
'Cddlc.C03_eof_absorbing' depends on axioms: [propext, Classical.choice, Quot.sound]
'Cddlc.C04_positions' depends on axioms: [propext, Classical.choice, Quot.sound]
'Cddlc.C06_literal' depends on axioms: [propext, Classical.choice, Quot.sound]
'Cddlc.C04_offset_refuted_malformed' depends on axioms: [propext]
'Cddlc.C05_lossless' depends on axioms: [propext, Classical.choice, Quot.sound]
'Cddlc.C06_literal' depends on axioms: [propext, Classical.choice, Quot.sound]
'Cddlc.C06_unterminated_loses_byte' depends on axioms: [propext]
'Cddlc.C07_maximal' depends on axioms: [propext, Classical.choice, Quot.sound]
'Cddlc.C08_spellings_distinct' does not depend on any axioms
'Cddlc.C08_lookup' depends on axioms: [propext, Quot.sound]
'Cddlc.C08_words' depends on axioms: [propext, Classical.choice, Quot.sound]
'Cddlc.C09_panics_iff' depends on axioms: [propext, Classical.choice, Quot.sound]
'Cddlc.C10_count' depends on axioms: [propext, Classical.choice, Quot.sound]
'Cddlc.C10_errors' depends on axioms: [propext, Classical.choice, Quot.sound]
'Cddlc.C11_caller_bytes' depends on axioms: [propext, Quot.sound]
'Cddlc.C11_overwrites_spare_capacity' depends on axioms: [propext]
'Cddlc.C12_scan_rendered' depends on axioms: [propext, Classical.choice, Quot.sound]
'Cddlc.C13_offsets' depends on axioms: [propext, Classical.choice, Quot.sound]
'Cddlc.C14_write_once' depends on axioms: [propext, Quot.sound]
'Cddlc.C15_terminates' depends on axioms: [propext, Classical.choice, Quot.sound]
'Cddlc.C16_refuted' depends on axioms: [propext, Classical.choice, Quot.sound]
'Cddlc.C16_returns_partial' depends on axioms: [propext, Classical.choice, Quot.sound]
'Cddlc.C16_grammatical_partial' depends on axioms: [propext, Classical.choice, Quot.sound]
'Cddlc.C17_references' depends on axioms: [propext, Classical.choice, Quot.sound]
'Cddlc.C17_no_dangling' depends on axioms: [propext, Classical.choice, Quot.sound]
'Cddlc.C18_duplicates' depends on axioms: [propext, Classical.choice, Quot.sound]
'Cddlc.C18_distinct' depends on axioms: [propext, Classical.choice, Quot.sound]
'Cddlc.C19_environment' depends on axioms: [propext, Classical.choice, Quot.sound]
'Cddlc.C20_returned' depends on axioms: [propext, Classical.choice, Quot.sound]
'Cddlc.C20_order' depends on axioms: [propext, Classical.choice, Quot.sound]
'Cddlc.C21_no_tree' depends on axioms: [propext, Classical.choice, Quot.sound]
'Cddlc.C21_immediate' depends on axioms: [propext, Quot.sound]
'Cddlc.C22_refuted' depends on axioms: [propext, Classical.choice, Quot.sound]
'Cddlc.C22_first_two_partial' depends on axioms: [propext, Quot.sound]
'Cddlc.C22_exact_partial' depends on axioms: [propext, Classical.choice, Quot.sound]
'Cddlc.C23_schema_read_back' depends on axioms: [propext, Classical.choice, Quot.sound]
'Cddlc.C23_plain_schema_read_back' depends on axioms: [propext, Classical.choice, Quot.sound]
'Cddlc.C23_no_errors' depends on axioms: [propext, Classical.choice, Quot.sound]
'Cddlc.C23_rule_read_back' depends on axioms: [propext, Classical.choice, Quot.sound]
'Cddlc.C24_value_kept' depends on axioms: [propext, Classical.choice, Quot.sound]
'Cddlc.C24_too_large_rejected' depends on axioms: [propext, Classical.choice, Quot.sound]
'Cddlc.C25_alternatives_in_order' depends on axioms: [propext, Classical.choice, Quot.sound]
'Cddlc.C26_refuted' depends on axioms: [propext, Quot.sound]
'Cddlc.C26_comments_partial' depends on axioms: [propext, Classical.choice, Quot.sound]
'Cddlc.C26_removed_partial' depends on axioms: [propext, Classical.choice, Quot.sound]
'Cddlc.C26_added_partial' depends on axioms: [propext, Classical.choice, Quot.sound]
'Cddlc.C27_refuted' depends on axioms: [propext, Classical.choice, Quot.sound]
'Cddlc.C27_lower_bound_partial' depends on axioms: [propext, Classical.choice, Quot.sound]
'Cddlc.C28_refuted' depends on axioms: [propext, Classical.choice, Quot.sound]
'Cddlc.C28_kept_entries_partial' depends on axioms: [propext, Classical.choice, Quot.sound]
'Cddlc.C29_tags' depends on axioms: [propext, Classical.choice, Quot.sound]
'Cddlc.C29_missing_paren_refuted' depends on axioms: [propext, Quot.sound]
'Cddlc.C30_ends_kept_partial' depends on axioms: [propext, Classical.choice, Quot.sound]
'Cddlc.C30_mixed_rejected' depends on axioms: [propext, Classical.choice, Quot.sound]
'Cddlc.C30_refuted' depends on axioms: [propext, Classical.choice, Quot.sound]
'Cddlc.C31_size_base' depends on axioms: [propext, Classical.choice, Quot.sound]
'Cddlc.C31_operands_kept' depends on axioms: [propext, Classical.choice, Quot.sound]
'Cddlc.C32_refuted' depends on axioms: [propext, Classical.choice, Quot.sound]
'Cddlc.C32_right_partial' depends on axioms: [propext, Classical.choice, Quot.sound]
'Cddlc.C32_right_as_written_partial' depends on axioms: [propext, Classical.choice, Quot.sound]
'Cddlc.C33_positions' depends on axioms: [propext, Classical.choice, Quot.sound]
'Cddlc.C33_rendered' depends on axioms: [propext, Classical.choice, Quot.sound]
'Cddlc.C34_only_assign' depends on axioms: [propext, Classical.choice, Quot.sound]
'Cddlc.C35_preorder' depends on axioms: [propext, Quot.sound]
'Cddlc.C36_calls' depends on axioms: [propext, Quot.sound]
'Cddlc.C36_pruned' depends on axioms: [propext, Quot.sound]
'Cddlc.C37_panics_iff' depends on axioms: [propext, Quot.sound]
'Cddlc.C37_panics_unknown' depends on axioms: [propext, Quot.sound]
'Cddlc.C37_parsed' depends on axioms: [propext, Classical.choice, Quot.sound]
'Cddlc.C38_level_restored' depends on axioms: [propext, Classical.choice, Quot.sound]
'Cddlc.C38_level_only_tabs' depends on axioms: [propext, Classical.choice, Quot.sound]
'Cddlc.C38_panics_iff' depends on axioms: [propext, Classical.choice, Quot.sound]
'Cddlc.C38_parsed' depends on axioms: [propext, Classical.choice, Quot.sound]
'Cddlc.C39_declarations' depends on axioms: [propext, Classical.choice, Quot.sound]
'Cddlc.C39_generated' depends on axioms: [propext, Classical.choice, Quot.sound]
'Cddlc.C40_panics_iff' depends on axioms: [propext, Classical.choice, Quot.sound]
'Cddlc.C40_unsupported' depends on axioms: [propext, Classical.choice, Quot.sound]
'Cddlc.C41_valid_returns_nil' depends on axioms: [propext, Classical.choice, Quot.sound]
'Cddlc.C42_checks' depends on axioms: [propext, Classical.choice, Quot.sound]
'Cddlc.C43_structs' depends on axioms: [propext, Classical.choice, Quot.sound]
'Cddlc.C44_imports' depends on axioms: [propext, Classical.choice, Quot.sound]
'Cddlc.C45_identifier_partial' depends on axioms: [propext, Classical.choice, Quot.sound]
'Cddlc.C45_refuted' depends on axioms: [propext, Classical.choice, Quot.sound]
'Cddlc.C45_refuted_source' depends on axioms: [propext, Quot.sound]
'Cddlc.C45_sockets_collide' depends on axioms: [propext, Quot.sound]
'Cddlc.C46_repeatable_partial' depends on axioms: [propext, Quot.sound]
'Cddlc.C46_refuted' depends on axioms: [propext, Quot.sound]
'Cddlc.C46_imports_lost' depends on axioms: [propext, Quot.sound]
'Cddlc.C47_integers' depends on axioms: [propext]
'Cddlc.C47_exclusive_inclusive' depends on axioms: [propext, Classical.choice, Quot.sound]
'Cddlc.C47_floats' depends on axioms: [propext, Classical.choice, Quot.sound]
'Cddlc.C47_trichotomy' depends on axioms: [propext, Quot.sound]
'Cddlc.C48_content_ignored' does not depend on any axioms
'Cddlc.C48_texts' does not depend on any axioms
'Cddlc.C48_not_length' depends on axioms: [propext]
'Cddlc.C48_panics_iff' depends on axioms: [propext]
'Cddlc.C49_first_match' depends on axioms: [propext, Quot.sound]
'Cddlc.C49_hidden' depends on axioms: [propext, Quot.sound]
'Cddlc.C49_generate' depends on axioms: [propext, Quot.sound]
'Cddlc.C50_outputs_only' depends on axioms: [propext, Quot.sound]
'Cddlc.C50_files' depends on axioms: [propext, Quot.sound]
'Cddlc.C50_links' depends on axioms: [propext, Classical.choice, Quot.sound]
'Cddlc.C51_refuted' depends on axioms: [propext, Classical.choice, Quot.sound]
'Cddlc.C51_contents' depends on axioms: [propext, Classical.choice, Quot.sound]
'Cddlc.C51_always' depends on axioms: [propext, Classical.choice, Quot.sound]
'Cddlc.C52_in_order' depends on axioms: [propext, Classical.choice, Quot.sound]
'Cddlc.C53_only_adds' depends on axioms: [propext, Quot.sound]
'Cddlc.C53_exists' depends on axioms: [propext]
'Cddlc.C53_together' depends on axioms: [propext, Quot.sound]
'Cddlc.C54_first_bad' does not depend on any axioms
'Cddlc.C54_accepts' does not depend on any axioms
'Cddlc.C55_to' depends on axioms: [propext, Quot.sound]
'Cddlc.C56_again' depends on axioms: [propext, Classical.choice, Quot.sound]
'Cddlc.C57_order' depends on axioms: [propext, Classical.choice, Quot.sound]
'Cddlc.C58_session' depends on axioms: [propext, Classical.choice, Quot.sound]
'Cddlc.C58_first_declaration' depends on axioms: [propext, Classical.choice, Quot.sound]
'Cddlc.C59_made_of_tokens' depends on axioms: [propext, Classical.choice, Quot.sound]
'Cddlc.C60_lex' depends on axioms: [propext, Classical.choice, Quot.sound]
'Cddlc.C60_returns' depends on axioms: [propext, Classical.choice, Quot.sound]
'Cddlc.C61_refuted' depends on axioms: [propext, Classical.choice, Quot.sound]
'Cddlc.C61_parse_partial' depends on axioms: [propext, Classical.choice, Quot.sound]
'Cddlc.C61_not_deep' depends on axioms: [propext, Classical.choice, Quot.sound]
'Cddlc.C61_few_tokens' depends on axioms: [propext, Classical.choice, Quot.sound]
'Cddlc.C61_short' depends on axioms: [propext, Classical.choice, Quot.sound]
'Cddlc.C62_receiver_partial' depends on axioms: [propext, Classical.choice, Quot.sound]
'Cddlc.C62_refuted' depends on axioms: [propext, Classical.choice, Quot.sound]
'Cddlc.C63_refuted' depends on axioms: [propext, Classical.choice, Quot.sound]
'Cddlc.C64_closed_partial' depends on axioms: [propext, Classical.choice, Quot.sound]
'Cddlc.C64_refuted' depends on axioms: [propext, Quot.sound]
'Cddlc.C65_receiver_type_partial' depends on axioms: [propext, Classical.choice, Quot.sound]
'Cddlc.C65_refuted' depends on axioms: [propext, Quot.sound]
'Cddlc.C66_types_partial' depends on axioms: [propext, Classical.choice, Quot.sound]
'Cddlc.C66_refuted' depends on axioms: [propext, Quot.sound]
'Cddlc.C67_distinct_partial' depends on axioms: [propext, Classical.choice, Quot.sound]
'Cddlc.C67_refuted' depends on axioms: [propext, Quot.sound]
'Cddlc.C68_self_partial' depends on axioms: [propext, Classical.choice, Quot.sound]
'Cddlc.C68_refuted' depends on axioms: [propext, Quot.sound]
'Cddlc.C69_refuted' does not depend on any axioms
'Cddlc.C70_refuted' depends on axioms: [propext, Classical.choice, Quot.sound]
'Cddlc.C70_refuted_print' depends on axioms: [propext, Classical.choice, Quot.sound]
'Cddlc.C70_complete_partial' depends on axioms: [propext, Classical.choice, Quot.sound]
'Cddlc.C71_refuted' depends on axioms: [propext, Quot.sound]
'Cddlc.C71_never_checked' depends on axioms: [propext, Quot.sound]
'Cddlc.C72_refuted' depends on axioms: [propext, Quot.sound]
'Cddlc.C72_panics_partial' depends on axioms: [propext, Classical.choice, Quot.sound]
'Cddlc.C73_refuted' depends on axioms: [propext, Classical.choice, Quot.sound]
'Cddlc.C73_package_partial' depends on axioms: [propext, Classical.choice, Quot.sound]
'Cddlc.C74_refuted' depends on axioms: [propext]
'Cddlc.C74_header_partial' depends on axioms: [propext, Quot.sound]
'Cddlc.C75_refuted' depends on axioms: [propext, Quot.sound]
'Cddlc.C75_not_json' depends on axioms: [propext, Classical.choice, Quot.sound]
'Cddlc.C75_alone_partial' depends on axioms: [propext, Quot.sound]
'Cddlc.C76_tree' depends on axioms: [propext, Classical.choice, Quot.sound]
'Cddlc.C76_session' depends on axioms: [propext, Classical.choice, Quot.sound]
'Cddlc.C77_refuted' depends on axioms: [propext, Quot.sound]
'Cddlc.C77_panics_iff' depends on axioms: [propext, Classical.choice, Quot.sound]
'Cddlc.C77_returns_partial' depends on axioms: [propext, Classical.choice, Quot.sound]
'Cddlc.C78_tokens' depends on axioms: [propext, Quot.sound]
'Cddlc.C78_lexemes' depends on axioms: [propext, Classical.choice, Quot.sound]
'Cddlc.C78_layout' depends on axioms: [propext, Classical.choice, Quot.sound]
'Cddlc.C79_same_code' depends on axioms: [propext, Classical.choice, Quot.sound]
'Cddlc.C79_same_run' depends on axioms: [propext, Classical.choice, Quot.sound]
'Cddlc.C80_fields_partial' depends on axioms: [propext, Classical.choice, Quot.sound]
'Cddlc.C80_refuted' depends on axioms: [propext, Quot.sound]
'Cddlc.C81_recursive' depends on axioms: [propext, Classical.choice, Quot.sound]
'Cddlc.C81_finite_partial' depends on axioms: [propext, Classical.choice, Quot.sound]
'Cddlc.C81_refuted' depends on axioms: [propext, Quot.sound]
'Cddlc.C82_keys_partial' depends on axioms: [propext, Classical.choice, Quot.sound]
'Cddlc.C82_refuted' depends on axioms: [propext, Quot.sound]
'Cddlc.C83_order' depends on axioms: [propext, Classical.choice, Quot.sound]
'Cddlc.C83_code' depends on axioms: [propext, Classical.choice, Quot.sound]
'Cddlc.C83_schema_code' depends on axioms: [propext, Classical.choice, Quot.sound]
'Cddlc.C84_truth' depends on axioms: [propext, Classical.choice, Quot.sound]
'Cddlc.C84_first' depends on axioms: [propext, Classical.choice, Quot.sound]
'Cddlc.C84_place' depends on axioms: [propext, Classical.choice, Quot.sound]
'Cddlc.C84_shown' depends on axioms: [propext, Classical.choice, Quot.sound]
'Cddlc.C84_never' depends on axioms: [propext, Classical.choice, Quot.sound]
'Cddlc.C84_operator' depends on axioms: [propext, Classical.choice, Quot.sound]
'Cddlc.C85_leaves_partial' depends on axioms: [propext, Classical.choice, Quot.sound]
'Cddlc.C85_panics' depends on axioms: [propext, Classical.choice, Quot.sound]
'Cddlc.C85_refuted' depends on axioms: [propext, Quot.sound]
'Cddlc.C86_generates' depends on axioms: [propext, Classical.choice, Quot.sound]
'Cddlc.C87_again' depends on axioms: [propext, Classical.choice, Quot.sound]
'Cddlc.C87_fails' depends on axioms: [propext, Classical.choice, Quot.sound]
'Cddlc.C88_init_generate' depends on axioms: [propext, Classical.choice, Quot.sound]
'Cddlc.C88_used' depends on axioms: [propext, Classical.choice, Quot.sound]
'Cddlc.C88_hidden' depends on axioms: [propext, Classical.choice, Quot.sound]
'Cddlc.C89_valid_json' depends on axioms: [propext, Classical.choice, Quot.sound]
'Cddlc.C90_refuted' depends on axioms: [propext, Classical.choice, Quot.sound]
'Cddlc.C90_read_back_partial' depends on axioms: [propext, Classical.choice, Quot.sound]
'Cddlc.C90_same_tree_partial' depends on axioms: [propext, Classical.choice, Quot.sound]
'Cddlc.C91_text' depends on axioms: [propext, Classical.choice, Quot.sound]
'Cddlc.C91_default' depends on axioms: [propext, Classical.choice, Quot.sound]
'Cddlc.C92_together' depends on axioms: [propext, Classical.choice, Quot.sound]
'Cddlc.C93_refuted' depends on axioms: [propext, Classical.choice, Quot.sound]
'Cddlc.C93_last_partial' depends on axioms: [propext, Classical.choice, Quot.sound]
'Cddlc.C94_tokens' depends on axioms: [propext, Classical.choice, Quot.sound]
'Cddlc.C94_bytes' depends on axioms: [propext, Classical.choice, Quot.sound]
'Cddlc.C95_lex' depends on axioms: [propext, Classical.choice, Quot.sound]
'Cddlc.C95_lex_unique' depends on axioms: [propext, Classical.choice, Quot.sound]
'Cddlc.C95_lex_exits' depends on axioms: [propext, Classical.choice, Quot.sound]
'Cddlc.C95_lex_stuck' depends on axioms: [propext, Classical.choice, Quot.sound]
'Cddlc.C95_parse' depends on axioms: [propext, Classical.choice, Quot.sound]
'Cddlc.C95_parse_unique' depends on axioms: [propext, Quot.sound]
'Cddlc.C95_parse_exits' depends on axioms: [propext, Classical.choice, Quot.sound]
'Cddlc.C96_refuted' depends on axioms: [propext, Classical.choice, Quot.sound]
'Cddlc.C96_stderr_partial' depends on axioms: [propext, Classical.choice, Quot.sound]
'Cddlc.C97_printed_tokens' depends on axioms: [propext, Classical.choice, Quot.sound]
'Cddlc.C98_sentence' depends on axioms: [propext, Classical.choice, Quot.sound]
'Cddlc.C99_refuted' depends on axioms: [propext, Classical.choice, Quot.sound]
'Cddlc.C99_matched_partial' depends on axioms: [propext, Classical.choice, Quot.sound]
'Cddlc.C99_exceptions_partial' depends on axioms: [propext, Classical.choice, Quot.sound]
'Cddlc.C100_unsupported' depends on axioms: [propext, Classical.choice, Quot.sound]
'Cddlc.C101_items_before' depends on axioms: [propext, Classical.choice, Quot.sound]
'Cddlc.C101_later_lines' depends on axioms: [propext, Classical.choice, Quot.sound]
'Cddlc.C102_concurrent' depends on axioms: [propext, Classical.choice, Quot.sound]
'Cddlc.C102_ends' depends on axioms: [propext, Classical.choice, Quot.sound]
'Cddlc.C102_mixed' depends on axioms: [propext, Classical.choice, Quot.sound]
'Cddlc.C103_same_tokens' depends on axioms: [propext, Classical.choice, Quot.sound]
'Cddlc.C104_cut_string' depends on axioms: [propext, Classical.choice, Quot.sound]
'Cddlc.C105_tokens' depends on axioms: [propext, Quot.sound]
'Cddlc.C105_lexemes' depends on axioms: [propext, Classical.choice, Quot.sound]
'Cddlc.C105_rename_one' depends on axioms: [propext, Classical.choice, Quot.sound]
'Cddlc.C106_join' depends on axioms: [propext, Classical.choice, Quot.sound]
'Cddlc.C106_session' depends on axioms: [propext, Classical.choice, Quot.sound]
'Cddlc.C106_repl' depends on axioms: [propext, Classical.choice, Quot.sound]
'Cddlc.C107_order' depends on axioms: [propext, Classical.choice, Quot.sound]
'Cddlc.C108_last_line' depends on axioms: [propext, Classical.choice, Quot.sound]
'Cddlc.C109_join' depends on axioms: [propext, Classical.choice, Quot.sound]
'Cddlc.C109_order' depends on axioms: [propext, Classical.choice, Quot.sound]
'Cddlc.C110_at_most_tokens' depends on axioms: [propext, Classical.choice, Quot.sound]
'Cddlc.C111_refuted' depends on axioms: [propext, Classical.choice, Quot.sound]
'Cddlc.C111_once_partial' depends on axioms: [propext, Classical.choice, Quot.sound]
'Cddlc.C112_language' depends on axioms: [propext, Classical.choice, Quot.sound]
'Cddlc.C112_accepted' depends on axioms: [propext, Classical.choice, Quot.sound]
'Cddlc.C112_checks' depends on axioms: [propext, Classical.choice, Quot.sound]
'Cddlc.C112_unambiguous' depends on axioms: [propext, Classical.choice, Quot.sound]
'Cddlc.C113_compiles_partial' depends on axioms: [propext, Classical.choice, Quot.sound]
'Cddlc.C113_needed_partial' depends on axioms: [propext, Classical.choice, Quot.sound]
'Cddlc.C113_words_partial' depends on axioms: [propext, Classical.choice, Quot.sound]
'Cddlc.C113_refuted' depends on axioms: [propext, Classical.choice, Quot.sound]
'Cddlc.C114_redeclared' depends on axioms: [propext, Classical.choice, Quot.sound]
'Cddlc.C114_language' depends on axioms: [propext, Classical.choice, Quot.sound]
'Cddlc.C115_read_partial' depends on axioms: [propext, Classical.choice, Quot.sound]
'Cddlc.C115_commented_partial' depends on axioms: [propext, Classical.choice, Quot.sound]
'Cddlc.C115_refuted' depends on axioms: [propext, Quot.sound]
'Cddlc.C116_report' depends on axioms: [propext, Quot.sound]
'Cddlc.C116_distinct' depends on axioms: [propext, Quot.sound]
'Cddlc.C117_values_partial' depends on axioms: [propext, Classical.choice, Quot.sound]
'Cddlc.C117_held_partial' depends on axioms: [propext, Classical.choice, Quot.sound]
'Cddlc.C117_written_partial' depends on axioms: [propext, Classical.choice, Quot.sound]
'Cddlc.C117_refuted' depends on axioms: [propext, Quot.sound]
'Cddlc.C118_unused' depends on axioms: [propext, Classical.choice, Quot.sound]
'Cddlc.C118_code' depends on axioms: [propext, Classical.choice, Quot.sound]
'Cddlc.C118_tree_not_enough' depends on axioms: [propext, Quot.sound]
'Cddlc.C119_code' depends on axioms: [propext, Classical.choice, Quot.sound]
'Cddlc.C119_generates' depends on axioms: [propext, Classical.choice, Quot.sound]
'Cddlc.C119_only' depends on axioms: [propext, Classical.choice, Quot.sound]
'Cddlc.C119_every' depends on axioms: [propext, Classical.choice, Quot.sound]
'Cddlc.C120_unharmed' depends on axioms: [propext, Classical.choice, Quot.sound]
'Cddlc.C120_success' depends on axioms: [propext, Classical.choice, Quot.sound]
'Cddlc.C120_failure' depends on axioms: [propext, Classical.choice, Quot.sound]
'Cddlc.C121_order' depends on axioms: [propext, Classical.choice, Quot.sound]
'Cddlc.C121_parts' depends on axioms: [propext, Classical.choice, Quot.sound]
'Cddlc.C121_start' depends on axioms: [propext, Classical.choice, Quot.sound]
'Cddlc.C121_choice' depends on axioms: [propext, Classical.choice, Quot.sound]
'Cddlc.C121_lists' depends on axioms: [propext, Classical.choice, Quot.sound]
'Cddlc.C122_order_partial' depends on axioms: [propext, Classical.choice, Quot.sound]
'Cddlc.C122_rules_partial' depends on axioms: [propext, Classical.choice, Quot.sound]
'Cddlc.C122_names_partial' depends on axioms: [propext, Classical.choice, Quot.sound]
'Cddlc.C122_refuted' depends on axioms: [propext, Classical.choice, Quot.sound]
'Cddlc.C122_names_refuted' depends on axioms: [propext, Classical.choice, Quot.sound]
'Cddlc.C123_tokens' depends on axioms: [propext, Classical.choice, Quot.sound]
'Cddlc.C123_bytes' depends on axioms: [propext, Classical.choice, Quot.sound]
'Cddlc.C124_calls' depends on axioms: [propext, Classical.choice, Quot.sound]
'Cddlc.C124_bytes' depends on axioms: [propext, Classical.choice, Quot.sound]
'Cddlc.C125_recovery_partial' depends on axioms: [propext, Classical.choice, Quot.sound]
'Cddlc.C125_clean_partial' depends on axioms: [propext, Classical.choice, Quot.sound]
'Cddlc.C125_refuted' depends on axioms: [propext, Classical.choice, Quot.sound]
'Cddlc.C126_session_partial' depends on axioms: [propext, Classical.choice, Quot.sound]
'Cddlc.C126_refuted' depends on axioms: [propext, Classical.choice, Quot.sound]
'Cddlc.C127_parts_partial' depends on axioms: [propext, Classical.choice, Quot.sound]
'Cddlc.C127_mend_partial' depends on axioms: [propext, Classical.choice, Quot.sound]
'Cddlc.C127_refuted' depends on axioms: [propext, Classical.choice, Quot.sound]
'Cddlc.C128_order_partial' depends on axioms: [propext, Classical.choice, Quot.sound]
'Cddlc.C128_refuted' depends on axioms: [propext, Classical.choice, Quot.sound]
'Cddlc.C129_remove_partial' depends on axioms: [propext, Classical.choice, Quot.sound]
'Cddlc.C129_refuted' depends on axioms: [propext, Classical.choice, Quot.sound]
