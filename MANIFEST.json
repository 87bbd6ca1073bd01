{"claims": [
  {"property": "C01", "status": "proved", "theorems": ["Cddlc.C01_scan_returns", "Cddlc.C01_bound", "Cddlc.C01_reaches_eof"], "note": ""},
  {"property": "C02", "status": "proved", "theorems": ["Cddlc.C02_malformed_no_eof", "Cddlc.C02_no_tree", "Cddlc.C02_nil_nil"], "note": "Lexer half for every scan sequence; parser half for every run that returns."},
  {"property": "C03", "status": "proved", "theorems": ["Cddlc.C03_eof_absorbing"], "note": ""},
  {"property": "C04", "status": "proved", "theorems": ["Cddlc.C04_positions", "Cddlc.C06_literal", "Cddlc.C04_offset_refuted_malformed"], "note": "Line and column on every source; that the offset is the first byte of the token is C06_literal, on clean sources, and refuted on malformed ones."},
  {"property": "C05", "status": "proved", "theorems": ["Cddlc.C05_lossless"], "note": ""},
  {"property": "C06", "status": "proved", "theorems": ["Cddlc.C06_literal", "Cddlc.C06_unterminated_loses_byte"], "note": ""},
  {"property": "C07", "status": "proved", "theorems": ["Cddlc.C07_maximal"], "note": ""},
  {"property": "C08", "status": "proved", "theorems": ["Cddlc.C08_spellings_distinct", "Cddlc.C08_lookup", "Cddlc.C08_words"], "note": ""},
  {"property": "C09", "status": "proved", "theorems": ["Cddlc.C09_panics_iff"], "note": ""},
  {"property": "C10", "status": "proved", "theorems": ["Cddlc.C10_count", "Cddlc.C10_errors"], "note": ""},
  {"property": "C11", "status": "proved", "theorems": ["Cddlc.C11_caller_bytes", "Cddlc.C11_overwrites_spare_capacity"], "note": ""},
  {"property": "C12", "status": "proved", "theorems": ["Cddlc.C12_scan_rendered"], "note": "Any non-empty white space between the texts; a comment must be followed by a newline. The texts need not be ASCII."},
  {"property": "C13", "status": "proved", "theorems": ["Cddlc.C13_offsets"], "note": ""},
  {"property": "C14", "status": "proved", "theorems": ["Cddlc.C14_write_once"], "note": ""},
  {"property": "C15", "status": "proved", "theorems": ["Cddlc.C15_terminates"], "note": "One outcome, not divergence, for every recursion budget from the length of the source plus two on."},
  {"property": "C16", "status": "partial", "theorems": ["Cddlc.C16_refuted", "Cddlc.C16_returns_partial", "Cddlc.C16_grammatical_partial"], "note": "The full statement is false and refuted with six witnesses. C16_returns_partial: proved on the safe sources described, which may use every operator, whether they follow the grammar or not. C16_grammatical_partial: for the files of the grammar of C112, exactly when ParseFile panics: if a name is declared again that was declared first as a comparison or a range without ends (or a choice or .bits that begins with one). Missing: an exact description for sources outside the grammar, namely operands of more than one token before * and + and behind .bits."},
  {"property": "C17", "status": "proved", "theorems": ["Cddlc.C17_references", "Cddlc.C17_no_dangling"], "note": "Also with errors: every unbound reference is reported at its position."},
  {"property": "C18", "status": "proved", "theorems": ["Cddlc.C18_duplicates", "Cddlc.C18_distinct"], "note": "That the earlier binding is kept is C19_environment."},
  {"property": "C19", "status": "proved", "theorems": ["Cddlc.C19_environment"], "note": ""},
  {"property": "C20", "status": "proved", "theorems": ["Cddlc.C20_returned", "Cddlc.C20_order"], "note": "errors returned = Errors(); rule-phase diagnostics precede the deferred ones, each at a token; deferred ones are true of the final environment"},
  {"property": "C21", "status": "proved", "theorems": ["Cddlc.C21_no_tree", "Cddlc.C21_immediate"], "note": "exactly when one of the first two tokens is a cut-off string"},
  {"property": "C22", "status": "partial", "theorems": ["Cddlc.C22_refuted", "Cddlc.C22_first_two_partial", "Cddlc.C22_exact_partial"], "note": "false as stated: refuted by a = \"x; exact: there is no tree if and only if the lexer recorded an error within the first two tokens; C104 says what becomes of the later ones"},
  {"property": "C23", "status": "proved", "theorems": ["Cddlc.C23_schema_read_back", "Cddlc.C23_plain_schema_read_back", "Cddlc.C23_no_errors", "Cddlc.C23_rule_read_back"], "note": "Supported fragment: Schema.WF in Spec/Schema.lean, with comments in front of types, entries and operands (on the same line or not) and behind entries; nodes true describes what the parser keeps, nodes false what was written. Every supported schema of allowed token texts has a text (schema_has_text)."},
  {"property": "C24", "status": "proved", "theorems": ["Cddlc.C24_value_kept", "Cddlc.C24_too_large_rejected"], "note": "Rejection is proved for a rule at the end of any supported schema; that no returned integer literal differs from its spelling, anywhere, is C59. All the spellings are allowed (spellings_allowed)."},
  {"property": "C25", "status": "proved", "theorems": ["Cddlc.C25_alternatives_in_order"], "note": "Choices between any operands are supported (choices_supported)."},
  {"property": "C26", "status": "partial", "theorems": ["Cddlc.C26_refuted", "Cddlc.C26_comments_partial", "Cddlc.C26_removed_partial", "Cddlc.C26_added_partial"], "note": "False as stated, refuted with four pairs of sources. C26_removed_partial holds for every accepted source whose comments do not stand at one of the places named by Spec.Apart and Spec.NothingLost, with no bound on the shape of the rules. C26_added_partial is the converse: comments can be added to every accepted source at the places of Spec.Placed. C26_comments_partial is the same as the first for plain schemas and gives the tree itself. Missing: a comment before a closing bracket behind a field whose value holds a tag."},
  {"property": "C27", "status": "partial", "theorems": ["Cddlc.C27_refuted", "Cddlc.C27_lower_bound_partial"], "note": "False with an upper bound, for all numbers and items; proved without."},
  {"property": "C28", "status": "partial", "theorems": ["Cddlc.C28_refuted", "Cddlc.C28_kept_entries_partial"], "note": "False: entries of other kinds are lost; exactly which entries are kept is proved."},
  {"property": "C29", "status": "partial", "theorems": ["Cddlc.C29_tags", "Cddlc.C29_missing_paren_refuted"], "note": "Tags are proved; the missing parenthesis is not reported (refuted)."},
  {"property": "C30", "status": "partial", "theorems": ["Cddlc.C30_ends_kept_partial", "Cddlc.C30_mixed_rejected", "Cddlc.C30_refuted"], "note": "Other upper ends are silently dropped (refuted)."},
  {"property": "C31", "status": "proved", "theorems": ["Cddlc.C31_size_base", "Cddlc.C31_operands_kept"], "note": ""},
  {"property": "C32", "status": "partial", "theorems": ["Cddlc.C32_refuted", "Cddlc.C32_right_partial", "Cddlc.C32_right_as_written_partial"], "note": "The claim is false of the code: proved that the left operand is always lost; operator and right operand are kept."},
  {"property": "C33", "status": "proved", "theorems": ["Cddlc.C33_positions", "Cddlc.C33_rendered"], "note": "positions, and the exact output of errorStringer for every message text"},
  {"property": "C34", "status": "proved", "theorems": ["Cddlc.C34_only_assign"], "note": ""},
  {"property": "C35", "status": "proved", "theorems": ["Cddlc.C35_preorder"], "note": "For every visitor (any state, any return value) that always continues."},
  {"property": "C36", "status": "proved", "theorems": ["Cddlc.C36_calls", "Cddlc.C36_pruned"], "note": "C36_calls is for every visitor, including ones that panic or decide by their state."},
  {"property": "C37", "status": "proved", "theorems": ["Cddlc.C37_panics_iff", "Cddlc.C37_panics_unknown", "Cddlc.C37_parsed"], "note": ""},
  {"property": "C38", "status": "proved", "theorems": ["Cddlc.C38_level_restored", "Cddlc.C38_level_only_tabs", "Cddlc.C38_panics_iff", "Cddlc.C38_parsed"], "note": "The text of a float (%f) is a parameter."},
  {"property": "C39", "status": "proved", "theorems": ["Cddlc.C39_declarations", "Cddlc.C39_generated"], "note": "for any case converter; U+FFFD assumed neither letter nor digit"},
  {"property": "C40", "status": "proved", "theorems": ["Cddlc.C40_panics_iff", "Cddlc.C40_unsupported"], "note": "fragment = relation Denotes of Spec/Codegen"},
  {"property": "C41", "status": "proved", "theorems": ["Cddlc.C41_valid_returns_nil"], "note": "for every meaning of the calls"},
  {"property": "C42", "status": "proved", "theorems": ["Cddlc.C42_checks"], "note": ""},
  {"property": "C43", "status": "proved", "theorems": ["Cddlc.C43_structs"], "note": "for every group and array at any depth of every rule of a generated file"},
  {"property": "C44", "status": "proved", "theorems": ["Cddlc.C44_imports"], "note": ""},
  {"property": "C45", "status": "partial", "theorems": ["Cddlc.C45_identifier_partial", "Cddlc.C45_refuted", "Cddlc.C45_refuted_source", "Cddlc.C45_sockets_collide"], "note": "false as stated; the partial theorem excludes names that begin with a sign after the dollars"},
  {"property": "C46", "status": "partial", "theorems": ["Cddlc.C46_repeatable_partial", "Cddlc.C46_refuted", "Cddlc.C46_imports_lost"], "note": "false with imports; both versions of go/ast.SortImports covered"},
  {"property": "C47", "status": "proved", "theorems": ["Cddlc.C47_integers", "Cddlc.C47_exclusive_inclusive", "Cddlc.C47_floats", "Cddlc.C47_trichotomy"], "note": "integers of any width, and floating point numbers with infinities and not-a-number"},
  {"property": "C48", "status": "proved", "theorems": ["Cddlc.C48_content_ignored", "Cddlc.C48_texts", "Cddlc.C48_not_length", "Cddlc.C48_panics_iff"], "note": "sizes of a 64-bit system"},
  {"property": "C49", "status": "proved", "theorems": ["Cddlc.C49_first_match", "Cddlc.C49_hidden", "Cddlc.C49_generate"], "note": "directories whose path has no wildcard character; every listing and every answer of the system"},
  {"property": "C50", "status": "proved", "theorems": ["Cddlc.C50_outputs_only", "Cddlc.C50_files", "Cddlc.C50_links"], "note": "every run, whatever the system answers and whenever the process is killed. Stated for calls; for contents, files not reached by a path ending in .go are unchanged. C50_links shows that a source that is itself a link to the output is overwritten"},
  {"property": "C51", "status": "partial", "theorems": ["Cddlc.C51_refuted", "Cddlc.C51_contents", "Cddlc.C51_always"], "note": "false as stated: a source with a diagnostic empties the output. Proved: what the output holds after every kind of end"},
  {"property": "C52", "status": "proved", "theorems": ["Cddlc.C52_in_order"], "note": "outputs of the sources before the failure are complete unless a write failed, which is not reported for the code"},
  {"property": "C53", "status": "proved", "theorems": ["Cddlc.C53_only_adds", "Cddlc.C53_exists", "Cddlc.C53_together"], "note": "every run of init, cut anywhere, with arbitrary changes by others between its calls; any number of init together"},
  {"property": "C54", "status": "proved", "theorems": ["Cddlc.C54_first_bad", "Cddlc.C54_accepts"], "note": "every run, also cut off; nil plugins panic"},
  {"property": "C55", "status": "proved", "theorems": ["Cddlc.C55_to"], "note": ""},
  {"property": "C56", "status": "proved", "theorems": ["Cddlc.C56_again"], "note": "also the case where the lexer recorded an error: then the second call returns nothing"},
  {"property": "C57", "status": "proved", "theorems": ["Cddlc.C57_order"], "note": "Proved for every returned tree, also with errors."},
  {"property": "C58", "status": "proved", "theorems": ["Cddlc.C58_session", "Cddlc.C58_first_declaration"], "note": "every sequence of lines for which the session does not crash (C77); the lines are those the scanner of the standard library returns; strings.TrimSpace is a parameter"},
  {"property": "C59", "status": "proved", "theorems": ["Cddlc.C59_made_of_tokens"], "note": ""},
  {"property": "C60", "status": "proved", "theorems": ["Cddlc.C60_lex", "Cddlc.C60_returns"], "note": ""},
  {"property": "C61", "status": "partial", "theorems": ["Cddlc.C61_refuted", "Cddlc.C61_parse_partial", "Cddlc.C61_not_deep", "Cddlc.C61_few_tokens", "Cddlc.C61_short"], "note": "false as stated; encoding/json is modelled as far as the command uses it, with the texts of floating point numbers and what %+v prints as parameters"},
  {"property": "C62", "status": "partial", "theorems": ["Cddlc.C62_receiver_partial", "Cddlc.C62_refuted"], "note": "false as stated; exact characterisation for ASCII names"},
  {"property": "C63", "status": "partial", "theorems": ["Cddlc.C63_refuted"], "note": "false for every text literal; the theorem is the negation"},
  {"property": "C64", "status": "partial", "theorems": ["Cddlc.C64_closed_partial", "Cddlc.C64_refuted"], "note": "false as stated; undeclared sockets are the only exception"},
  {"property": "C65", "status": "partial", "theorems": ["Cddlc.C65_receiver_type_partial", "Cddlc.C65_refuted"], "note": "false for literal rules"},
  {"property": "C66", "status": "partial", "theorems": ["Cddlc.C66_types_partial", "Cddlc.C66_refuted"], "note": "false as stated; exact characterisation"},
  {"property": "C67", "status": "partial", "theorems": ["Cddlc.C67_distinct_partial", "Cddlc.C67_refuted"], "note": "false as stated"},
  {"property": "C68", "status": "partial", "theorems": ["Cddlc.C68_self_partial", "Cddlc.C68_refuted"], "note": "false for size controls"},
  {"property": "C69", "status": "partial", "theorems": ["Cddlc.C69_refuted"], "note": "false; the theorem is the negation"},
  {"property": "C70", "status": "partial", "theorems": ["Cddlc.C70_refuted", "Cddlc.C70_refuted_print", "Cddlc.C70_complete_partial"], "note": "false as stated; the partial theorem adds that no write failed, and names the source whose code is there"},
  {"property": "C71", "status": "partial", "theorems": ["Cddlc.C71_refuted", "Cddlc.C71_never_checked"], "note": "false: refuted by a run, and shown never to be checked in any run"},
  {"property": "C72", "status": "partial", "theorems": ["Cddlc.C72_refuted", "Cddlc.C72_panics_partial"], "note": "false as stated; the partial theorem names all causes: a nil build, or a source on which the parser, the generator or the printer panics"},
  {"property": "C73", "status": "partial", "theorems": ["Cddlc.C73_refuted", "Cddlc.C73_package_partial"], "note": "the package declared is that of the build, for every source; it need not be an identifier"},
  {"property": "C74", "status": "partial", "theorems": ["Cddlc.C74_refuted", "Cddlc.C74_header_partial"], "note": "exactly if the command line does not contain */"},
  {"property": "C75", "status": "partial", "theorems": ["Cddlc.C75_refuted", "Cddlc.C75_not_json", "Cddlc.C75_alone_partial"], "note": "false as stated; the partial theorem assumes that what init is told about files is what its own calls made of them"},
  {"property": "C76", "status": "proved", "theorems": ["Cddlc.C76_tree", "Cddlc.C76_session"], "note": "after any sequence of sources, malformed ones included"},
  {"property": "C77", "status": "partial", "theorems": ["Cddlc.C77_refuted", "Cddlc.C77_panics_iff", "Cddlc.C77_returns_partial"], "note": "false as stated; proved: an exact description in terms of the parser and lexer, and that sessions of clean sources without comparisons, misplaced occurrences, regexp and bits on other than the operands they are for, and cut off strings return"},
  {"property": "C78", "status": "proved", "theorems": ["Cddlc.C78_tokens", "Cddlc.C78_lexemes", "Cddlc.C78_layout"], "note": "the tree without positions is noPos of Spec/Schema.lean; messages are compared without the positions they quote"},
  {"property": "C79", "status": "proved", "theorems": ["Cddlc.C79_same_code", "Cddlc.C79_same_run"], "note": "what is printed on the terminal (diagnostics with positions) is not compared; sources are valid UTF-8 without U+FFFD"},
  {"property": "C80", "status": "partial", "theorems": ["Cddlc.C80_fields_partial", "Cddlc.C80_refuted"], "note": "false as stated; the exact condition is proved"},
  {"property": "C81", "status": "partial", "theorems": ["Cddlc.C81_recursive", "Cddlc.C81_finite_partial", "Cddlc.C81_refuted"], "note": "false as stated; C81_recursive and C81_finite_partial characterise the sources that violate it"},
  {"property": "C82", "status": "partial", "theorems": ["Cddlc.C82_keys_partial", "Cddlc.C82_refuted"], "note": "false as stated; the exact condition is proved"},
  {"property": "C83", "status": "proved", "theorems": ["Cddlc.C83_order", "Cddlc.C83_code", "Cddlc.C83_schema_code"], "note": "schemas are those of Spec/Schema.lean; C83_code holds for any two sources whose rules agree up to order and positions"},
  {"property": "C84", "status": "proved", "theorems": ["Cddlc.C84_truth", "Cddlc.C84_first", "Cddlc.C84_place", "Cddlc.C84_shown", "Cddlc.C84_never", "Cddlc.C84_operator"], "note": "Tells, Redeclared and CheckDiag (Spec/Diag.lean) say for each message what is to be true. The texts are modelled (Msg.text); how strconv.Quote quotes a number and how %+v prints a node are parameters."},
  {"property": "C85", "status": "partial", "theorems": ["Cddlc.C85_leaves_partial", "Cddlc.C85_panics", "Cddlc.C85_refuted"], "note": "false as stated (C85_refuted); proved: the exact set of one-token nodes that end where their text ends (sources without U+FFFD), and exactly when Start and End panic, on all sources. The ends of composite nodes are only described by what they end with."},
  {"property": "C86", "status": "proved", "theorems": ["Cddlc.C86_generates"], "note": "Spec/Disk.lean is a file system without links, permissions and other processes; Ready says which sources there are and that they can be turned into code (CodeOf), Outcome what is on the disk afterwards. run_traces: a run on a disk is one of the runs that the other theorems about commands are about."},
  {"property": "C87", "status": "proved", "theorems": ["Cddlc.C87_again", "Cddlc.C87_fails"], "note": "C87_fails is a disk on which the second run fails: the code of s/cddlc.cddl is written to cddlc.go."},
  {"property": "C88", "status": "proved", "theorems": ["Cddlc.C88_init_generate", "Cddlc.C88_used", "Cddlc.C88_hidden"], "note": "disk as in C86; the text init writes is modelled, the decoder is assumed only to read the configuration that a text begins with (Spec.ReadsConfigs, met by strictCodec)"},
  {"property": "C89", "status": "proved", "theorems": ["Cddlc.C89_valid_json"], "note": "assumes of encoding/json only that it writes floating point numbers as JSON numbers; the rest of the encoder is modelled"},
  {"property": "C90", "status": "partial", "theorems": ["Cddlc.C90_refuted", "Cddlc.C90_read_back_partial", "Cddlc.C90_same_tree_partial"], "note": "false as stated; proved if all strings in the source are terminated; the reader (Spec/JsonTree.lean) uses only member names and token numbers"},
  {"property": "C91", "status": "proved", "theorems": ["Cddlc.C91_text", "Cddlc.C91_default"], "note": "for every decoder that meets Spec.ReadsConfigs, and there is one"},
  {"property": "C92", "status": "proved", "theorems": ["Cddlc.C92_together"], "note": "the decoder as in C91"},
  {"property": "C93", "status": "partial", "theorems": ["Cddlc.C93_refuted", "Cddlc.C93_last_partial"], "note": "false as stated: refuted for every schema of that form; the partial theorem covers the last alternative"},
  {"property": "C94", "status": "proved", "theorems": ["Cddlc.C94_tokens", "Cddlc.C94_bytes"], "note": ""},
  {"property": "C95", "status": "proved", "theorems": ["Cddlc.C95_lex", "Cddlc.C95_lex_unique", "Cddlc.C95_lex_exits", "Cddlc.C95_lex_stuck", "Cddlc.C95_parse", "Cddlc.C95_parse_unique", "Cddlc.C95_parse_exits"], "note": "the handling of options by the command line library is not modelled"},
  {"property": "C96", "status": "partial", "theorems": ["Cddlc.C96_refuted", "Cddlc.C96_stderr_partial"], "note": "false as stated; the partial theorem says what can be relied on instead"},
  {"property": "C97", "status": "proved", "theorems": ["Cddlc.C97_printed_tokens"], "note": "Strings may also not contain U+FFFD, which the lexer takes for an error (C02)."},
  {"property": "C98", "status": "proved", "theorems": ["Cddlc.C98_sentence"], "note": "Spec.Sentence is an inductive grammar over tokens alone. The example accepts a source with most of its constructors."},
  {"property": "C99", "status": "partial", "theorems": ["Cddlc.C99_refuted", "Cddlc.C99_matched_partial", "Cddlc.C99_exceptions_partial"], "note": "False as stated: the bracket of a tag need not be closed (a = #6.1(int), and the token behind a comment kept behind a rule is passed over. Proved: these are the only two exceptions (C99_exceptions_partial), so sources without them match."},
  {"property": "C100", "status": "proved", "theorems": ["Cddlc.C100_unsupported"], "note": "The exception is needed: the last example accepts any behind a comment."},
  {"property": "C101", "status": "proved", "theorems": ["Cddlc.C101_items_before", "Cddlc.C101_later_lines"], "note": "C101_items_before: common tokens; C101_later_lines: common lines. Sources are clean text (UTF-8 without U+FFFD); parseSource is taken to return a tree for both."},
  {"property": "C102", "status": "proved", "theorems": ["Cddlc.C102_concurrent", "Cddlc.C102_ends", "Cddlc.C102_mixed"], "note": "Calls are atomic, except that os.MkdirAll may be seen when some directories are made. Nothing else uses the disk."},
  {"property": "C103", "status": "proved", "theorems": ["Cddlc.C103_same_tokens"], "note": ""},
  {"property": "C104", "status": "proved", "theorems": ["Cddlc.C104_cut_string"], "note": ""},
  {"property": "C105", "status": "proved", "theorems": ["Cddlc.C105_tokens", "Cddlc.C105_lexemes", "Cddlc.C105_rename_one"], "note": "C105_tokens: for token streams; C105_lexemes: for the characters of two texts; C105_rename_one: one identifier replaced by a fresh one in any text made of allowed token texts. Keys made from integers are not identifiers and are left alone."},
  {"property": "C106", "status": "proved", "theorems": ["Cddlc.C106_join", "Cddlc.C106_session", "Cddlc.C106_repl"], "note": "C106_comment_needed and C106_range_reported show that the condition on comments and the exception for ranges are needed."},
  {"property": "C107", "status": "proved", "theorems": ["Cddlc.C107_order"], "note": ""},
  {"property": "C108", "status": "proved", "theorems": ["Cddlc.C108_last_line"], "note": "C108_space_needed shows that other white space is not without effect."},
  {"property": "C109", "status": "proved", "theorems": ["Cddlc.C109_join", "Cddlc.C109_order"], "note": ""},
  {"property": "C110", "status": "proved", "theorems": ["Cddlc.C110_at_most_tokens"], "note": "the bound is reached (example)"},
  {"property": "C111", "status": "partial", "theorems": ["Cddlc.C111_refuted", "Cddlc.C111_once_partial"], "note": "False as stated: a = 1..x reports x twice, as an identifier and as the end of a range. Proved: this is the only exception, and nothing is reported more than twice."},
  {"property": "C112", "status": "proved", "theorems": ["Cddlc.C112_language", "Cddlc.C112_accepted", "Cddlc.C112_checks", "Cddlc.C112_unambiguous"], "note": "An exact characterisation, and the converse of C98. The grammar (Spec/Language.lean) has no precedences: every operator takes all on its right. It shows what is accepted by accident: a tag whose bracket is not closed, a range behind something that is not a name or a number, any token behind a comment on the line of a rule."},
  {"property": "C113", "status": "partial", "theorems": ["Cddlc.C113_compiles_partial", "Cddlc.C113_needed_partial", "Cddlc.C113_words_partial", "Cddlc.C113_refuted"], "note": "False: `foo-bar = int` has a receiver `foo-bar`, `a = 1` a method on a variable, `a = [valid: int]` a field and a method of the same name, `a = uint .size 4` an undeclared `self` (C113_refuted). Proved instead: if camel case gives every name a capital letter, the file is accepted by a specification of the compiler (Spec/Compile.lean: scopes, types, fields, recursion, methods, imports, calls, returns) if and only if the schema meets a short list of conditions. Without the condition on names, those of these conditions that concern the rules by themselves are still necessary (C113_needed_partial), so that no file with a rule for a socket or plug, or with `-`, `.` or `@` in an ASCII name of a rule, is accepted (C113_words_partial). Missing: which files are accepted if camel case leaves a key, a reference to a socket or the name of a rule without a capital letter."},
  {"property": "C114", "status": "proved", "theorems": ["Cddlc.C114_redeclared", "Cddlc.C114_language"], "note": "for any environment; in the grammar of Spec/Language.lean, with names declared any number of times"},
  {"property": "C115", "status": "partial", "theorems": ["Cddlc.C115_read_partial", "Cddlc.C115_commented_partial", "Cddlc.C115_refuted"], "note": "False in both directions, with eight witnesses. The partial theorems cover the grammar of RFC 8610 (Spec/Rfc.lean, strict = true), without comments and with comments at the places of Spec.Placed, with conditions that are written at the productions: no generics, no upper bounds of repetitions, keys are names or integers, operands of controls that the parser knows. Missing: which of the accepted sources are in the RFC."},
  {"property": "C116", "status": "proved", "theorems": ["Cddlc.C116_report", "Cddlc.C116_distinct"], "note": "The report is read by a separate reader of lines 'label: value' (Spec/Doctor.lean). With line breaks in a value two builds can have the same report (example in Props/Doctor.lean)."},
  {"property": "C117", "status": "partial", "theorems": ["Cddlc.C117_values_partial", "Cddlc.C117_held_partial", "Cddlc.C117_written_partial", "Cddlc.C117_refuted"], "note": "False as stated, with six witnesses (C117_refuted): integers that do not fit in 64 bits with a sign, nil slices that are written as null, size controls that are not in the type, optional entries of arrays, arrays named in arrays (spliced like groups), groups with keys of the same name. Proved for schemas of bool, tstr, bytes, int, uint, names, groups and arrays without these: exactly the values that match, with the integers of Go and without null. With size controls everything that matches can still be written (C117_held_partial), with optional entries everything that is written still matches (C117_written_partial). What the CBOR library writes is a specification (Spec/Data.lean); the meaning is that of the tree that the parser returns (C28 and C112 say which entries it leaves out). Missing: literals and occurrences in groups, for which the generated types are not Go types (C66)."},
  {"property": "C118", "status": "proved", "theorems": ["Cddlc.C118_unused", "Cddlc.C118_code", "Cddlc.C118_tree_not_enough"], "note": "\"Stands in\" is about tokens, not about the tree: C118_tree_not_enough shows that a name the tree does not mention can still be needed."},
  {"property": "C119", "status": "proved", "theorems": ["Cddlc.C119_code", "Cddlc.C119_generates", "Cddlc.C119_only", "Cddlc.C119_every"], "note": "The specification (Spec/EndToEnd.lean) mentions neither parser nor generator; the tokens are those returned by Scan, the printer (go/format) is a parameter. Hypothesis: U+FFFD is neither a letter nor a digit."},
  {"property": "C120", "status": "proved", "theorems": ["Cddlc.C120_unharmed", "Cddlc.C120_success", "Cddlc.C120_failure"], "note": "The disk is that of Spec/Disk.lean. The working directory must not hold the characters * ? [ \\ (PlainCwd), since its path is used as a pattern."},
  {"property": "C121", "status": "proved", "theorems": ["Cddlc.C121_order", "Cddlc.C121_parts", "Cddlc.C121_start", "Cddlc.C121_choice", "Cddlc.C121_lists"], "note": "What is read from left to right is Spec/Places.lean `places`. Not counted, because the tree does not hold them: closing brackets, assignment signs, an integer used as a key (its entry has the position of the operator), the left side of a comparison and of a range without bounds; and the upper bound of an occurrence, which is counted as the beginning of the item."},
  {"property": "C122", "status": "partial", "theorems": ["Cddlc.C122_order_partial", "Cddlc.C122_rules_partial", "Cddlc.C122_names_partial", "Cddlc.C122_refuted", "Cddlc.C122_names_refuted"], "note": "False in general (C122_refuted, C122_names_refuted). Proved: rules first, in strict order of the text; then names, in order of the text but for comparisons of two names."},
  {"property": "C123", "status": "proved", "theorems": ["Cddlc.C123_tokens", "Cddlc.C123_bytes"], "note": "Nodes as counted by Spec/Tree.lean `subs`: the nil interface is not a node. The bound is reached (example)."},
  {"property": "C124", "status": "proved", "theorems": ["Cddlc.C124_calls", "Cddlc.C124_bytes"], "note": "The calls are counted by the parser of Spec/Work.lean, which is the one of the model with a statement added at the top of parseEntry that appends a note to the diagnostics; C124_calls also shows that it returns the same rules and the same diagnostics besides the notes. Calls of Scan are not counted; every call of parseEntry follows upon one of its own."},
  {"property": "C125", "status": "partial", "theorems": ["Cddlc.C125_recovery_partial", "Cddlc.C125_clean_partial", "Cddlc.C125_refuted"], "note": "False without a condition: behind `a = [ int` (a bracket left open) and behind `a` (a name that is the last token) the next rule is lost, and `/ bool` is a mistake alone and none behind `a = int`; all are proved. Proved for every source A that does not stop where more was expected and every B that begins with a name or a comment, with any number and kind of other mistakes in either. Missing: that the condition on the end of A is the weakest one."},
  {"property": "C126", "status": "partial", "theorems": ["Cddlc.C126_session_partial", "Cddlc.C126_refuted"], "note": "False without a condition: `a = [ int` and then `b = int` declares b in a session and not in a file (proved). Proved for every list of sources, with mistakes of any other kind. Missing: that the conditions on the ends and beginnings are the weakest ones."},
  {"property": "C127", "status": "partial", "theorems": ["Cddlc.C127_parts_partial", "Cddlc.C127_mend_partial", "Cddlc.C127_refuted"], "note": "False without a condition: closing the bracket of `a = [ int` has b declared in the next part (proved). Proved for every list of parts, with mistakes of any other kind. Missing: parts that declare the same name, where the second is reported."},
  {"property": "C128", "status": "partial", "theorems": ["Cddlc.C128_order_partial", "Cddlc.C128_refuted"], "note": "False without a condition: `b = int` behind `a = [ int` is not declared, and in front of it it is (proved). Proved for every permutation of parts with mistakes of any other kind. Missing: parts that declare the same name, where it is the second that is reported (C114 for accepted files)."},
  {"property": "C129", "status": "partial", "theorems": ["Cddlc.C129_remove_partial", "Cddlc.C129_refuted"], "note": "False without a condition: with `a = [ int` removed, `b = int` behind it is declared, which it was not (proved). Proved for every choice of parts with mistakes of any other kind. Missing: parts that declare the same name."}
]}
