{"claims": [
{"property": "C01", "status": "proved", "theorems": ["Sds.Props.C01_reports_disjoint", "Sds.Props.C01_reports_disjoint_any"], "note": "All sorting algorithms, any number of candidates; second theorem also covers empty ranges."},
{"property": "C02", "status": "proved", "theorems": ["Sds.Props.C02_candidates_covered", "Sds.Props.C02_redactions_covered"], "note": "Non-empty candidates."},
{"property": "C03", "status": "proved", "theorems": ["Sds.Props.C03_is_the_resolution", "Sds.Props.C03_order_independent", "Sds.Props.C03_redactions_ignore_detect_only", "Sds.Props.C03_empty_match_repeated"], "note": "Equal output lists for equal candidate sets and any two pairs of sorting algorithms; redactions computed from redacting candidates alone."},
{"property": "C04", "status": "proved", "theorems": ["Sds.Props.C04_redaction_exact"], "note": "Input cut at the matches; output is the concatenation with rewritten matches."},
{"property": "C05", "status": "proved", "theorems": ["Sds.Props.C05_indices_point_to_replacement", "Sds.Props.C05_byte_indices"], "note": "General lawful encodings and the byte-offset instance."},
{"property": "C06", "status": "proved", "theorems": ["Sds.Props.C06_no_panic", "Sds.Props.C06_unvalidated_zero_panics", "Sds.Props.C06_empty_match_panics"], "note": "Resolution plus actions return ok; witness that the action validation hypothesis is needed."},
{"property": "C07", "status": "proved", "theorems": ["Sds.Props.C07_values_are_original"], "note": "Values are slices of the original string."},
{"property": "C08", "status": "proved", "theorems": ["Sds.Props.C08_partial_first", "Sds.Props.C08_partial_last", "Sds.Props.C08_nothing_kept_of_short"], "note": "Character based, any script."},
{"property": "C09", "status": "proved", "theorems": ["Sds.Props.C09_detect_only"], "note": "For every event type with lawful traversal/editing (strings, simple events, JSON values, JSON maps: Lemmas/Event.lean), scanners whose rules meet ScannerOk (regex rules do: regexRule_ok) and events without matches in numbers/booleans (C56)."},
{"property": "C10", "status": "proved", "theorems": ["Sds.Props.C10_scan_result", "Sds.Props.C10_changed_only_where_redacted"], "note": "Shape: the new event is the rewriting of the strings of the old one. Each string according to its own kept matches."},
{"property": "C11", "status": "proved", "theorems": ["Sds.Props.C11_includes_select_subtrees"], "note": "Without index wildcards; C15 covers them."},
{"property": "C12", "status": "proved", "theorems": ["Sds.Props.C12_excludes_cover_subtrees"], "note": "Without index wildcards; C15 covers them."},
{"property": "C13", "status": "proved", "theorems": ["Sds.Props.C13_rule_runs_once"], "note": ""},
{"property": "C14", "status": "proved", "theorems": ["Sds.Props.C14_selection_depends_on_path"], "note": ""},
{"property": "C15", "status": "proved", "theorems": ["Sds.Props.C15_index_wildcards"], "note": ""},
{"property": "C16", "status": "proved", "theorems": ["Sds.Props.C16_scope_paths_are_sets"], "note": ""},
{"property": "C17", "status": "partial", "theorems": ["Sds.Props.C17_suppressed", "Sds.Props.C17_nothing_else_suppressed", "Sds.Props.C17_order_independent", "Sds.Props.C17_records_true_positives_partial", "Sds.Props.C17_records_out_of_window"], "note": "Suppression iff the text was recorded in an excluded field, before or after, and order independence: proved for all rules. That the recorded texts are exactly the true positives: proved for regex rules without included keywords, refuted with included keywords (C17_records_out_of_window)."},
{"property": "C18", "status": "proved", "theorems": ["Sds.Props.C18_excluded_never_reported", "Sds.Props.C18_excluded_not_rewritten", "Sds.Props.C18_no_influence"], "note": "Reports, rewriting, and no influence with multi-pass off."},
{"property": "C19", "status": "partial", "theorems": ["Sds.Props.C19_regex_and_validator", "Sds.Props.C19_no_excluded_keyword_partial", "Sds.Props.C19_keyword_missed"], "note": "Regex and validator part proved in full; keyword part outside the C26 blind spots, with a witness for the failure."},
{"property": "C20", "status": "proved", "theorems": ["Sds.Props.C20_nothing_missed", "Sds.Props.C20_leftmost"], "note": "Whenever the search returns (termination: C21, panics: C27)."},
{"property": "C21", "status": "partial", "theorems": ["Sds.Props.C21_terminates_partial", "Sds.Props.C21_hangs"], "note": "Terminates for regexes without empty matches; the acceptance check does not ensure that, witness hangs."},
{"property": "C22", "status": "proved", "theorems": ["Sds.Props.C22_blocked_rules_have_no_effect"], "note": "Equality of the results, including panics and endless loops."},
{"property": "C23", "status": "proved", "theorems": ["Sds.Props.C23_near_keyword"], "note": "Keyword engine is a lawful oracle; an instance is proved lawful."},
{"property": "C24", "status": "partial", "theorems": ["Sds.Props.C24_skip_ahead_partial", "Sds.Props.C24_not_emitted"], "note": "Emitted unless keyword and match both start inside an emitted match; witness for that case."},
{"property": "C25", "status": "proved", "theorems": ["Sds.Props.C25_window_test", "Sds.Props.C25_window_start"], "note": ""},
{"property": "C26", "status": "partial", "theorems": ["Sds.Props.C26_veto_partial", "Sds.Props.C26_keyword_missed", "Sds.Props.C26_keyword_missed_at_start"], "note": "Exact outside two blind spots caused by removing - and _ before cutting the span; witnesses for both."},
{"property": "C27", "status": "partial", "theorems": ["Sds.Props.C27_panics_only_then_partial", "Sds.Props.C27_panics"], "note": "Characterises exactly when the check panics; witness for the panic."},
{"property": "C28", "status": "proved", "theorems": ["Sds.Props.C28_accepted_iff", "Sds.Props.C28_first_error"], "note": ""},
{"property": "C29", "status": "partial", "theorems": ["Sds.Props.C29_whole_words_partial", "Sds.Props.C29_kelvin"], "note": "For case folding that stays in ASCII; the Kelvin sign is a counterexample to the full claim."},
{"property": "C30", "status": "partial", "theorems": ["Sds.Props.C30_shortcut_invisible", "Sds.Props.C30_path_is_join_partial", "Sds.Props.C30_leading_dot", "Sds.Props.C30_words_partial"], "note": "The join claim fails when the path starts with an index; witness. Names made of words are normalised to the words (names ending in a one-letter camel-case word and irregular separators excepted)."},
{"property": "C31", "status": "partial", "theorems": ["Sds.Props.C31_luhn_partial", "Sds.Props.C31_single_error_partial", "Sds.Props.C31_transposition_partial", "Sds.Props.C31_unique_check_digit", "Sds.Props.C31_any_length", "Sds.Props.C31_overflow"], "note": "Exact for every text by C31_any_length; this is the Luhn checksum for texts shorter than 2^28 characters (C31_luhn_partial and the two theorems on errors), and refuted for longer ones, whose 32-bit sum overflows (C31_overflow). The uniqueness of the check digit holds for every length."},
{"property": "C32", "status": "partial", "theorems": ["Sds.Props.C32_nhs_partial", "Sds.Props.C32_accepts_other_lengths", "Sds.Props.C32_accepted_iff"], "note": "Proved for texts with exactly 10 and with 12 or more digits; refuted for fewer than 10 and for 11 digits (C32_accepts_other_lengths). C32_accepted_iff says exactly what is accepted with any number of digits."},
{"property": "C33", "status": "proved", "theorems": ["Sds.Props.C33_nir_iff", "Sds.Props.C33_single_error"], "note": "64-bit wrap-around is part of the model. Also single digit errors are detected."},
{"property": "C34", "status": "proved", "theorems": ["Sds.Props.C34_chinese_iff", "Sds.Props.C34_single_error", "Sds.Props.C34_transposition"], "note": ""},
{"property": "C35", "status": "partial", "theorems": ["Sds.Props.C35_github_partial", "Sds.Props.C35_rejects_padded"], "note": "Proved for checksums of at least 62^5; refuted below (no zero padding: C35_rejects_padded, with the real CRC-32)."},
{"property": "C36", "status": "proved", "theorems": ["Sds.Props.C36_jwt_iff", "Sds.Props.C36_stays_rejected"], "note": "base64/JSON decoding of a segment is a parameter."},
{"property": "C37", "status": "partial", "theorems": ["Sds.Props.C37_refuted", "Sds.Props.C37_keeps_matches_partial", "Sds.Props.C37_no_validator"], "note": "Refuted as stated: validate_matches drops matches of rules without a validation type (C37_refuted). Proved for matches of rules with one; a scanner without validators rejects the call."},
{"property": "C38", "status": "proved", "theorems": ["Sds.Props.C38_merge", "Sds.Props.C38_order", "Sds.Props.C38_http", "Sds.Props.C38_aws", "Sds.Props.C38_schedule_independent", "Sds.Props.C38_never_decreases"], "note": "Arbitrary completion and map iteration orders."},
{"property": "C39", "status": "proved", "theorems": ["Sds.Props.C39_aws_pairs", "Sds.Props.C39_scanner"], "note": "For the validator and for a whole scanner (endpoint of the first secret rule). A signature that is no legal header value panics in the code; stated through Signable."},
{"property": "C40", "status": "partial", "theorems": ["Sds.Props.C40_classification", "Sds.Props.C40_own_configuration_refuted", "Sds.Props.C40_own_configuration_partial"], "note": "Classification proved. 'Own configuration' refuted for rules that share endpoints; proved when rules with equal endpoints have equal configurations."},
{"property": "C41", "status": "proved", "theorems": ["Sds.Props.C41_store_consistent", "Sds.Props.C41_no_panic", "Sds.Props.C41_calls_return"], "note": "Invariant over all interleavings of a small-step model with unbounded versions; for slotmap's 32-bit versions see C95_store_unaffected (the store, without bound) and C95_own_cache_partial (searches)."},
{"property": "C42", "status": "proved", "theorems": ["Sds.Props.C42_one_regex_per_pattern", "Sds.Props.C42_mutual_exclusion", "Sds.Props.C42_no_deadlock"], "note": "All interleavings of lookup, factory, lock, per-entry collection, insertion and drops."},
{"property": "C43", "status": "partial", "theorems": ["Sds.Props.C43_history_dependent", "Sds.Props.C43_history_independent_partial"], "note": "Refuted (C43_history_dependent): rules and keywords share the store, so the pattern of a live keyword decides what a rule matches. Holds when no pattern is requested with factories that disagree on it."},
{"property": "C44", "status": "proved", "theorems": ["Sds.Props.C44_collection_exact", "Sds.Props.C44_collection_invisible", "Sds.Props.C44_store_bounded", "Sds.Props.C44_recent_exists"], "note": ""},
{"property": "C45", "status": "partial", "theorems": ["Sds.Props.C45_count_is_live", "Sds.Props.C45_gauge_wrong", "Sds.Props.C45_gauge_is_live_partial", "Sds.Props.C45_gauge_recovers"], "note": "The internal count and creations minus deletions are right under every interleaving; the exported gauge is refuted (C45_gauge_wrong): count and gauge are updated in two steps. The gauge is right when updates do not overlap, and recovers with the next undisturbed creation."},
{"property": "C46", "status": "proved", "theorems": ["Sds.Props.C46_built_iff", "Sds.Props.C46_first_fault", "Sds.Props.C46_positions", "Sds.Props.C46_pattern_accepted_iff", "Sds.Props.C46_pattern_error_iff"], "note": "Regex compilation is a parameter (see C43 for the memo, C70 for the check from the text)."},
{"property": "C47", "status": "partial", "theorems": ["Sds.Props.C47_ambiguous", "Sds.Props.C47_codes_partial", "Sds.Props.C47_builder_unambiguous", "Sds.Props.C47_success_and_panic"], "note": "Refuted at the level of codes (C47_ambiguous: InvalidMatchValidator and panic are both -5). All other codes differ, and the builder never produces InvalidMatchValidator."},
{"property": "C48", "status": "proved", "theorems": ["Sds.Props.C48_event_round_trip", "Sds.Props.C48_any_bytes_can_be_read", "Sds.Props.C48_error_iff_unsupported"], "note": "Maps and lists are trees (no sharing); list lengths at most 2^32."},
{"property": "C49", "status": "proved", "theorems": ["Sds.Props.C49_response_round_trip", "Sds.Props.C49_type_names", "Sds.Props.C49_no_matches", "Sds.Props.C50_mutations_applied"], "note": "decodeResponse; the mutations of a map event are the subject of C50."},
{"property": "C50", "status": "proved", "theorems": ["Sds.Props.C50_mutations_applied", "Sds.Props.mutatedText_spec", "Sds.Props.C50_scan_string"], "note": "Map events and single strings. Sizes fit 32 bits, responses are shorter than 2^31 bytes."},
{"property": "C51", "status": "partial", "theorems": ["Sds.Props.C51_invalid_key_keeps_content", "Sds.Props.C51_colliding_keys_error", "Sds.Props.C51_colliding_keys_not_redacted", "Sds.Props.C51_redaction_reaches_caller_partial", "Sds.Props.C51_all_texts_partial"], "note": "False for keys that are not valid UTF-8 (three witnesses); proved end to end for valid keys."},
{"property": "C52", "status": "proved", "theorems": ["Sds.Props.C52_terminates", "Sds.Props.C52_recursion_bound", "Sds.Props.C52_accepted_nesting", "Sds.Props.C52_accepted_height", "Sds.Props.C52_rejections", "Sds.Props.C52_accepted_iff", "Sds.Props.C52_too_deep"], "note": "Model/Parser follows parser/*.rs on top of a model of the nom combinators used. Termination with at most 51 active calls of expression, exact characterisation of acceptance by the nesting of groups, error kinds, and the height bound for functions recursing over the result. The meaning of a pattern without a limit (ReadAs) is the parser's own grammar with some limit."},
{"property": "C53", "status": "partial", "theorems": ["Sds.Props.C53_convert_iff", "Sds.Props.C53_convert_error", "Sds.Props.C53_pattern_iff", "Sds.Props.C53_counts_bounded_partial", "Sds.Props.C53_unordered_range_converted", "Sds.Props.C53_huge_count_is_literal"], "note": "The bound of 3000 is exact, at any depth. The order of ranges is not checked by the conversion: C53_unordered_range_converted shows x{5,3} being converted (it is left to the regex crate to refuse it)."},
{"property": "C54", "status": "proved", "theorems": ["Sds.Props.C54_flags_in_effect", "Sds.Props.C54_other_flags_kept", "Sds.Props.C54_converted_flags_valid"], "note": "Flags in effect, other flags, and validity of the converted group for Rust's syntax."},
{"property": "C55", "status": "proved", "theorems": ["Sds.Props.C55_simple_visits_each_string_once", "Sds.Props.C55_simple_message_first", "Sds.Props.C55_json_visits_each_leaf_once", "Sds.Props.C55_hashmap_visits_each_leaf_once", "Sds.Props.C55_edit_addresses_the_string", "Sds.Props.C55_hashmap_edit", "Sds.Props.C55_rewrite_at", "Sds.Props.C55_returns_to_root"], "note": "For simple events, JSON values, JSON maps. Keys of a map are pairwise different."},
{"property": "C56", "status": "partial", "theorems": ["Sds.Props.C56_panics_only_then_partial", "Sds.Props.C56_panics"], "note": "Refuted: a match in a JSON number or boolean panics (C56_panics). Proved: the scan panics in exactly this case, for rules that return on the strings of the event."},
{"property": "C57", "status": "partial", "theorems": ["Sds.Props.C57_displayed_paths_collide", "Sds.Props.C57_displayed_paths_distinct_partial"], "note": "False in general: field names with dots, brackets or an empty first name collide (witness). Proved for plain field names."},
{"property": "C58", "status": "proved", "theorems": ["Sds.Props.C58_starts_with", "Sds.Props.C58_starts_with_order", "Sds.Props.C58_path_order", "Sds.Props.C58_strings_compare_by_bytes"], "note": "starts_with is the initial-part relation and a partial order; the comparison of paths is a strict total order; comparing field names by code point is comparing their UTF-8 bytes."},
{"property": "C59", "status": "proved", "theorems": ["Sds.Props.C59_pool_size"], "note": ""},
{"property": "C60", "status": "proved", "theorems": ["Sds.Props.C60_hosts", "Sds.Props.C60_defaults"], "note": ""},
{"property": "C61", "status": "proved", "theorems": ["Sds.Props.C61_estimate_exact", "Sds.Props.C61_estimate_decides"], "note": ""},
{"property": "C62", "status": "partial", "theorems": ["Sds.Props.C62_own_cache", "Sds.Props.C95_own_cache_partial", "Sds.Props.C95_search_panics", "Sds.Props.C95_foreign_cache"], "note": "For versions of slots that do not wrap around (C62_own_cache). With slotmap's 32-bit versions this holds while at most 2^30 regexes were stored, and fails beyond (C95)."},
{"property": "C63", "status": "partial", "theorems": ["Sds.Props.C63_secret_redacted_partial", "Sds.Props.C63_secret_overlapped", "Sds.Props.C63_overlap_leaks"], "note": "Proved when no other candidate of a redacting rule overlaps the match; without that assumption the match is shown to be overlapped by a redaction covering its first byte. Refuted in general: of two overlapping secrets only the first is redacted and the rest of the second stays (witness)."},
{"property": "C64", "status": "partial", "theorems": ["Sds.Props.C64_rule_arrives", "Sds.Props.C64_nothing_else_partial", "Sds.Props.C64_accepted_iff", "Sds.Props.C64_constructors", "Sds.Props.C64_invalid_text_changed"], "note": "Acceptance is characterised exactly and the rule asked for always arrives. That nothing else arrives is proved for strings that are UTF-8; otherwise it is refuted: Go's JSON encoder replaces invalid bytes, and the rule is created with a different pattern (witness)."},
{"property": "C65", "status": "proved", "theorems": ["Sds.Props.C65_no_use_after_free", "Sds.Props.C65_no_leak", "Sds.Props.C65_heap_is_owned"], "note": "Simulation by a machine of values for every history; calls are single steps."},
{"property": "C66", "status": "partial", "theorems": ["Sds.Props.C66_built_from_appended_partial", "Sds.Props.C66_append_lost"], "note": "Proved if building never panicked. Refuted otherwise: a panic poisons the mutex of the list, after which appended rules are dropped without an error (witness)."},
{"property": "C67", "status": "proved", "theorems": ["Sds.Props.C67_create_scanner", "Sds.Props.C67_scan", "Sds.Props.C67_delete", "Sds.Props.C67_used_after_delete"], "note": "For scanners that are not used after Delete; C67_used_after_delete shows that such a use is undefined behaviour instead of an error."},
{"property": "C68", "status": "partial", "theorems": ["Sds.Props.C68_same_meaning_partial", "Sds.Props.C68_end_assertions", "Sds.Props.C68_trailing_end_partial", "Sds.Props.C68_dollar_takes_newline", "Sds.Props.C68_escaped_space_dropped", "Sds.Props.C68_word_beyond_ascii"], "note": "On syntax trees. Proved for patterns without `$`/`\\Z` in the middle, without non-ASCII whitespace outside of brackets, and not using classes of ASCII letters under `i`; refuted by witnesses for `$`, for escaped non-ASCII whitespace under `x` and for `\\w` under `i`. For a trailing `$` or `\\Z` the places are the same and the converted pattern may take the newline. Reading the printed pattern is C71."},
{"property": "C69", "status": "partial", "theorems": ["Sds.Props.C69_keyword_in_path_partial", "Sds.Props.C69_path_suffices_partial", "Sds.Props.C69_last_hump"], "note": "Proved for ASCII names made of words with single separators; refuted for names ending in a one-letter camel-case word (planB)."},
{"property": "C70", "status": "proved", "theorems": ["Sds.Props.C70_returns", "Sds.Props.C70_accepted_iff", "Sds.Props.C70_errors", "Sds.Props.C70_validate_regex"], "note": "The regex engine (build within a limit, match of the empty text) is a parameter."},
{"property": "C71", "status": "partial", "theorems": ["Sds.Props.C71_text_read_partial", "Sds.Props.C71_read_iff_partial", "Sds.Props.C71_bracketing_irrelevant", "Sds.Props.C71_text_matches_partial", "Sds.Props.C71_quotation_not_repeated", "Sds.Props.C71_end_not_repeated", "Sds.Props.C71_ignored_space_repeated", "Sds.Props.C71_text_rejected"], "note": "The reader models regex_syntax::ast::parse on the constructs the conversion prints. C71_read_iff_partial: where quantifiers repeat one unit and whitespace is not ignored, the crate accepts the text iff flag groups are not empty, ranges and counts are in order and names are distinct. Refuted by witnesses without the restrictions: repeated quotations, repeated `$`, a quantifier after ignored whitespace; and patterns that the crate rejects (`(?)`, `(?i)*`, unordered ranges and counts, duplicate group names)."},
{"property": "C72", "status": "proved", "theorems": ["Sds.Props.C72_ill_formed_replaced", "Sds.Props.C72_go_replaced", "Sds.Props.C72_replaced_differently"], "note": "The decoders belong to the Rust and Go standard libraries; the theorems say what the model of both does."},
{"property": "C73", "status": "partial", "theorems": ["Sds.Props.C73_leftmost", "Sds.Props.C73_secret_sent_partial", "Sds.Props.C73_final_slash_not_sent", "Sds.Props.C73_word_after_not_sent", "Sds.Props.C73_other_secret_sent", "Sds.Props.C73_valid_secret_reported_invalid"], "note": "False in general (witnesses): a secret that ends in / or + and is not followed by a word character is not found, an empty secret is sent and a valid pair is reported invalid; likewise a secret followed by an underscore or a letter outside of ASCII; with / or + in front of it a different secret may be sent. Proved for the others, and that what is sent is always the leftmost match of the pattern."},
{"property": "C74", "status": "proved", "theorems": ["Sds.Props.C74_round_trip", "Sds.Props.C74_field_order", "Sds.Props.C74_defaults"], "note": "Given that chrono reads the dates it writes and that numbers are in the range of their types; Utf16Hash, which is behind a feature, is left out. null for scope is an error while null for the other optional fields is the default (second part of C74_defaults)."},
{"property": "C75", "status": "partial", "theorems": ["Sds.Props.C75_scan_counters", "Sds.Props.C75_excluded_match_partial", "Sds.Props.C75_keyword_counter_partial", "Sds.Props.C75_keyword_counted_repeatedly", "Sds.Props.C75_excluded_match_counted_twice"], "note": "Proved for scanned_events and match_count, and for the multi-pass counter of rules that emit each match once (all rules without included keywords). The keyword counter is refuted as a number of matches (witness: one match of five characters counts five times); proved is what it counts instead: the starts of matches of the regex behind an excluded keyword outside of the matches found. The multi-pass counter counts a match twice if it is emitted for a keyword in the text and in the path (witness)."},
{"property": "C76", "status": "partial", "theorems": ["Sds.Props.C76_regex_of_pattern_partial", "Sds.Props.C76_search_partial", "Sds.Props.C76_redacted_partial", "Sds.Props.C76_quotation_missed"], "note": "For accepted patterns whose quantifiers repeat one unit and that satisfy the conditions of C68 (Convertible), and never match the empty text; the engine is any choice among the matches of what the crate reads. C76_quotation_missed: without the conditions the claim fails."},
{"property": "C77", "status": "partial", "theorems": ["Sds.Props.C77_scan_then_validate_partial", "Sds.Props.C77_statuses", "Sds.Props.C77_line_break_panics"], "note": "Validation returns when every AWS id found is printable; with a line break in an id it panics (C77_line_break_panics). The statuses (C77_statuses) need no such condition."},
{"property": "C78", "status": "partial", "theorems": ["Sds.Props.C78_total_regexes", "Sds.Props.C78_cache_gauge_partial", "Sds.Props.C78_cache_gauge_right_iff", "Sds.Props.C78_cache_gauge_wrong"], "note": "total_regexes is right. total_regex_cache_size is never increased (C78_cache_gauge_wrong); C78_cache_gauge_partial gives its exact value in every reachable state."},
{"property": "C79", "status": "partial", "theorems": ["Sds.Props.C79_found_partial", "Sds.Props.C79_preferred_match", "Sds.Props.C79_first_alternative", "Sds.Props.C79_longest_shortest"], "note": "For the patterns of C76 (Convertible); proved for every engine that chooses as the specification of leftmost-first."},
{"property": "C80", "status": "partial", "theorems": ["Sds.Props.C80_built_iff", "Sds.Props.C80_rules_as_configured", "Sds.Props.C80_finds_partial", "Sds.Props.C80_near_keyword_partial", "Sds.Props.C80_required_keywords_partial", "Sds.Props.C80_scanner_ok_partial", "Sds.Props.C80_validators_partial", "Sds.Props.C80_returns_partial", "Sds.Props.C80_paths_ignored"], "note": "building and configuration are proved in full; what is found is proved for patterns that are Convertible and match no empty text (C76 has counterexamples beyond); validators: ten digits for NHS (C32), checksums of at least 62^5 for GitHub (C35); with required keywords, exactly what Near of C85 selects, for strings in which no keyword overlaps a candidate"},
{"property": "C81", "status": "partial", "theorems": ["Sds.Props.C81_created_iff", "Sds.Props.C81_every_rule", "Sds.Props.C81_go_rules_partial", "Sds.Props.C81_cut_unique", "Sds.Props.C81_redacting_rule_partial"], "note": "patterns that are Convertible and match no empty text (C76 has counterexamples beyond), texts in which no required keyword overlaps a match (C24 has a counterexample), UTF-8 keys (C51), no excluded keyword check that panics (C27), response within 2^31 bytes"},
{"property": "C82", "status": "proved", "theorems": ["Sds.Props.C82_reads_iff", "Sds.Props.C82_denotes_unique", "Sds.Props.C82_accepted_iff", "Sds.Props.C82_refused_iff", "Sds.Props.C82_deep_error"], "note": "The syntax is stated without the parser's combinators; the table of Unicode property names is shared with the model."},
{"property": "C83", "status": "proved", "theorems": ["Sds.Props.C83_configuration", "Sds.Props.C83_calls", "Sds.Props.C83_as_without_data", "Sds.Props.C83_separate", "Sds.Props.C83_configuration_separate", "Sds.Props.C83_regex_rules"], "note": "Functions of rule kinds are arbitrary, except that they may only add texts to excluded_matches. The order of the rules on one string is that of the traversal."},
{"property": "C84", "status": "partial", "theorems": ["Sds.Props.C84_scan", "Sds.Props.C84_scanned_events", "Sds.Props.C84_match_count", "Sds.Props.C84_duration", "Sds.Props.C84_excluded_match_partial", "Sds.Props.C84_keywords", "Sds.Props.C84_counters", "Sds.Props.C84_registered", "Sds.Props.C84_regex_rule_partial"], "note": "Proved for scanned events, match count, duration, and keyword hits for all rules; what a rule counts in one string is that of C75: the number of dropped matches for rules that emit each match once, and the keyword hits for rules without included keywords, counted once for each start of a match (findings of C75)."},
{"property": "C85", "status": "partial", "theorems": ["Sds.Props.C85_required_keywords", "Sds.Props.C85_selected_partial", "Sds.Props.C85_determined", "Sds.Props.C85_recorded", "Sds.Props.C85_keyword_lost"], "note": "What is emitted is proved to be exactly what the relation Near selects, and to be a sublist of the matches, all in the window of a keyword. That every match in the window of a keyword is selected is false (C85_keyword_lost): it can be missing if a match between the keyword and it is selected, which C85_selected_partial proves to be the only reason. Keywords that overlap matches are left out (C24_not_emitted)."},
{"property": "C86", "status": "proved", "theorems": ["Sds.Props.C86_reads_iff", "Sds.Props.C86_text_unique", "Sds.Props.C86_levels", "Sds.Props.C86_no_zero", "Sds.Props.C86_go_text", "Sds.Props.C86_document_arrives", "Sds.Props.C86_rule_from_text", "Sds.Props.C86_rust_round_trip"], "note": "encoding/json and serde_json are modelled as far as natural numbers, strings, arrays, objects and the literals go"},
{"property": "C87", "status": "partial", "theorems": ["Sds.Props.C87_no_undefined_behaviour_partial", "Sds.Props.C87_never_stuck_partial", "Sds.Props.C87_reports_partial", "Sds.Props.C87_no_leak_partial", "Sds.Props.C87_deleted_during_scan"], "note": "Delete while a scan is running, or twice, is undefined (C87_deleted_during_scan); proved for runs in which every scanner is deleted once and not during a scan"},
{"property": "C88", "status": "proved", "theorems": ["Sds.Props.C88_requests_once", "Sds.Props.C88_result", "Sds.Props.C88_panics_alike", "Sds.Props.C88_ends", "Sds.Props.C88_refines_sequential"], "note": "All interleavings of the checks and groups, with arbitrary replies. The panics of a check (no text, signature not a header value) are part of the model."},
{"property": "C89", "status": "proved", "theorems": ["Sds.Props.C89_github", "Sds.Props.C89_datadog", "Sds.Props.C89_setters"], "note": "Requests of the ready-made GitHub and Datadog configurations and the verdicts that follow from the answers; setters of the builder. Uses C38 for the way from replies to statuses."},
{"property": "C90", "status": "partial", "theorems": ["Sds.Props.C90_defined_partial", "Sds.Props.C90_created_partial", "Sds.Props.C90_sent", "Sds.Props.C90_scanned_partial", "Sds.Props.C90_program_partial"], "note": "For disciplined programs (C87_deleted_during_scan shows what happens otherwise); scans that never end are excluded (C21); the last theorem has the conditions of C81."},
{"property": "C91", "status": "proved", "theorems": ["Sds.Props.C91_as_before", "Sds.Props.C91_listed", "Sds.Props.C91_linear", "Sds.Props.C91_scan", "Sds.Props.C91_reached", "Sds.Props.C91_endless"], "note": "C91_as_before: listing the searches does not change the result. C91_listed: no search is missing in the list. C91_linear: the bounds for one string. C91_scan: the sum over a scan. C91_reached: n + 1 is reached by the regex (?s). for every string. C91_endless: without the condition on the regex (accepted, see C21) there is no bound."},
{"property": "C92", "status": "proved", "theorems": ["Sds.Props.C92_content_text", "Sds.Props.C92_path_text", "Sds.Props.C92_texts_read", "Sds.Props.C92_matchers", "Sds.Props.C92_faithful"], "note": "The reader of the regex crate is the model of C71. C92_matchers connects the texts with the matchers used in C26, C29 and C69; C92_faithful derives the assumption of C80, C81 and C90 on keyword searches from an engine that searches for what it reads in the text."},
{"property": "C93", "status": "partial", "theorems": ["Sds.Props.C93_as_configured_partial", "Sds.Props.C93_same_everywhere_partial", "Sds.Props.C93_keeps_regexes_partial", "Sds.Props.C93_no_panic", "Sds.Props.C93_progress", "Sds.Props.C93_depends_on_others", "Sds.Props.C93_two_outcomes"], "note": "The full statement is AlwaysAsConfigured; C93_depends_on_others refutes it (pattern refused alone, accepted while a scanner with the keyword id is alive), C93_two_outcomes gives both histories. What is missing in the _partial theorems is only the case excluded by NoClash: a text that is both a pattern of a rule and made of keywords and that the two factories treat differently. C93_no_panic and C93_progress need no such hypothesis."},
{"property": "C94", "status": "partial", "theorems": ["Sds.Props.C94_whole_partial", "Sds.Props.C94_received", "Sds.Props.C94_lost", "Sds.Props.C94_silently_lost"], "note": "False as stated: the size is converted to a 32-bit C int, so a response of k*2^32+n bytes with n < 2^31 is cut to its first n bytes without an error (C94_silently_lost: the library redacts, the caller is told nothing matched). C94_received says what happens to a response of any size; C94_whole_partial covers responses below 2^31 bytes."},
{"property": "C95", "status": "partial", "theorems": ["Sds.Props.C95_own_cache_partial", "Sds.Props.C95_store_unaffected", "Sds.Props.C95_search_panics", "Sds.Props.C95_foreign_cache"], "note": "Proved while at most 2^30 regexes were stored since the start of the process (simulation by the model with unbounded versions). Refuted beyond: a process that stores and drops one regex again and again reaches a state in which a search panics (2^30 reuses of a slot) and one in which it uses the cache of another pattern's regex (2^31). The store itself is unaffected (C95_store_unaffected, without bound). slotmap is known from its documentation and source, which are not in the repository."},
{"property": "C96", "status": "partial", "theorems": ["Sds.Props.C96_scan_panic_partial", "Sds.Props.C96_create_panic_partial", "Sds.Props.C96_texts_distinguished", "Sds.Props.C96_no_information", "Sds.Props.C96_no_false_panic", "Sds.Props.C96_freed_whole", "Sds.Props.C96_first_fault_named", "Sds.Props.C96_rule_reason_lost"], "note": "Proved for rules whose text the library accepts and for panics that carry a text without a zero byte. Refuted otherwise: a rule that is not accepted is always reported as 'Failed to create regex rule', whatever the reason (C96_rule_reason_lost), and other panics by a general text (C96_no_information)."},
{"property": "C97", "status": "partial", "theorems": ["Sds.Props.C97_shared_texts", "Sds.Props.C97_redaction_reaches_caller_partial", "Sds.Props.C97_unshared", "Sds.Props.C97_shared_secret_restored", "Sds.Props.C97_cycle"], "note": "False if two paths lead to one place and the rules do not find the same on both: the last mutation restores text of the others (C97_shared_secret_restored). Proved if the rules find the same on such paths, in particular without sharing; C97_shared_texts says what the memory is in general."},
{"property": "C98", "status": "proved", "theorems": ["Sds.Props.C98_no_deadlock", "Sds.Props.C98_progress", "Sds.Props.C98_calls_return", "Sds.Props.C98_mutual_exclusion", "Sds.Props.C98_store_held_briefly", "Sds.Props.C98_store_not_poisoned", "Sds.Props.C98_poisoned_by", "Sds.Props.C98_panic_contained", "Sds.Props.C98_no_panic", "Sds.Props.C98_regex_rules"], "note": "Lock programs of the native calls; the regex factories, which may panic, are a parameter. That the critical sections of the store do not panic is C41."},
{"property": "C99", "status": "partial", "theorems": ["Sds.Props.C99_signed_is_sent", "Sds.Props.C99_date", "Sds.Props.C99_sent_iff", "Sds.Props.C99_signs_printable", "Sds.Props.C99_host_partial", "Sds.Props.C99_host_fixed", "Sds.Props.C99_bad_endpoint_panics", "Sds.Props.C99_default_host"], "note": "Proved for every signer: the request sent is the one signed, the date says the time it was signed for, and when a request is made. Host is the host of the endpoint only for sts.us-east-1.amazonaws.com (C99_host_partial is an equivalence; C99_host_fixed is a witness). The signature itself is computed by the crate aws_sign_v4, a parameter."},
{"property": "C100", "status": "partial", "theorems": ["Sds.Props.C100_string_refused_partial", "Sds.Props.C100_event_refused_partial", "Sds.Props.C100_read", "Sds.Props.C100_hidden"], "note": "Proved for texts without the bytes 0 to 3 (C100_string_refused_partial, C100_event_refused_partial). For other texts it fails: C100_read says what is read, C100_hidden is a text of 2^32 bytes full of matches that is reported clean."},
{"property": "C101", "status": "proved", "theorems": ["Sds.Props.C101_size", "Sds.Props.C101_slots", "Sds.Props.C101_compiled", "Sds.Props.C101_dead_cache"], "note": "Uses slotmap's free list (a slot is added only if none is vacant) as part of the transition system (Spec/StoreSize.lean, Frugal); slotmap is not in the repository. C101_compiled shows that the number of compilations is not bounded in these processes."},
{"property": "C102", "status": "proved", "theorems": ["Sds.Props.C102_github_payload", "Sds.Props.C102_github_check", "Sds.Props.C102_nhs_digit", "Sds.Props.C102_nhs_swap", "Sds.Props.C102_nir_swap", "Sds.Props.C33_single_error", "Sds.Props.C34_single_error", "Sds.Props.C34_transposition", "Sds.Props.C31_single_error_partial", "Sds.Props.C31_transposition_partial"], "note": "crc32fast is taken to be CRC-32 (Spec/Validators.lean crc32, with the check value of 123456789 as an example)."},
{"property": "C103", "status": "proved", "theorems": ["Sds.Props.C103_alike", "Sds.Props.C103_hidden", "Sds.Props.C103_hidden_same_length", "Sds.Props.C103_shift_tells_length"], "note": "Two-run (non-interference) property of whole scans; that the matches of both events are in the same places is a hypothesis, as which texts match is up to the regexes."},
{"property": "C104", "status": "partial", "theorems": ["Sds.Props.C104_reordered", "Sds.Props.C104_renumbered", "Sds.Props.C104_detect_only_partial", "Sds.Props.C104_tie_depends_on_order", "Sds.Props.C104_detect_only_suppresses", "Sds.Props.C104_redacting_uncovers"], "note": "Order: proved for all permutations if rules that match the same range have the same action (C104_reordered), with renumbered reports if there are no such ties (C104_renumbered). Rules without redaction: proved if the rule records nothing in excluded fields or multi-pass is off. Missing: the code resolves other ties by the order (C104_tie_depends_on_order), lets a rule without redaction suppress others (C104_detect_only_suppresses); a further rule with redaction can uncover text (C104_redacting_uncovers)."},
{"property": "C105", "status": "proved", "theorems": ["Sds.Props.C105_one_function", "Sds.Props.C105_more_strings", "Sds.Props.C105_other_order", "Sds.Props.C105_remembered_matters"], "note": "One function for all events of all kinds (C105_one_function); adding strings and reordering them as corollaries. The influence of the remembered texts is real (C105_remembered_matters)."},
{"property": "C106", "status": "partial", "theorems": ["Sds.Props.C106_go_hidden_partial", "Sds.Props.C106_go_hidden_same_length_partial"], "note": "Proved apart from the irregular cases of C81 (patterns changed by the conversion or matching empty texts, keywords overlapping a match or each other, keys or strings that are not UTF-8) and from the shift of a match, which tells the length of the hidden text (C103_shift_tells_length); with equal lengths the matches are equal as sets."},
{"property": "C107", "status": "proved", "theorems": ["Sds.Props.C107_returned", "Sds.Props.C107_rule_panics", "Sds.Props.C107_left", "Sds.Props.C107_later_strings_keep_secrets"], "note": "For scanners that meet ScannerOk. What remains unredacted after such a panic is shown by C107_later_strings_keep_secrets (a finding)."},
{"property": "C108", "status": "proved", "theorems": ["Sds.Props.C108_only_added", "Sds.Props.C108_reached", "Sds.Props.C108_blocked", "Sds.Props.C108_reaches_further"], "note": "Strings without overlaps: C108_only_added; chains of overlaps: C108_reached; blocked: C108_blocked. The place of the new rule in the list does not matter by C104_renumbered. C108_reaches_further shows that chains occur; C104_redacting_uncovers that a displaced text is uncovered."},
{"property": "C109", "status": "partial", "theorems": ["Sds.Props.C109_again_partial", "Sds.Props.C109_patterns", "Sds.Props.C109_one_rule", "Sds.Props.C109_joined", "Sds.Props.C109_displaced"], "note": "C109_again_partial; C109_patterns and C109_one_rule discharge two of its hypotheses for patterns without assertions and for one rule. False for empty or matching replacements (C109_joined) and for overlapping matches (C109_displaced). Missing: rules with keywords, validators on texts of varying length, or assertions."},
{"property": "C110", "status": "proved", "theorems": ["Sds.Props.C110_undo", "Sds.Props.C110_same_result", "Sds.Props.C110_without_values"], "note": "C110_undo gives the original event, C110_same_result is the consequence; C110_without_values shows that returned values are needed."},
{"property": "C111", "status": "proved", "theorems": ["Sds.Props.C111_two_texts", "Sds.Props.C111_lines", "Sds.Props.C111_rule", "Sds.Props.C111_patterns", "Sds.Props.C111_keyword_in_another_line"], "note": "For rules without keywords whose patterns stay within a line (C111_rule, C111_patterns for a leftmost-first search), for two parts of any string of any event (C111_two_texts) and for texts of any number of lines (C111_lines). That keywords count across lines is the finding C111_keyword_in_another_line."},
{"property": "C112", "status": "proved", "theorems": ["Sds.Props.C112_linearisable", "Sds.Props.C112_all_arrive", "Sds.Props.C112_built_with", "Sds.Props.C112_append_lost"], "note": "Proved for every interleaving of steps between locking, reading, writing and unlocking. Proved findings show what a panic under the lock does to later calls."},
{"property": "C113", "status": "proved", "theorems": ["Sds.Props.C113_bounded", "Sds.Props.C113_partial_grows"], "note": "Fingerprints are assumed to have 64 bits, as their type in the code says."},
{"property": "C114", "status": "proved", "theorems": ["Sds.Props.C114_same_texts", "Sds.Props.C114_path_blind", "Sds.Props.C114_each_alone", "Sds.Props.C114_rule", "Sds.Props.C114_scopes_matter"], "note": "For two events, for events whose rules look at no path, and for each string alone; C114_rule says when what a rule finds depends on the path."},
{"property": "C115", "status": "partial", "theorems": ["Sds.Props.C115_http", "Sds.Props.C115_aws", "Sds.Props.C115_aws_partial", "Sds.Props.C115_aws_other_endpoint", "Sds.Props.C115_scan"], "note": "HTTP is proved in full. AWS: proved if all rules for AWS secrets have the same endpoint; otherwise the secrets of all of them are sent to the endpoint of the first one (C115_aws, refutation C115_aws_other_endpoint)."},
{"property": "C116", "status": "partial", "theorems": ["Sds.Props.C116_higher", "Sds.Props.C116_up_to_date_partial", "Sds.Props.C116_steady", "Sds.Props.C116_returns", "Sds.Props.C116_refused_later", "Sds.Props.C116_revoked"], "note": "C116_higher says exactly what happens: the higher one of the old status and that of a first validation. So the claim holds where the old status is not higher (C116_up_to_date_partial), in particular for equal answers (C116_steady), and fails otherwise: an error outlives a refusal (C116_refused_later) and a valid match stays valid after the secret was revoked (C116_revoked)."},
{"property": "C117", "status": "proved", "theorems": ["Sds.Props.C117_at_most", "Sds.Props.C117_exactly", "Sds.Props.C117_equal_texts"], "note": "At any moment at most, and on return exactly, one request per different endpoint of each HTTP match and one per pair of AWS id and secret."},
{"property": "C118", "status": "partial", "theorems": ["Sds.Props.C118_order", "Sds.Props.C118_batches_partial", "Sds.Props.C118_pair_apart", "Sds.Props.C118_together"], "note": "Any order: proved. Several calls: proved if no AWS id is in one call and a secret in the other; otherwise the code violates it (C118_pair_apart)."},
{"property": "C119", "status": "partial", "theorems": ["Sds.Props.C119_reaches", "Sds.Props.C119_reaches_keywords", "Sds.Props.C119_same", "Sds.Props.C119_removes_partial", "Sds.Props.C119_appears"], "note": "Every match begins inside a match of the laxer rule: proved. Being one of its matches: proved if no match that passes begins inside one that does not; otherwise the code violates it (C119_appears)."},
{"property": "C120", "status": "partial", "theorems": ["Sds.Props.C120_adds_partial", "Sds.Props.C120_still_found", "Sds.Props.C120_keyword_loses", "Sds.Props.C120_window_loses"], "note": "The match or one between its keyword and it is found: proved, and so is that something is found. The match itself can be lost: the code violates this (C120_keyword_loses, C120_window_loses)."},
{"property": "C121", "status": "proved", "theorems": ["Sds.Props.C121_vetoed", "Sds.Props.C121_fewer"], "note": "Vetoes are monotone in the keywords and the look-ahead; the matches begin inside the earlier ones."},
{"property": "C122", "status": "proved", "theorems": ["Sds.Props.C122_reaches", "Sds.Props.C122_superfluous", "Sds.Props.C122_no_lists"], "note": "The selection of rules and exclusions by the paths of the scopes is monotone."}
]}
