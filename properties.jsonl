{"id": "C01", "title": "Reported matches of one string never overlap", "statement": "After a scan, the matches reported for any single string are pairwise disjoint as ranges of the input string and are listed in increasing order of their start.", "quantifier": "every multiset of candidate matches (any number of rules, any mix of redacting and detect-only rules, any ranges)", "why_tests_cant": "Overlaps depend on how arbitrarily many rules interleave on one string; tests fix two or three rules and one string.", "anchors": ["sds/src/scanner/mod.rs::Scanner::scan", "sds/src/scanner/mod.rs::sort_and_remove_overlapping_rules"]}
{"id": "C02", "title": "No detected secret is dropped without an overlapping report", "statement": "Every candidate match that survives false-positive filtering is either reported, or overlaps a reported match of at least its priority; in particular a candidate of a redacting rule is either redacted itself or overlaps a redacted range that starts no later than it.", "quantifier": "every multiset of non-empty candidate matches", "why_tests_cant": "It is a coverage statement over all possible conflict patterns of matches.", "anchors": ["sds/src/scanner/mod.rs::sort_and_remove_overlapping_rules"]}
{"id": "C03", "title": "Conflict resolution is deterministic and order independent", "statement": "The set of reported matches of a string depends only on the set of candidate matches, not on the order in which rules or fields emitted them, nor on duplicates or the unstable sorts used internally; a detect-only rule never changes which redactions happen.", "quantifier": "every two lists of non-empty candidates with the same elements; every sorting algorithm that returns a sorted permutation", "why_tests_cant": "Unstable sorts and emission orders have factorially many behaviours.", "anchors": ["sds/src/scanner/mod.rs::sort_and_remove_overlapping_rules", "sds/src/scanner/mod.rs::ScannerContentVisitor::visit_content"]}
{"id": "C04", "title": "Redaction edits exactly the matched ranges", "statement": "The string after a scan is the input string with, for every reported match of a redacting rule, precisely the part selected by its action replaced by the action's replacement; every byte outside is preserved in order.", "quantifier": "every input string, every list of disjoint matches on character boundaries, every match action", "why_tests_cant": "Indices shift after each replacement; correctness for arbitrarily many replacements growing and shrinking the string needs an invariant over the shift.", "anchors": ["sds/src/scanner/mod.rs::apply_match_actions", "sds/src/scanner/mod.rs::apply_match_actions_for_string"]}
{"id": "C05", "title": "Reported indices point at the replaced text in the output", "statement": "For every reported match, the byte range start_index..end_index_exclusive of the output string is exactly the matched text after its own replacement, and shift_offset is the distance between the end of the match in the input and its end in the output.", "quantifier": "every input string and every sequence of reported matches", "why_tests_cant": "Index shifting is cumulative over an unbounded number of earlier replacements.", "anchors": ["sds/src/scanner/mod.rs::apply_match_actions_for_string", "sds/src/rule_match.rs::RuleMatch"]}
{"id": "C06", "title": "Applying match actions never panics on character boundaries", "statement": "If every candidate match is non-empty and lies on UTF-8 character boundaries of the string, then filtering, conflict resolution and redaction complete without an out-of-bounds or mid-character slice, whatever the actions are.", "quantifier": "every string, every list of non-empty candidates on character boundaries, every validated match action", "why_tests_cant": "A panic would need one unlucky combination of multi-byte characters and shifts out of infinitely many.", "anchors": ["sds/src/scanner/mod.rs::apply_match_actions_for_string", "sds/src/match_action.rs::get_replacement"]}
{"id": "C07", "title": "Returned match values are the original text", "statement": "When match values are returned, the value of each reported match equals the text of the match in the original (unredacted) string even though earlier matches have already been redacted in place.", "quantifier": "every string and every sequence of reported matches", "why_tests_cant": "The value is sliced from a partially rewritten buffer; only an invariant over all earlier rewrites settles it.", "anchors": ["sds/src/scanner/mod.rs::apply_match_actions_for_string"]}
{"id": "C08", "title": "Partial redaction hides exactly the requested characters", "statement": "Partial redaction of the first (last) n characters replaces exactly the first (last) n characters (not bytes) of the match - or the whole match when it has at most n characters - by n asterisks, and leaves the remaining characters of the match unchanged.", "quantifier": "every match text in any script and every n >= 1", "why_tests_cant": "Byte/character confusion only shows on particular multi-byte layouts; all must be covered.", "anchors": ["sds/src/match_action.rs::partial_redaction_first", "sds/src/match_action.rs::partial_redaction_last"]}
{"id": "C09", "title": "Detect-only scans do not modify the event", "statement": "If none of the scanner's rules redacts (all actions are None), the event after scan is identical to the event before, and every reported match has shift 0 and its original indices.", "quantifier": "every event, every set of detect-only rules, every blocked list", "why_tests_cant": "Quantifies over all events and rule sets.", "anchors": ["sds/src/scanner/mod.rs::scan", "sds/src/match_action.rs::is_mutating"]}
{"id": "C10", "title": "Scanning changes only the matched strings of an event", "statement": "A scan never changes the shape of the event (keys, list lengths, nesting); a string leaf changes only if a match of a redacting rule is reported at exactly its path, and each leaf is rewritten according to its own matches only.", "quantifier": "every nested event and every rule set", "why_tests_cant": "Frame property over all tree shapes and paths.", "anchors": ["sds/src/scanner/mod.rs::scan", "sds/src/simple_event.rs::visit_string_mut", "sds/src/event_json.rs"]}
{"id": "C11", "title": "Include scopes scan exactly the included subtrees", "statement": "A rule with an include scope is run on a string iff some include path is a prefix of the string's path; a rule with an exclude scope is run on every string.", "quantifier": "every list of rule scopes and every event path, with implicit index wildcards off", "why_tests_cant": "The rule tree is built incrementally with pruning; all insertion histories and paths must agree with the prefix specification.", "anchors": ["sds/src/scoped_ruleset/mod.rs::ScopedRuleSet::new", "sds/src/scoped_ruleset/mod.rs::insert_rule_inner", "sds/src/scoped_ruleset/mod.rs::push_segment"]}
{"id": "C12", "title": "Excluded paths suppress reports of exactly their subtrees", "statement": "A string's matches for a rule are treated as excluded iff some exclude path of that rule is a prefix of the string's path, no matter how excludes and includes overlap.", "quantifier": "every list of rule scopes and every event path", "why_tests_cant": "Same: unbounded nesting and interaction of scopes of several rules sharing one tree.", "anchors": ["sds/src/scoped_ruleset/mod.rs::ExclusionCheck::is_excluded", "sds/src/scoped_ruleset/mod.rs::insert_rule_inner"]}
{"id": "C13", "title": "Each rule runs at most once per string", "statement": "However many include paths cover a string (nested, duplicated, or reached through implicit index wildcards), each rule is run on it at most once.", "quantifier": "every list of scopes, every path, wildcards on or off", "why_tests_cant": "Duplicates arise only for particular overlaps of scopes; all histories of insertions have to be covered.", "anchors": ["sds/src/scoped_ruleset/mod.rs::visit_rule_indices", "sds/src/scoped_ruleset/mod.rs::recursively_remove", "sds/src/scoped_ruleset/bool_set.rs"]}
{"id": "C14", "title": "Rule selection depends only on the path", "statement": "While an event is traversed, the rules run on a string and its excluded status depend only on the path of that string - not on siblings visited before, their number, order or depth.", "quantifier": "every event tree, every traversal position", "why_tests_cant": "It is an invariant of the push/pop stack over unbounded traversals.", "anchors": ["sds/src/scoped_ruleset/mod.rs::push_segment", "sds/src/scoped_ruleset/mod.rs::pop_segment"]}
{"id": "C15", "title": "Implicit index wildcards skip list indices", "statement": "With implicit index wildcards enabled, a scope path selects a string iff it matches a prefix of the string's path after deleting some list indices from that prefix, where an index directly following a deleted index has to be deleted as well; without the option indices must match exactly.", "quantifier": "every scope path and event path", "why_tests_cant": "The implementation simulates an automaton with a stack of active trees; equivalence must hold for all index patterns.", "anchors": ["sds/src/scoped_ruleset/mod.rs::push_segment", "sds/src/scoped_ruleset/mod.rs::ActiveRuleTree"]}
{"id": "C16", "title": "Order and duplicates of scope paths are irrelevant", "statement": "Permuting or repeating the include or exclude paths of a rule never changes which strings it scans or which are excluded.", "quantifier": "every two scope lists with the same sets of paths", "why_tests_cant": "Insertion prunes and short-circuits, so the tree itself differs by order; the behaviour must not.", "anchors": ["sds/src/scoped_ruleset/mod.rs::ScopedRuleSet::new"]}
{"id": "C17", "title": "Multi-pass suppression is complete and order independent", "statement": "With multi-pass V0 on, a match in a scanned field is suppressed iff the same text was a true positive of some rule in a field excluded for that rule - wherever in the event that excluded field is, before or after the match.", "quantifier": "every event, rule set and traversal order of maps", "why_tests_cant": "Requires agreement over all traversal orders of the event.", "anchors": ["sds/src/scanner/mod.rs::scan", "sds/src/scanner/regex_rule/compiled.rs::TruePositiveSearch"]}
{"id": "C18", "title": "Excluded fields are never reported or redacted", "statement": "No match is reported for a rule in a string whose path is excluded for that rule, and such strings are not rewritten by that rule; with multi-pass off, excluded fields have no influence on other fields.", "quantifier": "every event and rule set", "why_tests_cant": "Quantifies over all events and scope configurations.", "anchors": ["sds/src/scanner/mod.rs::scan", "sds/src/scanner/regex_rule/compiled.rs"]}
{"id": "C19", "title": "Reported matches are genuine", "statement": "Every match emitted for a rule without required keywords is a match of the rule's regex at that position in that string, is accepted by the rule's checksum validator, and has no excluded keyword in front of it.", "quantifier": "every string, regex engine behaviour, validator and keyword list", "why_tests_cant": "The search restarts inside false positives; every restart sequence has to be sound.", "anchors": ["sds/src/scanner/regex_rule/compiled.rs::TruePositiveSearch::next", "sds/src/scanner/mod.rs::is_false_positive_match"]}
{"id": "C20", "title": "The search misses no valid match", "statement": "For a rule without required keywords, every position where the regex matches and the match passes the validator and excluded keyword checks is either the start of an emitted match or lies inside an earlier emitted match; matches are emitted left to right without overlap.", "quantifier": "every string and every regex whose matches are non-empty", "why_tests_cant": "Completeness over all candidate positions after arbitrary false-positive restarts.", "anchors": ["sds/src/scanner/regex_rule/compiled.rs::TruePositiveSearch::next", "sds/src/scanner/mod.rs::get_next_regex_start"]}
{"id": "C21", "title": "Scanning a string terminates", "statement": "For every accepted rule, scanning any finite string terminates. (The code only guarantees it if no match is empty; the acceptance check only rejects patterns matching the empty *string*.)", "quantifier": "every string and every accepted regex", "why_tests_cant": "Non-termination cannot be observed by a finite test; the problematic regexes (e.g. a bare word boundary) pass validation.", "anchors": ["sds/src/scanner/regex_rule/compiled.rs::TruePositiveSearch::next", "sds/src/validation.rs::validate_and_create_regex"]}
{"id": "C22", "title": "Blocked rules have no effect", "statement": "A rule listed as blocked for a scan contributes no reported match, no redaction and no multi-pass suppression: the scan result equals that of a scanner where this rule never matches.", "quantifier": "every event, rule set and blocked list", "why_tests_cant": "Quantifies over all rule interactions.", "anchors": ["sds/src/scanner/mod.rs::visit_content"]}
{"id": "C23", "title": "Required keywords: every emitted match is near a keyword", "statement": "For a rule with included keywords, every emitted match starts at or after the start of some keyword occurrence with at most look_ahead characters in between, or - when path matching is enabled - the field path contains a keyword.", "quantifier": "every string, keyword engine, look-ahead >= 1 and rule regex without empty matches", "why_tests_cant": "Position arithmetic in characters versus bytes and the skip-ahead optimisation must be right for every string.", "anchors": ["sds/src/scanner/regex_rule/compiled.rs::get_string_matches_with_included_keywords", "sds/src/proximity_keywords/mod.rs::is_index_within_prefix"]}
{"id": "C24", "title": "Required keywords: skip-ahead loses nothing", "statement": "For a rule with included keywords, for every keyword occurrence the first valid match at or after it is emitted whenever it starts within the look-ahead window - the skip-ahead jumps never lose such a match.", "quantifier": "every string, look-ahead, keyword and rule regex with non-empty matches", "why_tests_cant": "The optimisation jumps over unboundedly long stretches depending on the data.", "anchors": ["sds/src/scanner/regex_rule/compiled.rs::get_string_matches_with_included_keywords", "sds/src/proximity_keywords/included_keywords.rs"]}
{"id": "C25", "title": "The look-ahead window is measured in characters", "statement": "The window test accepts a match start iff at most look_ahead characters lie between keyword start and match start, for text of any script; the byte based shortcut never changes the answer; the backward window start is exactly look_ahead characters before the match (or the string start).", "quantifier": "every string, two character boundaries, every window size", "why_tests_cant": "A byte shortcut and character counting must agree on all multi-byte layouts.", "anchors": ["sds/src/proximity_keywords/mod.rs::is_index_within_prefix", "sds/src/proximity_keywords/mod.rs::get_prefix_start"]}
{"id": "C26", "title": "Excluded keywords veto exactly the matches preceded by them", "statement": "A match is vetoed iff one of the excluded keywords occurs in the look_ahead characters before the match (ignoring '-' and '_').", "quantifier": "every string, match position, keyword list and look-ahead", "why_tests_cant": "The implementation trims one character on both ends after stripping characters; only certain layouts expose the difference.", "anchors": ["sds/src/proximity_keywords/excluded_keywords.rs::contains_excluded_keyword_match"]}
{"id": "C27", "title": "Excluded keyword checks never panic", "statement": "Checking excluded keywords in front of a match never panics.", "quantifier": "every string and match start on a character boundary, every look-ahead", "why_tests_cant": "The panic needs a specific mix of stripped characters and a multi-byte character.", "anchors": ["sds/src/proximity_keywords/excluded_keywords.rs::contains_excluded_keyword_match"]}
{"id": "C28", "title": "Keyword configurations are accepted iff well formed", "statement": "A proximity keyword configuration is accepted iff the look-ahead is 1..50, each list has at most 50 keywords, no keyword is longer than the look-ahead and none is blank after normalisation; the error reported is the first violated condition in the documented order.", "quantifier": "every configuration", "why_tests_cant": "Decision table over unbounded lists and strings.", "anchors": ["sds/src/proximity_keywords/mod.rs::compile_keywords_proximity_config", "sds/src/proximity_keywords/mod.rs::compile_keywords_to_ast"]}
{"id": "C29", "title": "Keywords match whole words, case-insensitively", "statement": "A keyword is found at a position of the content iff the content there equals the keyword up to case and, where the keyword begins or ends with an ASCII letter or digit, the neighbouring character is not an ASCII word character.", "quantifier": "every keyword and every content", "why_tests_cant": "Word-boundary assertions at both ends over all texts.", "anchors": ["sds/src/proximity_keywords/mod.rs::calculate_keyword_content_pattern", "sds/src/proximity_keywords/mod.rs::word_boundary"]}
{"id": "C30", "title": "The path normalisation shortcut is invisible", "statement": "Normalising a field name that consists only of lower-case or only of upper-case ASCII letters through the fast path gives the same text as the general algorithm followed by ASCII lower-casing; the normalised path is the '.'-join of the normalised field names.", "quantifier": "every path", "why_tests_cant": "Equivalence of two algorithms on all strings.", "anchors": ["sds/src/path.rs::Path::sanitize", "sds/src/path.rs::PathSegment::sanitize", "sds/src/proximity_keywords/mod.rs::should_bypass_standardize_path", "sds/src/proximity_keywords/mod.rs::standardize_path_chars"]}
{"id": "C31", "title": "Luhn validation is exactly the Luhn checksum", "statement": "The Luhn validator accepts a text iff it has at least one digit and the Luhn sum of its digits (non-digits ignored) is 0 modulo 10; changing any single digit of an accepted text makes it rejected, and for each payload exactly one check digit is accepted.", "quantifier": "every text", "why_tests_cant": "Quantifies over all digit strings of any length.", "anchors": ["sds/src/secondary_validation/luhn_checksum.rs"]}
{"id": "C32", "title": "NHS validation follows the published algorithm", "statement": "The NHS validator accepts a text iff it contains exactly 10 digits and the weighted modulo-11 check of the NHS data dictionary holds.", "quantifier": "every text", "why_tests_cant": "The implementation walks the digits from the wrong end and does not check the count; only a proof separates the inputs on which that matters.", "anchors": ["sds/src/secondary_validation/nhs_check_digit.rs"]}
{"id": "C33", "title": "NIR validation is exactly the key formula", "statement": "The NIR validator accepts a text iff it has exactly 15 digits and the last two equal 97 minus the first thirteen (as a number) modulo 97, without overflow.", "quantifier": "every text", "why_tests_cant": "All digit strings; 64-bit arithmetic must not overflow on any of them.", "anchors": ["sds/src/secondary_validation/nir_checksum.rs"]}
{"id": "C34", "title": "Chinese ID validation is exactly ISO 7064 MOD 11-2", "statement": "The validator accepts a text iff it is 17 ASCII digits followed by the correct check character (digit or X/x); every single-digit error and every adjacent transposition of different digits is detected.", "quantifier": "every text", "why_tests_cant": "All 10^17 numbers and all non-ASCII texts of 18 bytes.", "anchors": ["sds/src/secondary_validation/chinese_id_checksum.rs"]}
{"id": "C35", "title": "GitHub token validation checks the embedded checksum", "statement": "A token is accepted iff the part after the last underscore is alphanumeric, longer than six characters, and its last six characters are the base-62 encoding (zero padded to six) of the CRC32 of the rest.", "quantifier": "every text, every CRC function", "why_tests_cant": "CRC values that need padding are about 1 in 5 tokens but no test contains one.", "anchors": ["sds/src/secondary_validation/github_token_checksum.rs"]}
{"id": "C36", "title": "JWT validation is decided by structure and expiry", "statement": "A JWT is accepted iff it has exactly three dot-separated segments whose first two decode to JSON and whose payload either has no exp or has an integer exp greater than the current time; once expired a token stays rejected as time advances.", "quantifier": "every text, every decoder behaviour, every clock value", "why_tests_cant": "Quantifies over time and all encodings.", "anchors": ["sds/src/secondary_validation/jwt_expiration_checker.rs"]}
{"id": "C37", "title": "Validating matches keeps every match", "statement": "Validating a list of matches returns the same matches (only their status may change).", "quantifier": "every list of matches and every scanner", "why_tests_cant": "The loss shows only for mixtures of rules with and without validation.", "anchors": ["sds/src/scanner/mod.rs::validate_matches"]}
{"id": "C38", "title": "Match status merging is schedule independent", "statement": "The final status of a match is the highest-priority status among its initial status and the outcomes of all its checks, independently of the order in which parallel checks finish and of map iteration order; a status never decreases.", "quantifier": "every multiset of outcomes and every order", "why_tests_cant": "Factorially many schedules.", "anchors": ["sds/src/match_validation/match_status.rs::merge", "sds/src/match_validation/aws_validator.rs", "sds/src/match_validation/http_validator.rs"]}
{"id": "C39", "title": "AWS validation tries every id/secret pair", "statement": "An AWS id (secret) match ends Valid iff some combination with a secret (id) match of the list is accepted by the endpoint (or it was Valid before); with no partner its status is unchanged.", "quantifier": "every list of matches and every endpoint behaviour", "why_tests_cant": "All pairings over unbounded lists.", "anchors": ["sds/src/match_validation/aws_validator.rs::get_match_status_per_pairs_of_matches_idx", "sds/src/match_validation/aws_validator.rs::merge_returned_match_status_with_better_status"]}
{"id": "C40", "title": "HTTP responses are classified by the configured ranges", "statement": "A response makes a match Valid iff its code lies in a configured valid range, Invalid iff it lies in none of those but in an invalid range, and Error otherwise; each rule is validated with its own configuration.", "quantifier": "every configuration, response and list of rules", "why_tests_cant": "Rules sharing endpoints but not headers only conflict in combination.", "anchors": ["sds/src/match_validation/http_validator.rs::handle_reqwest_response", "sds/src/match_validation/config.rs::get_internal_match_validation_type", "sds/src/scanner/mod.rs::ScannerBuilder::build"]}
{"id": "C41", "title": "The regex store never mixes up live regexes", "statement": "Over any history of compilations, drops and garbage collections, the pattern index and the slot map stay in bijection, a lookup returns a regex registered for exactly that pattern, and while some scanner still holds a regex for a pattern every later request for this pattern returns that same regex.", "quantifier": "every interleaving of get/insert/drop/gc of any number of clients", "why_tests_cant": "Invariant over unbounded histories.", "anchors": ["sds/src/scanner/regex_rule/regex_store.rs"]}
{"id": "C42", "title": "Concurrent compilation yields one shared regex", "statement": "If several threads compile the same pattern concurrently (lookup, compile outside the lock, insert), all threads that obtain a regex while an earlier one is alive obtain the same one, under every interleaving; nobody ever receives a regex compiled for another pattern.", "quantifier": "every number of threads and every schedule", "why_tests_cant": "Schedules cannot be enumerated by tests.", "anchors": ["sds/src/scanner/regex_rule/regex_store.rs::get_memoized_regex_with_custom_store"]}
{"id": "C43", "title": "Rule behaviour is independent of process history", "statement": "Whether a rule is accepted and what it matches depends only on its own configuration, not on which other scanners are alive in the process.", "quantifier": "every history of scanner creations", "why_tests_cant": "Needs a particular pair of configurations alive at the same time; state is global.", "anchors": ["sds/src/scanner/regex_rule/regex_store.rs::get_memoized_regex", "sds/src/proximity_keywords/mod.rs::compile_keywords", "sds/src/scanner/regex_rule/config.rs::convert_to_compiled_rule"]}
{"id": "C44", "title": "Garbage collection is invisible and complete", "statement": "Garbage collection removes exactly the store entries nobody uses: it never changes the outcome of a lookup, never drops a regex in use, and after it runs every remaining entry is in use (when owners drop regexes during the collection: was in use when the collection looked at it); the store never holds more than the entries found in use by the last collection plus the ones added since, which are at most 1000, and a collection happens at least every 1000 insertions.", "quantifier": "every store state reachable by any history", "why_tests_cant": "Invariant over histories longer than any test.", "anchors": ["sds/src/scanner/regex_rule/regex_store.rs::gc", "sds/src/scanner/regex_rule/regex_store.rs::insert"]}
{"id": "C45", "title": "Scanner gauge equals live scanners", "statement": "After any sequence (any interleaving) of scanner creations, failed creations and drops, the exported total equals the number of scanners alive.", "quantifier": "every interleaving of create/fail/drop", "why_tests_cant": "Unbounded histories and interleavings.", "anchors": ["sds/src/stats.rs", "sds/src/scanner/mod.rs::ScannerBuilder::build", "sds/src/scanner/mod.rs::Drop for Scanner"]}
{"id": "C46", "title": "Scanner creation reports the first faulty rule", "statement": "Building a scanner succeeds iff every rule is valid; otherwise the error is that of the first faulty rule, and within a rule regex errors precede action errors, which precede keyword errors; the compiled rules keep their positions as indices.", "quantifier": "every list of rule configurations", "why_tests_cant": "Error precedence over arbitrary lists.", "anchors": ["sds/src/scanner/mod.rs::ScannerBuilder::build", "sds/src/scanner/regex_rule/config.rs::convert_to_compiled_rule"]}
{"id": "C47", "title": "Error codes of the native interface are unambiguous", "statement": "The native create call maps different outcomes (each error kind, unknown error, panic, success) to different codes, so the caller can tell them apart.", "quantifier": "every pair of outcomes", "why_tests_cant": "An exhaustive statement over outcome kinds.", "anchors": ["sds/src/scanner/error.rs", "sds-go/rust/src/native/mod.rs", "sds-go/go/scanner.go::CreateScanner"]}
{"id": "C48", "title": "Go event encoding is decoded faithfully", "statement": "Decoding the byte encoding that the Go binding produces for an event (string, map, list, nested arbitrarily) visits exactly the event's strings, each once, with exactly its path, and leaves the traversal stack balanced.", "quantifier": "every event whose keys/strings are valid UTF-8 and shorter than 2^32 bytes, every map order", "why_tests_cant": "Round trip over all nested events.", "anchors": ["sds-go/go/scanner.go::encodeValueRecursive", "sds-bindings-utils/src/binary_encoding.rs::visit_event"]}
{"id": "C49", "title": "Responses round-trip to Go", "statement": "Decoding an encoded response yields the same matches (rule index, path text, replacement type, indices, signed shift) in order and the same mutations.", "quantifier": "every list of matches with 32-bit indices and every storage", "why_tests_cant": "All values, including negative shifts.", "anchors": ["sds-bindings-utils/src/binary_encoding.rs::encode_response", "sds-go/go/scanner.go::decodeMatchResponse", "sds-go/go/scanner.go::decodeMutation"]}
{"id": "C50", "title": "Mutations reach the right field of the Go event", "statement": "Applying an encoded response to the Go event replaces exactly the mutated strings at exactly their paths; everything else is unchanged and no error or panic occurs.", "quantifier": "every nested event with valid UTF-8 keys and every set of mutated leaf paths", "why_tests_cant": "Frame property over nested maps and lists.", "anchors": ["sds-go/go/scanner.go::applyStringMutationMap", "sds-bindings-utils/src/binary_encoding.rs::encode_mutation"]}
{"id": "C51", "title": "Redaction reaches the caller for any field name", "statement": "If a field's content is redacted, the event the Go caller holds no longer contains the original content at that field - also when field names are not valid UTF-8.", "quantifier": "every byte string used as key", "why_tests_cant": "Needs invalid UTF-8 keys, which lossy decoding maps to other keys.", "anchors": ["sds-bindings-utils/src/binary_encoding.rs::visit_event", "sds-go/go/scanner.go::applyStringMutationMapWithTag"]}
{"id": "C52", "title": "Accepted patterns respect the nesting limit", "statement": "Parsing a pattern never recurses deeper than the limit and always terminates; a pattern whose groups nest too deeply is rejected with the depth error rather than overflowing the stack.", "quantifier": "every pattern string", "why_tests_cant": "All strings, arbitrary depth.", "anchors": ["sds/src/parser/regex_parser.rs"]}
{"id": "C53", "title": "Accepted patterns respect the quantifier limit", "statement": "Conversion succeeds only if every counted repetition in the pattern is at most 3000 (and ordered), at any depth.", "quantifier": "every parsed pattern", "why_tests_cant": "All syntax trees.", "anchors": ["sds/src/normalization/rust_regex_adapter.rs"]}
{"id": "C54", "title": "Inline flags take effect sequentially", "statement": "The flags in effect after an inline flag group are those obtained by applying additions and then removals in order to the flags before it.", "quantifier": "every list of flags", "why_tests_cant": "All lists.", "anchors": ["sds/src/normalization/rust_regex_adapter.rs::convert_flags"]}
{"id": "C55", "title": "Every string of an event is visited exactly once", "statement": "Traversing an event visits each string leaf exactly once, at its own path, with the field named message (of simple events) first; rewriting at a visited path addresses the same leaf.", "quantifier": "every nested event", "why_tests_cant": "All tree shapes.", "anchors": ["sds/src/simple_event.rs", "sds/src/event_json.rs", "sds/src/event.rs"]}
{"id": "C56", "title": "Scanning JSON never panics", "statement": "Scanning any JSON value with any accepted rules completes without panic.", "quantifier": "every JSON value and rule set", "why_tests_cant": "Only matches inside numbers or booleans trigger the panic.", "anchors": ["sds/src/event_json.rs::visit_string_mut", "sds/src/scanner/mod.rs::scan"]}
{"id": "C57", "title": "Displayed paths", "statement": "Two different paths are displayed differently, so a consumer of the textual path can locate the field.", "quantifier": "every pair of paths", "why_tests_cant": "Collisions need unusual field names.", "anchors": ["sds/src/path.rs::Display", "sds-bindings-utils/src/binary_encoding.rs::encode_match"]}
{"id": "C58", "title": "Path prefix test and ordering", "statement": "starts_with holds iff the prefix's segments are an initial part of the path; it is a partial order on paths, and the derived comparison of paths used as map key is a total order consistent with equality.", "quantifier": "every pair/triple of paths", "why_tests_cant": "Order laws over all paths.", "anchors": ["sds/src/path.rs::starts_with", "sds/src/path.rs::Path"]}
{"id": "C59", "title": "Pool sizing", "statement": "The cache pool uses the smallest supported number of stacks that is at least the CPU count, capped at 64 and at least 4.", "quantifier": "every count", "why_tests_cant": "All counts.", "anchors": ["sds/src/scanner/shared_pool.rs::SharedPool::new"]}
{"id": "C60", "title": "Host substitution in validator endpoints", "statement": "A validator configuration is accepted iff the endpoint mentions the host placeholder exactly when hosts are given; it then has one endpoint per host with all placeholders substituted (or the endpoint itself), never an empty endpoint list.", "quantifier": "every endpoint text and host list", "why_tests_cant": "All texts and lists.", "anchors": ["sds/src/match_validation/config.rs::HttpValidatorConfig::new"]}
{"id": "C61", "title": "Complexity estimation finds the exact limit", "statement": "The complexity estimate of an accepted pattern is the smallest limit at which the pattern still compiles, provided compilability is monotone in the limit and at most ten times the default.", "quantifier": "every pattern and monotone compile oracle", "why_tests_cant": "Binary search correctness for all oracles.", "anchors": ["sds/src/validation.rs::get_regex_complexity_estimate_very_slow"]}
{"id": "C62", "title": "Searches use the cache of their own regex", "statement": "Over any history of compilations, drops, garbage collections and searches, a search with a regex always gets a scratch cache created by that same regex, although cache maps are shared by all scanners and slots are reused, and fetching the cache never panics.", "quantifier": "every interleaving of any number of scanners, searches and pooled cache maps", "why_tests_cant": "Depends on slot reuse over unbounded histories.", "anchors": ["sds/src/scanner/regex_rule/regex_cache_store.rs::raw_get", "sds/src/scanner/regex_rule/regex_store.rs"]}
{"id": "C63", "title": "Secrets are gone after the scan", "statement": "If a redacting rule genuinely matches a piece of text in a string that it scans and does not exclude, the rule is not blocked and the text was not found in an excluded field, then after the scan the string holds the rule's replacement in place of that text, and the match is reported at the position of the replacement.", "quantifier": "all events of any kind, all scanners, all rules and all genuine matches", "why_tests_cant": "The claim composes search, validators, scopes, suppression, conflict resolution and rewriting, for every event and every other rule present.", "anchors": ["sds/src/scanner/mod.rs::scan", "sds/src/scanner/mod.rs::apply_match_actions", "sds/src/scanner/mod.rs::sort_and_remove_overlapping_rules"]}
{"id": "C64", "title": "Rules configured in Go arrive unchanged", "statement": "A rule configuration built in Go is accepted exactly if its action type, redaction direction and validator name are known, and the Rust rule made from it has the same pattern, action with parameters, keyword configuration and validator, with everything else at its default.", "quantifier": "all Go rule configurations", "why_tests_cant": "The two sides are written separately in two languages, with hand-written marshalling on one side and derived parsing on the other; strings and combinations of fields are unbounded.", "anchors": ["sds-go/go/regex_rule.go::MarshalJSON", "sds-go/go/regex_rule.go::CreateRule", "sds-go/rust/src/native/rule.rs::create_regex_rule", "sds/src/scanner/regex_rule/config.rs::RegexRuleConfig"]}
{"id": "C65", "title": "The native interface is memory safe", "statement": "If a caller uses only handles that it was given and has not given back, no native call touches freed memory or an object of another kind, also when rules and lists are freed while lists and scanners made from them are in use; when all handles are given back, nothing is left allocated.", "quantifier": "all sequences of native calls, all allocators", "why_tests_cant": "Use after free and leaks depend on unbounded histories, on address reuse and on reference counts; a test that touches freed memory may still pass.", "anchors": ["sds-go/rust/src/native/rule.rs", "sds-go/rust/src/native/create_scanner.rs", "sds-go/rust/src/native/scan.rs", "sds-go/rust/src/native/delete_scanner.rs"]}
{"id": "C66", "title": "A scanner gets the rules appended to its list", "statement": "A scanner created from a native rule list is built from exactly the rules that were appended to the list since it was created, in order.", "quantifier": "all sequences of native calls", "why_tests_cant": "Depends on the history of the list, including earlier failed calls.", "anchors": ["sds-go/rust/src/native/rule.rs::append_rule_to_list", "sds-go/rust/src/native/create_scanner.rs::create_scanner"]}
{"id": "C67", "title": "The Go package leaks nothing", "statement": "Creating a scanner in Go returns a scanner built from all the rules, or an error; on success the only native object left behind is the scanner, on an error none, and scanning and deleting leave nothing behind either.", "quantifier": "all rule lists, all events, all outcomes including panics, all allocators", "why_tests_cant": "Leaks on error paths are invisible to tests that look at results.", "anchors": ["sds-go/go/scanner.go::CreateScanner", "sds-go/go/scanner.go::lowLevelScan", "sds-go/go/scanner.go::Delete", "sds-go/go/rule.go"]}
{"id": "C68", "title": "Converting a pattern keeps its meaning", "statement": "The pattern that is given to the Rust regex crate matches exactly the texts that the SDS pattern matches: same sets of characters, groups, greediness, order of alternatives, assertions, and the same effect and scope of inline flags.", "quantifier": "all patterns the parser accepts, all texts, all Unicode tables that satisfy a few stated laws", "why_tests_cant": "The tests compare the converted text with an expected text for about a hundred patterns; whether the two syntaxes agree depends on flags, scopes and Unicode characters in combination.", "anchors": ["sds/src/normalization/rust_regex_adapter.rs::convert_to_rust_regex", "sds/src/normalization/rust_regex_adapter.rs::convert_ast", "sds/src/normalization/rust_regex_adapter.rs::convert_literal"]}
{"id": "C69", "title": "A required keyword in the path of a field", "statement": "With keywords in paths enabled, the path of a field contains a required keyword iff the words of the keyword occur consecutively among the words of the path, whatever the case, the separators (- _ . / space or camel case) and the indices in between; then every match of the rule in the field is emitted, otherwise the result is that of scanning without path matching.", "quantifier": "every list of keywords, path, content and lawful regex", "why_tests_cant": "Names, separators, nesting and positions of words are unbounded.", "anchors": ["sds/src/proximity_keywords/mod.rs::calculate_keyword_path_pattern", "sds/src/proximity_keywords/mod.rs::standardize_path_chars", "sds/src/proximity_keywords/mod.rs::contains_keyword_in_path", "sds/src/scanner/regex_rule/compiled.rs::get_string_matches_with_included_keywords"]}
{"id": "C70", "title": "What regex validation says about a pattern", "statement": "Validation of a pattern always returns; it accepts iff the pattern can be read as a tree nesting less than 50 deep with counts of at most 3000, the engine builds the translated pattern within the limit and the regex does not match the empty text; each error is reported in exactly the case it names.", "quantifier": "every pattern text, every engine whose errors are size limit or syntax", "why_tests_cant": "All pattern texts, and every combination of faults in one pattern.", "anchors": ["sds/src/validation.rs::validate_and_create_regex", "sds/src/validation.rs::validate_regex", "sds/src/normalization/rust_regex_adapter.rs::convert_to_rust_regex"]}
{"id": "C71", "title": "The text of a converted pattern means what its tree means", "statement": "For every pattern whose quantifiers repeat one unit, whose flag groups set a flag, whose ranges and counts are in order, whose group names are distinct and that repeats no ignored whitespace, the regex crate's grammar reads the printed pattern as a tree that differs from the converted tree only in the bracketing of sequences; so the text handed to the crate matches what the SDS pattern matches (where C68 holds).", "quantifier": "every pattern text, every Unicode table, every text and position", "why_tests_cant": "All patterns: nesting, escapes, flags and classes combine without bound, and the printed text is read by a different grammar.", "anchors": ["sds/src/normalization/rust_regex_adapter.rs::convert_to_rust_regex", "sds/src/normalization/rust_regex_adapter.rs::convert_ast", "sds/src/normalization/rust_regex_adapter.rs::convert_literal", "sds/src/normalization/rust_regex_adapter.rs::convert_bracket_items", "sds/src/parser/regex_parser.rs::parse_regex_pattern"]}
{"id": "C72", "title": "Bytes that are not UTF-8 become exactly one U+FFFD per ill-formed part", "statement": "Text received as bytes is read so that every well-formed character is kept and every maximal ill-formed part (Unicode 3.9, D93b) becomes one U+FFFD; Go's JSON encoder instead writes one U+FFFD for each byte that begins no character, so the two differ on truncated sequences.", "quantifier": "every byte sequence", "why_tests_cant": "All byte sequences of any length; overlong, surrogate and truncated forms meet each other and valid text.", "anchors": ["sds-bindings-utils/src/binary_encoding.rs::visit_event", "sds-go/rust/src/native/mod.rs::read_json", "sds-go/go/regex_rule.go::CreateRule"]}
{"id": "C73", "title": "The AWS secret that is sent is the one in the match", "statement": "For every match text that contains exactly one AWS secret (forty characters A-Z, a-z, 0-9, / or +, set off by other characters), this secret is the one the AWS validator signs its request with; and in general it is the leftmost match of the extraction pattern, or nothing.", "quantifier": "every match text, every secret, every table of word characters", "why_tests_cant": "The outcome depends on the last character of the secret and on what follows it; the unit tests use one example secret.", "anchors": ["sds/src/match_validation/aws_validator.rs::extract_aws_secret_from_match", "sds/src/match_validation/aws_validator.rs::AWS_SECRET_REGEX", "sds/src/match_validation/aws_validator.rs::AwsValidator::validate"]}
{"id": "C74", "title": "A rule configuration survives being written and read", "statement": "Every regex rule configuration that is serialised and deserialised again comes back unchanged; the order of its fields and fields with unknown names do not matter; a pattern and an action are enough, the missing fields having their documented defaults.", "quantifier": "every rule configuration (action, scope, keywords, validator, labels, match validation with its time limits and status ranges), every order of fields, every set of unknown fields", "why_tests_cant": "The type is a nest of tagged unions, each with its own attributes, and tests check a few of the combinations.", "anchors": ["sds/src/scanner/regex_rule/config.rs::RegexRuleConfig", "sds/src/match_action.rs::MatchAction", "sds/src/scanner/scope.rs::Scope", "sds/src/path.rs::PathSegment", "sds/src/observability/labels.rs::Labels", "sds/src/match_validation/config.rs::MatchValidationType"]}
{"id": "C75", "title": "The counters of a scan count what their names say", "statement": "Counting does not change the result of a scan. For every scan that returns, scanned_events goes up by one and scanning.match_count by the number of matches returned; for every rule, false_positive.multipass.excluded_match goes up by the number of its matches that are dropped because their text was found in an excluded field, and false_positive.proximity_keywords by the number of its matches that are dropped because of an excluded keyword.", "quantifier": "every scanner, event, list of blocked rules; every regex, excluded keyword list and content", "why_tests_cant": "Tests check that a counter is incremented in one example with one match of one length; how often the search meets the same match depends on the content.", "anchors": ["sds/src/scanner/mod.rs::Scanner::scan", "sds/src/scanner/metrics.rs::ScannerMetrics", "sds/src/scanner/regex_rule/compiled.rs::on_excluded_match_multipass_v0", "sds/src/proximity_keywords/excluded_keywords.rs::is_false_positive_match"]}
{"id": "C76", "title": "From the text of a pattern to the scanned event", "statement": "If a pattern is accepted and a rule with it is the only redacting rule of a scanner, then after a scan every place of every scanned string where the pattern (as documented, not as translated) matches lies in a part of the string that is itself a match of the pattern and that has been replaced and reported.", "quantifier": "every pattern, every engine that chooses among the matches of the expression it reads, every scanner, event and string", "why_tests_cant": "It is a statement about all patterns and all texts at once, through six stages (parser, translation, printing, the crate's own parser, search, redaction) that tests check one by one on examples.", "anchors": ["sds/src/normalization/rust_regex_adapter.rs::convert_to_rust_regex", "sds/src/validation.rs::validate_and_create_regex", "sds/src/scanner/regex_rule/compiled.rs::get_string_matches", "sds/src/scanner/mod.rs::Scanner::scan"]}
{"id": "C77", "title": "The matches of a scan are validated with the text that was found", "statement": "Validating what a scan returned always returns, with every match of a rule that has a validation type and nothing else changed but the status; the text that is validated is the part of the event where the match was found, before anything was replaced. The status of a match checked over HTTP is decided by the replies for that text, and an AWS id is valid exactly if a secret found in the same event is accepted with it (and the other way round).", "quantifier": "every scanner, event, list of validation types, network and order in which requests are made", "why_tests_cant": "Tests validate matches of one event against a local server; that redaction never disturbs the text that is sent, for all rules, events and schedules, is out of their reach.", "anchors": ["sds/src/scanner/mod.rs::Scanner::scan", "sds/src/scanner/mod.rs::Scanner::validate_matches", "sds/src/match_validation/aws_validator.rs::AwsValidator", "sds/src/match_validation/http_validator.rs::HttpValidator", "sds/src/match_validation/validator_utils.rs::generate_aws_headers_and_body"]}
{"id": "C78", "title": "The gauges of the regex store show its state", "statement": "Whenever no collection is running, the exported total_regexes is the number of patterns in the regex store, and the exported total_regex_cache_size is the sum of the cache sizes of the regexes in the store.", "quantifier": "every number of clients, every interleaving of lookups, insertions, collections and drops, every cache size", "why_tests_cant": "No test reads the gauges, and the property is about every history of the process.", "anchors": ["sds/src/scanner/regex_rule/regex_store.rs::RegexStore::insert", "sds/src/scanner/regex_rule/regex_store.rs::RegexStore::gc", "sds/src/stats.rs::Stats::add_total_regex_cache", "sds/src/stats.rs::Stats::set_total_regexes"]}
{"id": "C79", "title": "A rule finds what a backtracking search of its pattern finds", "statement": "With an engine that chooses leftmost-first for the translated text, a regex rule finds exactly the matches that a left-to-right backtracking search of the pattern as written finds (first alternative first, greedy repetitions longest first, lazy ones shortest first, each match starting at or after the end of the previous one), of those that pass the checks of the rule.", "quantifier": "every pattern that is accepted and within the limits of C76, every Unicode table, every content, every validator and list of excluded keywords", "why_tests_cant": "The tests compare a few patterns with expected matches; which of several matches is chosen depends on the whole structure of the pattern, and the space of patterns and contents is infinite.", "anchors": ["sds/src/normalization/rust_regex_adapter.rs::convert_to_rust_regex", "sds/src/scanner/regex_rule/compiled.rs::RegexCompiledRule::true_positive_matches", "sds/src/validation.rs::validate_and_create_regex"]}
{"id": "C80", "title": "A scanner does what the configurations of its rules ask for", "statement": "A scanner is built exactly if every pattern is accepted, every action is valid and all keywords are within the limits. The built scanner has, rule by rule, the scope, action, validation and features given. A rule without required keywords finds, from left to right, exactly the preferred matches of its own pattern that its own validator accepts and in front of which none of its own excluded keywords (trimmed, without - and _) is found; a rule with required keywords finds only matches within its look-ahead count of one of its own trimmed keywords; its validator accepts exactly the texts with the checksum or form that its name says. Every scanner built this way meets the assumptions of C01-C18.", "quantifier": "every list of rule configurations, every feature setting, every behaviour of the other crates that meets their contracts, every content and path", "why_tests_cant": "The configuration passes through compilation, a memoizing store, index arithmetic and cloning before it takes effect; tests look at single features of single rules, and a swap between rules or between keyword lists shows only for particular combinations.", "anchors": ["sds/src/scanner/mod.rs::ScannerBuilder::build", "sds/src/scanner/regex_rule/config.rs::RegexRuleConfig::convert_to_compiled_rule", "sds/src/secondary_validation/mod.rs", "sds/src/proximity_keywords/mod.rs::compile_keywords_proximity_config"]}
{"id": "C81", "title": "From rules and events of the Go package to the redacted event", "statement": "CreateScanner succeeds exactly if all patterns are accepted, no partial redaction is of no characters and all keywords are within the limits. After CreateScanner and ScanEventsMap, every string of the caller's event is cut at the matches that the configured patterns, validators, excluded and required keywords ask for and that remain after resolving overlaps; each is rewritten by the action of its rule, everything else is unchanged, and the reported matches are exactly these with their places in the new text. There is only one such cut, provided no keyword is found within another one. With NewRedactingRule(id, pattern, value) alone, every string has value in place of every match that a search from left to right finds.", "quantifier": "every list of Go rules, every Go event within the size limits, every behaviour of the other crates that meets their contracts", "why_tests_cant": "The claim spans JSON encoding of rules, pattern conversion, the regex store, scanning, overlap resolution, the response format and its decoding; end-to-end tests sample a handful of rules and events, and an error at one boundary can be hidden by the choice of texts.", "anchors": ["sds-go/go/scanner.go::CreateScanner", "sds-go/go/scanner.go::ScanEventsMap", "sds-go/go/regex_rule.go::NewRedactingRule", "sds-go/rust/src/native/create_scanner.rs", "sds-go/rust/src/native/scan.rs", "sds/src/scanner/mod.rs::Scanner::scan"]}
{"id": "C82", "title": "Patterns are read as the syntax says", "statement": "A text is read as an expression exactly if it denotes this expression in a declarative syntax of patterns (sequences, alternatives, groups, flags, quantifiers, assertions, classes, POSIX and Unicode names, ranges, quotations, control, hexadecimal and other escapes), with the precedence of longer constructs written as side conditions. A text denotes one expression at most. The parser accepts exactly the texts that denote an expression whose groups nest less than 50 deep, and refuses all others with an error; a text that denotes a deeper expression is refused with the depth error.", "quantifier": "every text and every expression", "why_tests_cant": "The order of the alternatives of the parser decides how ambiguous texts are read, for instance a backslash before a letter, a dash in a class, a brace that may or may not begin a quantifier, or a question mark after a parenthesis; tests compare a list of patterns with their expressions and cannot show that no other text is accepted or read differently.", "anchors": ["sds/src/parser/regex_parser.rs::parse_regex_pattern", "sds/src/parser/regex_parser.rs::atomic", "sds/src/parser/regex_parser.rs::quantifier", "sds/src/parser/regex_parser.rs::group", "sds/src/parser/regex_parser.rs::bracket_character_class", "sds/src/parser/regex_parser.rs::escaped_literal", "sds/src/parser/regex_parser.rs::hex_escaped_literal", "sds/src/parser/regex_parser.rs::character_class"]}
{"id": "C83", "title": "Rules of one kind share their data, and only they", "statement": "Building a scanner never fails because of the configuration of rule kinds; the configuration of a type is made by the first rule with this type and processed by all rules with this type in order. In a scan every enabled rule in scope is called once on every string, and is given the data left by the last call on the same string with this type of data (new data for each string), the configuration of its type, and the cache left by the last call of the scan with this type of cache (a new cache for each scan). No lookup and no downcast fails, so a scan panics only if a rule does. Rules that have no type in common with the others are given the same values and find the same if the others are blocked. For every scan there is a scanner of rules without data with the same result, in which rules that do not use their data, such as regex rules, are unchanged.", "quantifier": "every list of rules of any kinds with any types and functions, every lawful event, every list of blocked rules", "why_tests_cant": "The maps are keyed by type identifiers and hold boxed values of any type; that every unwrap and downcast succeeds, and that nothing flows between unrelated kinds, strings or scans, is a statement about all combinations of rule kinds, of which the tests of the library define one.", "anchors": ["sds/src/scanner/mod.rs::CompiledRuleDyn", "sds/src/scanner/mod.rs::CompiledRule", "sds/src/scanner/mod.rs::ScannerBuilder::build", "sds/src/scanner/mod.rs::ScannerContentVisitor::visit_content", "sds/src/scanner/mod.rs::Scanner::scan", "sds/src/scanner/regex_rule/compiled.rs::RegexCompiledRule"]}
{"id": "C84", "title": "Counters have the labels of their scanner and rule", "statement": "After any number of scans by any scanners, at the same time or not, the counters scanned_events, scanning.match_count and scanning.duration with labels L are the number of scans, of returned matches, and the time of the scanners with labels L. false_positive.multipass.excluded_match with labels L is the number of dropped matches of the rules for which L is the labels of the scanner followed by those of the rule, and false_positive.proximity_keywords the number of matches ruled out by excluded keywords of the rules for which L is in addition followed by type:excluded_keywords. Scanners and rules with equal labels share their counters, others never do; a scan adds only to counters its scanner has registered, and counting does not change its result.", "quantifier": "every list of finished scans with any scanners, labels, events and blocked rules, every interleaving of their increments, every list of labels", "why_tests_cant": "Tests install a recorder and look at one counter after one scan; that no other rule or scanner adds to it, for any labels and any concurrent scans, is a statement about all of them.", "anchors": ["sds/src/observability/labels.rs::Labels::clone_with_labels", "sds/src/scanner/metrics.rs::RuleMetrics::new", "sds/src/scanner/metrics.rs::ScannerMetrics::new", "sds/src/scanner/regex_rule/config.rs::RegexRuleConfig::convert_to_compiled_rule", "sds/src/proximity_keywords/mod.rs::compile_keywords_proximity_config", "sds/src/scanner/mod.rs::Scanner::scan"]}
{"id": "C85", "title": "Required keywords select among the matches", "statement": "If no occurrence of a required keyword overlaps an accepted match of the regex, the matches that a rule with required keywords emits in a string are a selection, in the same order and each once, from the matches it would emit without keywords (followed by all of these when the path has a keyword): every selected match has a keyword that starts at most the look-ahead count of characters before it, and every match that has one is selected. The selection does not depend on how the keyword search breaks ties, if no keyword lies inside another. In an excluded field, the recorded texts are those of the matches from the first keyword on.", "quantifier": "every string, path, look-ahead count, rule regex with non-empty matches, validator and keyword search", "why_tests_cant": "The loop interleaves two searches that move each other's position; tests look at a few strings with one or two keywords, and what is lost or found twice depends on how keywords and matches alternate over the whole string.", "anchors": ["sds/src/scanner/regex_rule/compiled.rs::get_string_matches_with_included_keywords", "sds/src/proximity_keywords/included_keywords.rs::IncludedKeywordSearch"]}
{"id": "C86", "title": "Rule configurations survive their JSON text", "statement": "For every rule configured in Go, with any bytes in its texts (zero bytes, quotes, control characters, bytes that are not UTF-8), the document that the Rust side reads from the C string is the document of the rule, whatever follows in memory, so that the rule created is the one of C64. The reader accepts exactly the texts of the JSON grammar with at most 127 levels, each as the one document the grammar gives; no such text has a zero byte. A rule configuration that Rust writes as text is read back from this text as it was (under the conditions of C74).", "quantifier": "every Go rule, both ways in which versions of Go escape, every content of memory after the string, every text and every document", "why_tests_cant": "Escaping, decoding of UTF-8, the end of a C string and nesting limits interact over all byte strings; tests use a few ASCII patterns.", "anchors": ["sds-go/go/regex_rule.go::CreateRule", "sds-go/rust/src/native/mod.rs::read_json", "sds-go/rust/src/native/rule.rs::create_regex_rule"]}
{"id": "C87", "title": "Goroutines share scanners safely", "statement": "Any number of goroutines create, use and delete scanners through the Go package, in any interleaving of their native calls, with scans of the same scanner running at the same time: nothing undefined happens, no goroutine is ever stuck, a scanner is created iff the library builds one from its rules, every scan reports what its own scanner finds in its own event, and when all scanners are deleted no memory is left.", "quantifier": "every number of goroutines, every program of creations, scans and deletions, every interleaving of native calls and of the reads of running scans, every choice of addresses by the allocator", "why_tests_cant": "A use after free shows up only in particular interleavings of several goroutines; tests run one goroutine or a few schedules.", "anchors": ["sds-go/go/scanner.go::CreateScanner", "sds-go/go/scanner.go::lowLevelScan", "sds-go/go/scanner.go::Delete", "sds-go/rust/src/native/scan.rs::scan", "sds-go/rust/src/native/delete_scanner.rs::delete_scanner"]}
{"id": "C88", "title": "Validation is independent of its threads", "statement": "validate_matches runs the groups of matches, and the checks of each group, on many threads. In every interleaving, and whatever the servers answer: each check makes at most one request, the one its configuration prescribes, and every check has made it exactly once when the call returns; the call returns the matches whose rules have a validation type, sorted by start, each with the highest of its status and those its own replies give; it panics in one interleaving only if no interleaving returns; it never runs forever and never gets stuck; and each group ends as the sequential model says for the replies it received.", "quantifier": "every list of matches and rules, every table of validators, every interleaving of the steps of all checks and groups, every reply to every request (equal requests may be answered differently), every order of the hash maps", "why_tests_cant": "The number of interleavings grows exponentially with the number of checks, and a test has no control over the scheduler of rayon; a lost update or a double request shows in few schedules.", "anchors": ["sds/src/scanner/mod.rs::validate_matches", "sds/src/match_validation/http_validator.rs::validate", "sds/src/match_validation/aws_validator.rs::validate", "sds/src/match_validation/match_status.rs::merge"]}
{"id": "C89", "title": "The ready-made validators judge tokens and keys by the right answers", "statement": "The GitHub configuration builds, and a match that was not checked before becomes valid exactly if GitHub answers 2xx to the request that carries the match as bearer token, invalid exactly if it answers 4xx, and an error otherwise. The Datadog configuration builds, and a match becomes valid exactly if one of the six sites answers 2xx to the request that carries it as API key, invalid exactly if all six answer 403, and an error otherwise. For any sequence of setter calls, each part of a configuration builder is what the last call of its own setter gave, or the default.", "quantifier": "every list of matches with texts, every reply of every server to every request, every fair order of the parallel checks; every sequence of setter calls", "why_tests_cant": "The tests use a mock server and their own configurations; they never send the ready-made requests, and the answers of six sites combine in more ways than tests enumerate.", "anchors": ["sds/src/match_validation/http_validator.rs::new_github_config_builder", "sds/src/match_validation/http_validator.rs::new_datadog_config_builder", "sds/src/match_validation/config.rs::HttpValidatorConfigBuilder"]}
{"id": "C90", "title": "Goroutines that share scanners get what their rules ask for", "statement": "Any number of goroutines create scanners from Go rules, scan maps and texts with them, and delete them, with arbitrary interleaving of their native calls; the rules cross the interface as C strings with JSON, events and responses as bytes. If scanners are used only between creation and deletion and deleted once, then no step is undefined, no goroutine gets stuck, CreateScanner succeeds exactly if its own rules make a scanner, and every scan returns what it would return in a program that only makes this scanner and scans this event. So every string of a scanned event has the text that the rules of this scanner ask for (C81), whatever the other goroutines do meanwhile.", "quantifier": "every number of goroutines, every list of operations of each, all rules, events and bytes in memory behind the C strings, every interleaving, every choice of addresses by the allocator", "why_tests_cant": "The tests scan from one goroutine, with a few rules and events; interleavings, allocations and contents multiply.", "anchors": ["sds-go/go/scanner.go::CreateScanner", "sds-go/go/scanner.go::ScanEventsMap", "sds-go/go/scanner.go::Scan", "sds-go/rust/src/native/scan.rs::scan", "sds-go/rust/src/native/create_scanner.rs::create_scanner", "sds-go/rust/src/native/rule.rs::create_regex_rule"]}
{"id": "C91", "title": "The number of searches in a string is linear in its length", "statement": "A regex rule whose regex has no empty match makes at most n + 1 regex searches in a string of n characters. With required keywords it makes at most 4n + 4 searches of the regex and of the keywords together, whatever the look-ahead is and however keywords and matches interleave; with keywords in event paths at most 5n + 6. The bounds hold also for excluded strings and if the rule panics. The searches of a scan are at most the sum of these bounds over all strings of the event and all rules. (A regex such as \\b, which is accepted although it has empty matches, has no bound.)", "quantifier": "every regex, validator, keyword set and look-ahead; every string, path and flag; every event and list of rules", "why_tests_cant": "The loops over keywords go back in the string; whether an adversarial arrangement of keywords, rejected candidates and matches makes the work quadratic cannot be seen from examples.", "anchors": ["sds/src/scanner/regex_rule/compiled.rs::get_string_matches_with_included_keywords", "sds/src/scanner/regex_rule/compiled.rs::TruePositiveSearch::next", "sds/src/proximity_keywords/included_keywords.rs::IncludedKeywordSearch::next"]}
{"id": "C92", "title": "The regex made of keywords matches exactly the keywords", "statement": "For every list of accepted keywords, whatever characters they contain, making the texts of the content regex and of the path regex does not panic and the regex crate can read both texts, so that the unwrap after building them cannot fail for a syntax error. Read back with the flags the code sets (case-insensitive), the content text matches exactly the places where one of the keywords is written up to case with an ASCII word boundary at each end of it that is an ASCII letter or digit; the path text does the same for the keywords as a sanitized path spells them. No character of a keyword acts as regex syntax.", "quantifier": "every non-empty list of keywords over all of Unicode; every look-ahead count and set of removed characters; every haystack and place; every case-folding table", "why_tests_cant": "Whether escaping, alternation and the inline flag group (?-u:\\b) survive printing and re-parsing depends on every combination of characters in a keyword; a keyword such as `a|b`, `(?i)` or `c++` would only fail if tried.", "anchors": ["sds/src/proximity_keywords/mod.rs::calculate_keyword_content_pattern", "sds/src/proximity_keywords/mod.rs::calculate_keyword_path_pattern", "sds/src/proximity_keywords/mod.rs::compile_keywords", "sds/src/proximity_keywords/mod.rs::literal_ast", "sds/src/proximity_keywords/mod.rs::word_boundary"]}
{"id": "C93", "title": "What a scanner is does not depend on the other scanners of the process", "statement": "Scanners are built concurrently by any number of threads that share one regex store, while other scanners are used and dropped. Whatever the interleaving, building a list of rules ends with the error of its first faulty rule or with a scanner in which every rule, at its place, has the regex of its own pattern and the content and path regexes of its own included and excluded keywords; building the same rules elsewhere ends in the same way with the same regexes; a scanner keeps all of its regexes until it is dropped; building never panics; and a build that has not ended can always go on. (Fails when the pattern of a rule equals a text made of keywords: a pattern that the parser refuses is then accepted, or a rule or keyword gets a regex with the other treatment of case.)", "quantifier": "every number of concurrent builders and scanners, every list of rules, every interleaving of lookups, compilations, insertions, collections, searches and drops; every pair of regex factories", "why_tests_cant": "The outcome depends on which other scanners are alive and on the interleaving of several locked sections per regex; no finite set of schedules covers them, and the failing case needs a pattern that looks like an escaped keyword.", "anchors": ["sds/src/scanner/mod.rs::ScannerBuilder::build", "sds/src/scanner/regex_rule/config.rs::convert_to_compiled_rule", "sds/src/proximity_keywords/mod.rs::compile_keywords", "sds/src/scanner/regex_rule/regex_store.rs::get_memoized_regex"]}
{"id": "C94", "title": "No scan loses a large response", "statement": "If a scan call of the Go binding returns without an error, the caller has received all of the library's response, however large it is.", "quantifier": "every scanner, every event, responses of any size", "why_tests_cant": "The size is cut to 32 bits on the way; only responses of four gigabytes and more are lost, which no test produces.", "anchors": ["sds-go/go/scanner.go::lowLevelScan", "sds-go/rust/src/native/scan.rs::scan"]}
{"id": "C95", "title": "A regex's cache is its own, however often the slots of the store were reused", "statement": "The keys under which regexes and their caches are stored have 32-bit versions. In every state the process can reach, a search with an owned regex uses a cache made for this regex and does not panic; index and slot map of the store stay in bijection and an owned regex is found under its pattern.", "quantifier": "every interleaving of requests, drops, collections and searches of any number of clients, of any length; both readings of slotmap's treatment of empty places", "why_tests_cant": "Versions compare wrongly only after a slot was reused 2^30 times, and repeat after 2^31 times; no test creates and drops a billion regexes between two uses of a cache.", "anchors": ["sds/src/scanner/regex_rule/regex_store.rs::RegexStore", "sds/src/scanner/regex_rule/regex_cache_store.rs::RegexCaches"]}
{"id": "C96", "title": "Callers of the Go package are told why a call failed", "statement": "CreateScanner fails exactly if some rule is faulty, and its error then names what is wrong with the first faulty rule (pattern, else match action, else keywords). If the library panics while a scanner is created or used, the error carries the text of the panic, so that different panics give different errors; without a panic no panic is reported; and the memory of the text is freed as it was allocated.", "quantifier": "every list of rules, every panic payload, every text", "why_tests_cant": "Texts of panics are arbitrary strings that pass through a C string; rules have unboundedly many combinations of faults.", "anchors": ["sds-go/rust/src/native/mod.rs::handle_go_error", "sds-go/rust/src/native/mod.rs::convert_panic_to_go_error", "sds-go/rust/src/native/scan.rs::free_string", "sds-go/go/scanner.go::CreateScanner", "sds-go/go/regex_rule.go::CreateRule"]}
{"id": "C97", "title": "Redactions reach Go callers whose events share maps or slices", "statement": "In an event of the Go caller, the same map or overlapping parts of the same array may be reached on several paths. After ScanEventsMap, every string with a reported match of a redacting rule has, read on its path, the text prescribed for it; every other string is unchanged; no key, length or reference is changed. An event that contains itself cannot be read.", "quantifier": "every memory of maps, arrays and references, every order in which maps are read, every scanner", "why_tests_cant": "The number of ways in which parts of an event can be shared is unbounded, and Go iterates over maps in random order.", "anchors": ["sds-go/go/scanner.go::ScanEventsMap", "sds-go/go/scanner.go::decodeEventMapResponse", "sds-go/go/scanner.go::applyStringMutation", "sds-go/go/scanner.go::applyStringMutationMapWithTag", "sds-go/go/scanner.go::applyStringMutationListWithTag", "sds-go/go/scanner.go::encodeMapEvent"]}
{"id": "C98", "title": "The locks of the library never deadlock, and a panic spoils no lock but its own list's", "statement": "Whatever calls any number of threads make (append_rule_to_list, create_scanner, ScannerBuilder::build), no set of calls wait for each other; however the calls are scheduled they all return after finitely many steps, holding no lock. The lock of the regex store is held by one call at a time, never while a regex is compiled or another lock is waited for, and is never poisoned, even if compiling panics. The lock of a rule list is poisoned only if building with that list has panicked; calls about other lists are unaffected. With regex rules none of these calls panics.", "quantifier": "every number of threads and calls, every interleaving, every list of rules, every behaviour of the regex factories (result, error, panic)", "why_tests_cant": "Deadlocks and poisoned locks depend on how threads interleave and on a panic at a particular moment; tests sample a few schedules.", "anchors": ["sds-go/rust/src/native/create_scanner.rs::create_scanner", "sds-go/rust/src/native/rule.rs::append_rule_to_list", "sds-go/rust/src/native/mod.rs::convert_panic_to_go_error", "sds/src/scanner/regex_rule/regex_store.rs::get_memoized_regex_with_custom_store", "sds/src/scanner/mod.rs::ScannerBuilder::build"]}
{"id": "C99", "title": "The AWS request that is sent is the one that was signed", "statement": "Every request of the AWS validator carries a signature made for exactly this request: its method, URL and body, all its other headers, the id and the secret of the pair, and the time that its header X-Amz-Date says, which is the forced time if one is configured. The date is the time in the basic format of ISO 8601 and identifies it. Each header is there once, and Host is the host of the endpoint. A request can be made whenever the endpoint is a URL and the id has no control character; otherwise the validation panics.", "quantifier": "every signer, every time, every endpoint, id and secret", "why_tests_cant": "The tests mock the endpoint with one forced time and one pair of credentials, and compare no signature against the headers sent.", "anchors": ["sds/src/match_validation/validator_utils.rs::generate_aws_headers_and_body", "sds/src/match_validation/aws_validator.rs::AwsValidator::validate"]}
{"id": "C100", "title": "A Go text that is too long is refused, never scanned in part", "statement": "If a string or key of a Go event, at any depth, or the text given to Scan, has 2^32 bytes or more, the call returns an error: it is never the case that only a part of it was scanned and the caller is told that the event is clean.", "quantifier": "every scanner, every event, every position and length of the long text", "why_tests_cant": "Inputs of four gigabytes are not tested.", "anchors": ["sds-go/go/scanner.go::encodeStringEvent", "sds-go/go/scanner.go::encodeMapEvent", "sds-go/rust/src/native/scan.rs::scan", "sds-bindings-utils/src/binary_encoding.rs::BinaryEvent::visit_event"]}
{"id": "C101", "title": "The regex store and its caches are bounded by the regexes in use, not by the regexes ever compiled", "statement": "In a process in which at no time more than N different patterns are in use, the pattern index of the shared regex store, its slot map and every map of regex caches of the pool have at most N + 1000 entries, and no slot number reaches N + 1000; this holds at every moment, also during a collection interrupted by drops, however many regexes were compiled and dropped before, and any number can be.", "quantifier": "for all N, all sets of factories, and all interleavings of any number of clients compiling, looking up, searching with and dropping regexes, with collections in any order of the hash map", "why_tests_cant": "a leak shows only after very many compilations, and depends on drops that happen while a collection is running; no finite run shows that memory stays bounded", "anchors": ["sds/src/scanner/regex_rule/regex_store.rs::RegexStore::gc", "sds/src/scanner/regex_rule/regex_store.rs::RegexStore::insert", "sds/src/scanner/regex_rule/regex_cache_store.rs::RegexCaches::raw_get"]}
{"id": "C102", "title": "Mistyped numbers and tokens are not accepted by the validators", "statement": "Two texts whose digits differ in exactly one place, or by an exchange of two adjacent different digits, are never both accepted by the validator for NHS numbers (ten digits), NIR numbers or Chinese identity numbers (characters), nor by the Luhn validator (texts shorter than 2^28 characters, exchanges other than of 0 and 9). Of two GitHub tokens that differ only within four adjacent characters of the payload, or only in the checksum, at most one is accepted.", "quantifier": "for all pairs of texts, all positions and all values of the characters", "why_tests_cant": "there are too many pairs; a wrong weight or a wrong modulus still accepts all genuine numbers of a test and rejects most wrong ones", "anchors": ["sds/src/secondary_validation/luhn_checksum.rs::LuhnChecksum::is_valid_match", "sds/src/secondary_validation/nhs_check_digit.rs::NhsCheckDigit::is_valid_match", "sds/src/secondary_validation/nir_checksum.rs::NirChecksum::is_valid_match", "sds/src/secondary_validation/chinese_id_checksum.rs::ChineseIdChecksum::is_valid_match", "sds/src/secondary_validation/github_token_checksum.rs::GithubTokenChecksum::is_valid_match"]}
{"id": "C103", "title": "What leaves a scan does not depend on the texts it hides", "statement": "If two events differ only in the texts of reported matches, and each pair of these texts is alike for the action of its rule (any texts for a placeholder, texts with the same fingerprint for a hash, texts that differ only in the hidden characters for a partial redaction), then both events become the same event, and the reports agree in rule, path, position, kind and status. If the texts also have the same lengths and match values are not returned, the results are equal. Texts that are not alike are told apart by the new text. Reports do show the length of a hidden text, through shift_offset.", "quantifier": "every kind of event, every pair of events with the same matches between the same texts, every list of rules and blocked rules", "why_tests_cant": "A statement about pairs of runs for all secrets; tests compare a few outputs with expected values and cannot show that nothing else is revealed.", "anchors": ["sds/src/scanner/mod.rs::Scanner::apply_match_actions_for_string", "sds/src/match_action.rs::MatchAction::get_replacement", "sds/src/rule_match.rs::RuleMatch"]}
{"id": "C104", "title": "The order of the rules, and rules without redaction, do not change what is redacted", "statement": "Putting the rules of a scanner in another order yields the same event, and the same reports with the new rule numbers. Adding a rule without redaction changes neither the event nor the reports of the rules with redaction. (False in full: rules with different actions that match the same range are resolved by their order, and a rule without redaction takes part in the multi-pass heuristic. Proved when such ties have the same action, respectively when the added rule records nothing in an excluded field or multi-pass is off.)", "quantifier": "every kind of event, every list of rules and every permutation of it, every set of blocked rules", "why_tests_cant": "There are n! orders of n rules and arbitrarily many overlapping matches; tests fix one order per scanner.", "anchors": ["sds/src/scanner/mod.rs::Scanner::sort_and_remove_overlapping_rules", "sds/src/scanner/mod.rs::ScannerContentVisitor::visit_content", "sds/src/scanner/mod.rs::Scanner::scan"]}
{"id": "C105", "title": "What a scan does to a string depends on nothing but this string", "statement": "For a scanner and a set of blocked rules there is one function of a path, a text and a set of remembered texts, such that every scan of every event gives each string the reports and the new text of this function. The remembered texts are those found in excluded fields if multi-pass suppression is on, and none otherwise. So further fields, the order of the fields and the kind of the event (string, map, JSON value, simple event) have no influence on what happens to a string, except through the remembered texts.", "quantifier": "every list of rules and blocked rules, every kind of event with the same encoding, every event and pair of events", "why_tests_cant": "It relates the scans of all events to one function; tests scan events one at a time, and influence between fields shows only for particular combinations of fields.", "anchors": ["sds/src/scanner/mod.rs::Scanner::scan", "sds/src/scanner/mod.rs::ScannerContentVisitor::visit_content", "sds/src/event.rs::Event::visit_event"]}
{"id": "C106", "title": "What a caller of the Go package gets does not depend on the texts it hides", "statement": "Take two events given to ScanEventsMap whose strings differ only in what the actions of the rules hide (the same rules match between the same texts; a placeholder hides everything, a hash all but its value, a partial redaction what it covers). Then the caller ends up with the same event in both cases, with the same mutated flag, and with matches that have the same rules, paths, kinds and positions; if the hidden texts have equal lengths, with the same matches.", "quantifier": "all rule lists of the Go package with the patterns of C76, all events of the Go package with UTF-8 keys and strings, all pairs of events that differ in hidden texts", "why_tests_cant": "It compares runs over all pairs of secrets through rule creation, encoding, scanning, decoding and writing back; tests look at one secret at a time.", "anchors": ["sds-go/go/scanner.go::ScanEventsMap", "sds-go/go/scanner.go::decodeEventMapResponse", "sds-go/rust/src/native/scan.rs::scan", "sds/src/scanner/mod.rs::Scanner::scan"]}
{"id": "C107", "title": "A scan that panics leaves no string half redacted", "statement": "Scanner::scan changes the event in place. If it panics as a rule panics on one of the strings, the event is exactly as it was. If it panics as a rule has a match in a JSON number or boolean, every string visited before the first such value is exactly what a complete scan makes of it, and every string after it is exactly as it was; nothing else of the event is changed. If it returns, the event is the returned one.", "quantifier": "all scanners with well-formed rules, all blocked rules, all lawful events (strings, simple events, JSON values and maps), all positions of the offending value", "why_tests_cant": "The state after a panic depends on the order of the visits and on every position of the offending value; tests look at returned results.", "anchors": ["sds/src/scanner/mod.rs::Scanner::scan", "sds/src/event_json.rs::visit_string_mut", "sds/src/scanner/mod.rs::ScannerContentVisitor::visit_content"]}
{"id": "C108", "title": "One more rule changes the results only where its matches reach", "statement": "Let a rule be added to a scanner, such that it adds nothing to the texts remembered by the multi-pass heuristic. In every string in which its matches overlap no match of another rule, all other matches are redacted and reported as before, and every match of the new rule is redacted and reported, unless it overlaps another one of the new rule that is. In every other string the reported matches are the same except for those that the new matches reach through a chain of overlapping matches, and a match that is no longer reported overlaps a reported one of higher priority. If the new rule is blocked for the scan, the result is that of the scanner without it.", "quantifier": "all scanners with well-formed rules, all new rules, all blocked rules, all lawful events, all strings and all sets of matches", "why_tests_cant": "The interactions of matches of any number of rules in any string are unbounded; a test covers one arrangement.", "anchors": ["sds/src/scanner/mod.rs::Scanner::sort_and_remove_overlapping_rules", "sds/src/scanner/mod.rs::ScannerContentVisitor::visit_content", "sds/src/scanner/mod.rs::Scanner::scan"]}
{"id": "C109", "title": "A second scan finds nothing to redact", "statement": "If the event that a scan returns is scanned again by the same scanner, the second scan changes nothing, and reports only matches of rules without redaction. (False in full: a replacement can form a match with the text around it, and a match that is displaced by an overlapping one can hide another occurrence. Proved when the rules with redaction do not depend on what surrounds a match, their replacements are not empty and have no characters in common with the matched texts, no two of their matches overlap, and no text is remembered by the multi-pass heuristic. Patterns without assertions are of this kind, and one rule never overlaps itself.)", "quantifier": "all scanners, blocked rules, lawful events and texts", "why_tests_cant": "Which texts can be formed by replacements and their surroundings is unbounded; tests scan an event once.", "anchors": ["sds/src/scanner/mod.rs::Scanner::scan", "sds/src/scanner/regex_rule/compiled.rs::TruePositiveSearch::next", "sds/src/match_action.rs::MatchAction::get_replacement", "sds/src/scanner/mod.rs::Scanner::sort_and_remove_overlapping_rules"]}
{"id": "C110", "title": "With returned values a scan loses nothing", "statement": "If the scanner returns match values, the original event can be computed from the redacted event and the reported matches alone: putting each returned value in place of the range start_index..end_index_exclusive of the string at its path, from left to right, makes the original event. So two events with the same result are the same. (Without returned values they need not be.)", "quantifier": "all scanners with well-formed rules, all blocked rules, all lawful events, all encodings with at least one code unit per character", "why_tests_cant": "Tests compare a few results with literals; that positions, order and values of any number of matches together determine every text cannot be tested.", "anchors": ["sds/src/scanner/mod.rs::Scanner::scan", "sds/src/scanner/mod.rs::Scanner::apply_match_actions", "sds/src/rule_match.rs::RuleMatch"]}
{"id": "C111", "title": "Lines can be scanned one by one", "statement": "Let no rule have keywords, and let no pattern match the separator of lines (for instance a newline) or look beyond it; word boundaries are allowed if the separator is no word character, and beginning and end of line if it is a newline. Then scanning a text of many lines redacts it exactly as scanning every line on its own: the new text is the new lines with the separator between them, and the reports are those of the lines, with the indices moved by the length of the new text before the line and the shift offsets by the change of length so far. The same holds for any string of an event and two parts of it, whichever texts the multi-pass heuristic remembers. A leftmost-first search satisfies what is required of the engine.", "quantifier": "all scanners with such rules, all blocked rules, all texts and numbers of lines, all separators, all lawful events and encodings, all patterns that stay in a line, all validators", "why_tests_cant": "Tests compare a few texts; that nothing leaks over any separator, for any pattern, number of lines and interplay of overlapping rules, is a statement about all texts and patterns.", "anchors": ["sds/src/scanner/mod.rs::Scanner::scan", "sds/src/scanner/mod.rs::Scanner::apply_match_actions", "sds/src/scanner/regex_rule/compiled.rs::RegexCompiledRule::get_string_matches"]}
{"id": "C112", "title": "Rules appended by several threads all arrive", "statement": "If any number of threads append rules to one rule list and create scanners of it at the same time, every call behaves as if the calls were made one after another, in an order in which calls that do not overlap keep their order (linearisability). So, if no creation panics, when all calls have returned the list has exactly the rules that were appended, each as often as it was; and a scanner is made of all rules whose appending had ended before its creation began. (After a panic of a creation the list is poisoned, and appending does nothing without telling the caller.)", "quantifier": "all numbers of threads and calls, all interleavings of their steps, all rules", "why_tests_cant": "The interleavings of reads and writes are unbounded in number, and a test run sees only those the scheduler happens to choose; a lost update shows up rarely if at all.", "anchors": ["sds-go/rust/src/native/rule.rs::append_rule_to_list", "sds-go/rust/src/native/rule.rs::create_rule_list", "sds-go/rust/src/native/create_scanner.rs::create_scanner"]}
{"id": "C113", "title": "What a scan returns is bounded by what it is given", "statement": "A scan reports at most one match per character of the strings of the event, the values it returns have together no more bytes than these strings, and, if no rule puts in more than K bytes (its replacement, the 16 digits of a fingerprint, or its asterisks), the redacted strings have together at most K bytes more per reported match, and at most K times as many bytes as before (for K of at least 1). So the size of the result is linear in the size of the event, whatever the number of rules.", "quantifier": "all scanners with well-formed rules, all numbers K, all blocked rules, all lawful events", "why_tests_cant": "A text that is redacted again and again, or by overlapping rules, would grow only for particular combinations of rules and texts; a bound for all of them cannot be tested.", "anchors": ["sds/src/scanner/mod.rs::Scanner::scan", "sds/src/scanner/mod.rs::Scanner::apply_match_actions", "sds/src/match_action.rs::MatchAction::get_replacement", "sds/src/match_action.rs::MatchAction::partial_redaction_first", "sds/src/match_action.rs::MatchAction::partial_redaction_last"]}
{"id": "C114", "title": "Field names matter only through scopes and keywords", "statement": "Two events, which may be of different kinds and nested differently, with the same texts in the same order get the same new texts and the same reports except for the paths, if for each text the same rules are run at its two places, the same rules exclude them, and a required keyword is in one path if it is in the other. If the rules have no scopes and keywords are not looked for in paths, names and nesting do not matter at all: scanning an event is scanning each of its strings alone.", "quantifier": "all scanners with well-formed rules, all blocked rules, all pairs of lawful events", "why_tests_cant": "Events, nestings and names are unbounded; a dependence on, say, the number of the field, the depth or the text of an index would show up only in particular events.", "anchors": ["sds/src/scanner/mod.rs::Scanner::scan", "sds/src/scoped_ruleset/mod.rs::ScopedRuleSet::visit_string_rule_combinations", "sds/src/scanner/regex_rule/compiled.rs::RegexCompiledRule::get_string_matches"]}
{"id": "C115", "title": "A found secret is sent nowhere but to the endpoints of its own rule", "statement": "At every moment of every execution of the validation of matches, a request that was sent by an HTTP validator tells the text of one of the matches, at an endpoint that is configured for the rule which found it, with the method and headers that some rule configures for this endpoint; a request of the AWS validator tells a text found by a rule for AWS ids and a part of a text found by a rule for AWS secrets, at the endpoint of that rule. So no text found by a rule without validation, or by a rule for other endpoints, leaves the process. For the matches of a scan, every text that is sent was found in a string of the event, as it was before anything was replaced.", "quantifier": "all rules, all lists of matches, all executions of the parallel groups and checks with all answers; for scans, all scanners with well-formed rules and all lawful events", "why_tests_cant": "Which match is in which group at which index depends on the rules, the matches and the schedule; a secret sent to the endpoint of another rule is a leak that the result of the validation does not show.", "anchors": ["sds/src/scanner/mod.rs::Scanner::validate_matches", "sds/src/scanner/mod.rs::ScannerBuilder::build", "sds/src/match_validation/http_validator.rs::HttpValidator::validate", "sds/src/match_validation/aws_validator.rs::AwsValidator::validate", "sds/src/match_validation/config.rs::MatchValidationType::get_internal_match_validation_type"]}
{"id": "C116", "title": "Validating matches again brings their statuses up to date", "statement": "If matches that were validated before are validated again, each gets the status that it would get now if it had never been validated. In particular, if equal requests get equal replies, a second validation changes nothing. (The code gives each match the higher one of its old status and the new one.)", "quantifier": "all rules, all lists of matches with any statuses, all replies, all schedules of the checks", "why_tests_cant": "The result depends on two series of replies and on how the matches are grouped, ordered and paired in each call; tests validate new matches only.", "anchors": ["sds/src/scanner/mod.rs::Scanner::validate_matches", "sds/src/match_validation/match_status.rs::MatchStatus::merge", "sds/src/match_validation/http_validator.rs::HttpValidator::validate", "sds/src/match_validation/aws_validator.rs::AwsValidator::validate"]}
{"id": "C117", "title": "The number of requests that a validation sends", "statement": "At no time has a validation sent more than one request for each different endpoint of each match that is validated over HTTP, and one for each pair of an AWS id and an AWS secret among the matches. When the call returns, it has sent exactly that many, if all matches have texts. Equal texts are not checked together: a secret that is found n times is sent n times to each endpoint.", "quantifier": "all rules, all lists of matches, all replies, all schedules of the groups and of the checks, at any moment of the call", "why_tests_cant": "The number depends on how matches are grouped and paired and on the schedule; tests with a mock server count the requests of a few matches of one rule.", "anchors": ["sds/src/scanner/mod.rs::Scanner::validate_matches", "sds/src/match_validation/http_validator.rs::HttpValidator::validate", "sds/src/match_validation/aws_validator.rs::AwsValidator::validate"]}
{"id": "C118", "title": "Matches can be validated in any order and in several calls", "statement": "If equal requests get equal replies, the statuses that matches get do not depend on the order in which they are given, and validating them in two calls gives the same as validating them in one. (The second part holds if no AWS id is in one call and an AWS secret in the other; otherwise the two are not tried together.)", "quantifier": "all rules, all lists of matches with any statuses, all ways to order them and to divide them into two calls, all replies, all schedules", "why_tests_cant": "There are exponentially many ways to divide and order the matches; tests call validate_matches once with a fixed list.", "anchors": ["sds/src/scanner/mod.rs::Scanner::validate_matches", "sds/src/match_validation/http_validator.rs::HttpValidator::validate", "sds/src/match_validation/aws_validator.rs::AwsValidator::validate"]}
{"id": "C119", "title": "More checks only remove matches", "statement": "A secondary validator, excluded keywords or required keywords only remove matches of a rule: what the rule reports in a string, it reports without them, too. (In general, what it reports begins inside a match that it reports without them, and is this match if both begin at the same place. It is the same list if all matches pass the checks, and a part of it if no match that passes begins inside one that does not.)", "quantifier": "all regexes without empty matches, validators, keywords and strings", "why_tests_cant": "The search goes on inside every rejected match, so the result depends on all matches that overlap it; tests have one match per string.", "anchors": ["sds/src/scanner/regex_rule/compiled.rs::TruePositiveSearch::next", "sds/src/scanner/regex_rule/compiled.rs::RegexCompiledRule::get_string_matches", "sds/src/scanner/mod.rs::is_false_positive_match"]}
{"id": "C120", "title": "More required keywords and a longer look-ahead only add matches", "statement": "If keywords are added to the required keywords of a rule, or its look-ahead is made longer, the rule still finds in every string what it found before. (In general it finds this match, or one that begins between the keyword and this match; so a string in which it found something is still one in which it finds something.)", "quantifier": "all regexes without empty matches, all keywords and look-aheads, all strings in which no keyword overlaps a match", "why_tests_cant": "The result depends on the places of all keywords and matches relative to each other; tests have one keyword and one match in a string, where the property holds.", "anchors": ["sds/src/scanner/regex_rule/compiled.rs::RegexCompiledRule::get_string_matches_with_included_keywords", "sds/src/proximity_keywords/included_keywords.rs::IncludedKeywordSearch::next", "sds/src/proximity_keywords/mod.rs::is_index_within_prefix"]}
{"id": "C121", "title": "More excluded keywords and a longer look-ahead never veto less", "statement": "If excluded keywords are added to a rule, or their look-ahead is made longer, every place where a match was vetoed before is still vetoed (in particular the check does not panic there). So every match that the rule finds begins inside a match that it found before, and is this match if both begin at the same place.", "quantifier": "all keyword lists, look-aheads, strings, places and case foldings; no keyword is empty; for the matches: rules without included keywords, all regexes without empty matches, and strings on which the check with fewer keywords does not panic (C27)", "why_tests_cant": "The check cuts out a window, drops characters from it and removes one character on each side, so that the result depends on the neighbours of the window; the blind spots of C26 show that this fails at places no test has.", "anchors": ["sds/src/proximity_keywords/excluded_keywords.rs::contains_excluded_keyword_match", "sds/src/proximity_keywords/mod.rs::get_prefix_start", "sds/src/scanner/regex_rule/compiled.rs::TruePositiveSearch::next"]}
{"id": "C122", "title": "Scopes that reach further reach everything they reached", "statement": "If the paths of a rule's scope are replaced by others such that every path is, or lies below, one of the new ones, or if an include scope is replaced by one without includes, or if implicit index wildcards are switched on, then the rule still runs on every string on which it ran, and every string that was excluded for it still is. So a path that lies below another one of the same list is superfluous, with and without wildcards; and wildcards make no difference for strings that are in no list.", "quantifier": "all lists of scopes, all events (sequences of calls that do not leave the root), with and without wildcards", "why_tests_cant": "The rule tree merges the paths of all rules, and with wildcards several of its nodes are active at the same time; whether a further path hides one that was there depends on the combination of all paths and the event.", "anchors": ["sds/src/scoped_ruleset/mod.rs::ScopedRuleSet::new", "sds/src/scoped_ruleset/mod.rs::ScopedRuleSet::visit_string_rule_combinations", "sds/src/scoped_ruleset/mod.rs::ExclusionCheck::is_excluded"]}
