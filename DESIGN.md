# Formal model of dd-sensitive-data-scanner

This directory holds a Lean 4 model of the scanner in `/repo` (Rust library `sds`, encoding crate
`sds-bindings-utils`, Go binding `sds-go`) and proofs of the properties listed in `properties.jsonl`.
`MANIFEST.json` maps every property to the theorems that establish it.

## Layout

* `lean/Verif/Model/*.lean` - the model, function by function, each definition citing the file and lines in
  `/repo` it follows.
* `lean/Verif/Spec/*.lean` - small, independent specifications (what a user expects).  A specification does not
  call the functions whose properties it states.
* `lean/Verif/Lemmas/*.lean` - helper lemmas.
* `lean/Verif/Props/*.lean` - the property theorems, named after the property (`C04_redaction_exact`), each
  followed by an `example` showing that its hypotheses are met by a concrete non-trivial case.
* `seeded/LOG.jsonl` - the wrong programs the theorems were tried against.

A theorem name ending in `_partial` proves a property under hypotheses that the full statement does not have.
The missing part is named in the section "Where the code differs from the properties"; in all those cases a
second theorem proves, on a concrete witness, that the full statement is false for the code.

## Modelling conventions

* A Rust `&str`/`String` is a `List Char`; offsets are **UTF-8 byte offsets**.  Slicing at a byte offset that is
  out of range or inside a character is an explicit panic value (`Res.panic`), never a default.
* Results of functions which may panic or loop forever are `Res α = ok a | panic | hang`.  Loops whose termination
  is not structural take fuel; running out of fuel is `hang`, and termination theorems say which fuel suffices, or
  that no fuel does.
* The regex engine is abstract: a regex is a function `matchAt content pos : Option end`, and a search from `i`
  returns the first character boundary `≥ i` at which it answers (leftmost semantics; look-around sees the whole
  content, as in regex-automata with an `Input` range).
* Hash map iteration order, unstable sorting and the completion order of parallel work are arbitrary permutations
  over which the theorems quantify.  Threads are interleaved step by step in transition systems (regex store,
  scanner statistics).
* External code is a parameter of the model: farmhash, crc32, base64 and JSON decoding, HTTP transport, the clock,
  case folding of the regex engine.  Nothing is assumed of them unless a theorem states it as a hypothesis.
* `usize`/`isize`/`u32` arithmetic is modelled by `Nat`/`Int` where the values are bounded by lengths of data in
  memory; where a cast can truncate or a sum can wrap (32-bit protocol fields, Luhn sum, NIR number) it is modelled.
* Release build: arithmetic overflow does not panic.

## Trusted base

* The Lean 4.33.0 kernel and the axioms `propext`, `Classical.choice`, `Quot.sound` at most (list per theorem in the
  section "Axioms").  No own axioms, no `sorry`, no `native_decide`, no `bv_decide`.
* The faithfulness of the hand-written model to the cited lines.
* The contracts of external code named above and in the next section.

## What is modelled and what is not

| Model file | Code | Left out or simplified |
|---|---|---|
| `Str` | byte offsets, slicing, `char_indices` of `&str` | - |
| `Overlap` | `sort_and_remove_overlapping_rules`, scanner/mod.rs | the two unstable sorts are arbitrary sorting functions |
| `Action` | match_action.rs, replacement types of rule_match.rs | farmhash is a parameter |
| `Apply` | `apply_match_actions*`, scanner/mod.rs; encoding.rs | encodings whose shift is not additive |
| `Scope` | scoped_ruleset/mod.rs, bool_set.rs, scope.rs | - |
| `Event` | event.rs, simple_event.rs, event_json.rs | map order is the order of a list |
| `Scan` | `Scanner::scan`, `ScannerContentVisitor::visit_content` | metrics; rule kinds that keep state between calls are in `Kinds` |
| `Kinds` | `CompiledRuleDyn`, `CompiledRule`, the group configuration of `ScannerBuilder::build`, `Scanner::scan` with `group_data` and `rule_scan_caches` | the functions of a rule kind are parameters; they may only add to `excluded_matches`; the labels given to `create_group_data`; `on_excluded_match_multipass_v0` (metrics) |
| `Search` | regex_rule/compiled.rs, helpers of scanner/mod.rs | the regex engine (contract above) |
| `Unwind` | the event after `Scanner::scan` panics | what a panic inside the closure of `visit_string_mut` leaves is arbitrary; binary events (they are dropped with the call) |
| `Work` | the functions of `Search` with the list of their regex searches | the cost of one search; the search of excluded keywords in front of a match (at most one for each search of the regex) and of keywords in the path |
| `Keywords` | proximity_keywords/*.rs | case folding is a parameter; the keyword regexes are concrete matchers, which C92 proves to be those of the texts made by the code (in `Search`, the included ones are parameters with a contract) |
| `KeywordRegex` | proximity_keywords/mod.rs 167-262, 370-432: the syntax trees of keywords and their texts | spans; the stages of the crate after the parser |
| `Store` | regex_store.rs, regex_cache_store.rs | a regex object is a number; slotmap's 32-bit version wrap-around (see `Versions`) |
| `Versions` | the same, with the 32-bit versions of slotmap's keys and the comparison of `SecondaryMap::entry` | slotmap's list of free slots (any vacant slot or a new one may be used) |
| `GoErrors` | native/mod.rs, the error branches of scan.rs, create_scanner.rs, rule.rs, scanner.go, regex_rule.go | texts of the library's own panics (any text is allowed); `errors.Is` and wrapping of Go errors (an error is its text) |
| `GoHeap` | the parts of scanner.go that write into the event of the caller (301-326, 373-433), on a memory with addresses; maps and slices may be shared or overlap | concurrent writes of the caller to the event during the call; which order `range` takes (any order) |
| `Locks` | which locks native/rule.rs, native/create_scanner.rs and regex_store.rs 37-54 take, in which order, and what a panic does to them | the locks inside the pool of caches (a crate); `regex_factory` is assumed to end, by a result, an error or a panic; fairness of the mutexes |
| `AwsSign` | validator_utils.rs 3-37, aws_validator.rs 142-158 (the request that is sent) | `aws_sign_v4` is a parameter (what it is given is modelled, not how it signs; it is assumed to write the id into an otherwise printable text and to panic on what is not a URL); how chrono splits a time; headers that the client adds by itself |
| `Gauges` | the updates of `total_regexes` and `total_regex_cache_size` in regex_store.rs, stats.rs | the size of the cache of a regex is a parameter; gauges are numbers (`f64` in the code) |
| `Assemble` | putting the parts together: scanner/mod.rs 650-715 (`build` with features), regex_rule/config.rs 96-127, secondary_validation/mod.rs 41-59, iban_checker.rs, scanner.go 56-103 | code of other crates is one record of parameters (`Outside`); labels are left out |
| `Builder` | `ScannerBuilder::build`, error.rs, stats.rs, validation.rs, shared_pool.rs | the regex compiler is a parameter; a creation counter and its `fetch_add` are one step |
| `Building` | `ScannerBuilder::build`, `convert_to_compiled_rule`, `compile_keywords` as programs that ask the store of `Store` | the two factories are parameters; the regexes of a failed build are dropped after it has returned (in the code before) |
| `Validators` | secondary_validation/*.rs | iban_checker.rs (in `Assemble`, with the external crate as a parameter); base64/JSON/crc32 are parameters |
| `Validation` | `validate_matches`, match_validation/*.rs | network, clock, AWS signing and the table of word characters outside of ASCII are parameters; groups own disjoint data and are run one by one here, and equal requests for the same place in two groups get the same reply (see `ParValidate`) |
| `ParValidate` | the three `par_iter_mut().for_each` of scanner/mod.rs 411-420, http_validator.rs 115-145, aws_validator.rs 125-170 and the loops after them | every thread makes its steps in any order; replies are arbitrary; a check is two steps (sends its request, takes the reply); after a panic rayon may drop checks that have not begun |
| `HttpPresets` | `HttpValidatorConfigBuilder::new` and its setters (config.rs 127-175), `new_github_config_builder`, `new_datadog_config_builder` (http_validator.rs 50-99) | what the servers answer is a parameter |
| `Codec` | binary_encoding.rs, scanner.go, native/scan.rs | a byte is a `Nat` (all produced ones are < 256); Go values are trees (shared maps and slices: `GoHeap`); `strings.ToLower` is modelled on ASCII |
| `Path` | path.rs | - |
| `Parser` | parser/*.rs on a model of the nom 7 combinators it uses | `Rc`/`Vec` are their contents |
| `GoRule` | regex_rule.go, create_regex_rule, derived serde readers of the rule configuration, with scope, labels and match validation | JSON is a tree (its text is in `JsonText`); repeated fields; dates are chrono's |
| `RuleJson` | derived serde writers of the rule configuration | the same |
| `JsonText` | the text that json.Marshal writes for a rule, C.CString, `read_json`, serde_json's reader and writer | encoding/json and serde_json are modelled from knowledge of their sources, which are not in the repository; numbers are natural (another number in a field that is ignored would be read over) |
| `Metrics` | the increments of the counters in Scanner::scan, TruePositiveSearch::next, CompiledExcludedProximityKeywords | duration and labels (in `Labels`); increments of a scan that panics |
| `Labels` | observability/labels.rs 10-30, scanner/metrics.rs, the calls of `counter!` in regex_rule/config.rs and proximity_keywords/mod.rs, the increments of `Scanner::scan` with their counters | the recorder adds up the increments per name and list of labels; increments of a scan that panics |
| `Ffi` | native/rule.rs, create_scanner.rs, scan.rs, delete_scanner.rs; CreateScanner, lowLevelScan, Delete | a call is one step (overlapping calls are in `Goroutines`); Go's garbage collector |
| `Goroutines` | CreateScanner, lowLevelScan and Delete of scanner.go as programs of any number of goroutines, step by step between their native calls | a scan reads its scanner any number of times, the other native calls are one step; reads and writes of `Id` are seen by all goroutines in one order; `RuleList` and `Rule` used directly (a shared list is in `SharedList`) |
| `SharedList` | append_rule_to_list (native/rule.rs) and create_scanner (native/create_scanner.rs) on one list, by any number of threads, step by step between lock, read, write and unlock | the mutex is that of Rust's library (one guard at a time, poisoned by a panic under the guard); whether the builder panics is left open (both are possible); deleting lists is in `Ffi` |
| `GoProgram` | the goroutines of `Goroutines` with the rules, events and responses of `JsonText`, `Codec` and `Assemble`; the part of ScanEventsMap and Scan after lowLevelScan | a scan that never ends has no result (nothing is claimed of it) |
| `PatternCheck` | validation.rs from the text of the pattern | building a regex is a parameter |
| `Normalize` | normalization/rust_regex_adapter.rs | regex-syntax trees restricted to the variants produced; its printer is modelled from its documented behaviour |
| `RustSyntax` | the parser of regex-syntax (`ast::parse`) on the constructs that converted patterns use | the translation after parsing |

Not modelled at all: logging, the fuzz tool, benchmarks and tests.  The parser and conversion models were compared
with the 118 cases of `test_conversion` in the repository (all equal); this is a check of the model, not a proof.

## How each property is proved

| Id | What is modelled | How it is proved |
|----|------------------|------------------|
| C01 | conflict resolution on match lists | loop invariant of the retain loop, then sortedness of the final sort |
| C02 | same | invariant: every popped candidate is retained or conflicts with a retained one |
| C03 | same, sorts as arbitrary sorted permutations | uniqueness of sorted permutations for an antisymmetric order; redactions computed from the mutating sublist |
| C04, C05, C07 | `apply_match_actions` on byte strings | refinement to a specification which cuts the input at the matches; shift invariant |
| C06 | same, all slices as `Res` | the refinement theorem returns `ok` |
| C08 | `get_replacement` | direct, characters vs bytes lemma |
| C09, C10 | whole `scan` | frame theorem for the string editor and induction over the match list |
| C11-C14, C16 | rule tree insertion, traversal stack | lookup semantics preserved by insertion (induction); stack invariant: the stack is a function of the path |
| C15 | traversal with wildcards | simulation of the stack by a relational specification |
| C17, C18, C22 | whole `scan` | set-valued characterisation of excluded matches, permutation invariance |
| C19, C20 | `TruePositiveSearch` | induction on fuel; greedy specification |
| C21 | same | measure; endless loop for an accepted pattern |
| C23, C24 | included keyword loop | loop invariants |
| C25 | window functions | equivalence to counting characters |
| C26, C27 | excluded keyword check | exact characterisation of the panic; veto theorem outside two blind spots |
| C28 | keyword configuration | decision equivalence |
| C29 | keyword pattern matcher | equivalence with a declarative occurrence predicate |
| C30 | path normalisation | induction |
| C31-C36 | validators | arithmetic and induction |
| C37-C40 | match validation | grouping is a partition; max-semilattice; permutation invariance |
| C41, C42, C44, C62 | regex store and caches as a transition system | inductive invariant over all interleavings |
| C43 | two builders, one store | run of the store model |
| C45 | counter transition system | invariant |
| C46 | builder | decision equivalence |
| C47 | error codes | exhaustive comparison |
| C48-C51 | byte codec in both directions, scan of a binary event | round trips by structural induction, composition with C10 |
| C52 | pattern parser | simulation between fuels and limits, nesting of the returned tree |
| C53, C54 | conversion | structural induction; flags as sets |
| C55, C56 | event traversals | structural induction |
| C57, C58 | paths | injectivity on plain names; order lemmas on UTF-8 |
| C59-C61 | pool size, hosts, complexity bisection | direct, loop invariant of the bisection |
| C63 | whole `scan` with regex rules | composition of C10, C20 and the resolution of C03 |
| C64 | Go rule configuration, its JSON tree, the derived serde readers | equivalence with a relational specification |
| C65 | native calls on a heap of reference counted objects | simulation by a machine of values; invariant: counts equal references |
| C66 | same, with a record of the appends | inductive invariant |
| C67 | Go functions made of native calls | composition of C65 steps |
| C68 | conversion, with a denotation of both syntaxes | structural induction; both sides denote the same flag-free expression |
| C69 | normalised names and paths, path pattern of a keyword | induction over names; splitting at dots |
| C70 | validation.rs on the parser and conversion models | composition of C52 and C53 |
| C71 | printer and parser of regex-syntax | a relation between a tree and what its text is read as, by rule induction; the parser and the conversion only give related trees; for the rejections, an induction showing that the reader gets stuck at the first faulty part |
| C72 | UTF-8 decoding in Rust and in Go | functional relations by induction over the bytes; case analysis of the first bytes |
| C73 | extraction of the AWS secret | the leftmost window that matches; its condition from the last character and the next one |
| C74 | the derived serde writers and readers | round trip part by part; the reader looks at seven fields only |
| C75 | counters of a scan | the functions with increments, erased to those without; counts as lengths of duplicate-free lists of dropped matches |
| C76 | everything between the text of a pattern and the new event | composition of C52, C68, C70, C71, C19, C20 and C10; the engine is any choice among the matches of what the crate reads |
| C77 | a scan followed by `validate_matches` | composition of C10 with C37-C40: what a scan reports always has a text and a rule, so only the signing of an AWS request can panic; statuses in terms of the found texts for a network that answers equal requests equally |
| C78 | the gauges updated by the regex store, in every interleaving | invariants over the transition system of C41; sums over the slots |
| C79 | the ways to match in the order of a backtracking search (`Spec/Prefer.lean`); one unambiguous choice per position | each list holds exactly the lengths of the matches of C76, by mutual induction; then C20 and C76 |
| C80 | what a configured rule is to find, from its configuration alone (`Spec/Assemble.lean`) | the built rules are traced through C46 to their configurations; then C79, C23 and C31-C36 |
| C81 | the cut of a text that the rule configurations ask for; replacing all matches of a pattern (`Spec/GoRun.lean`) | C64 gives the rules that Go asks for, C80 what they find, C08 the overlaps, C51 the way back to Go; the response fits by a bound on its size |
| C82 | the syntax of patterns as relations between a text, the expression at its beginning and the rest (`Spec/Grammar.lean`) | each parser accepts exactly its relation (`Exact`), by composition over the combinators; for expressions soundness by induction on the fuel and completeness by induction on the nesting, with the texts at which a sequence must stop; then C52 for the limit |
| C83 | a history of calls, each with the values it was given and what it left (`Spec/Kinds.lean`); no maps and no dynamic types | the maps hold, under each type, what the last call with this type left (`Tracks`), by induction over the rules of a string and over the strings; a scanner of rules without data that answers from the history has the same scan; a history without the calls of unrelated rules is a history |
| C84 | the value of a counter is a sum over finished scans and over the rules of their scanners, with the labels written out (`Spec/Labels.lean`) | the increments of a scan are listed in order; names of counters differ, so only one kind of increment remains for each; a sum over the rules run on a string is a sum over all rules; any interleaving of the increments of several scans is a permutation |
| C85 | a relation `Near` that walks over the matches from left to right and opens the windows of keywords (`Spec/Near.lean`) | invariants of the two loops as in C23, with the matches before and after a place split off the leftmost ones; then induction on `Near` |
| C86 | the grammar of RFC 8259 as relations between texts and documents (`Spec/JsonText.lean`) | the reader is sound by induction on its fuel and complete by induction on the derivation, for every text that may follow; each writer gives a text of the grammar by induction on the document; no text of the grammar has a zero byte, so the C string ends where the text ends; UTF-8 decoding undoes encoding (C51) |
| C87 | a discipline on histories of beginnings and ends (a scanner is deleted once, when no scan with it runs), and what the reports of a history must be (`Spec/Goroutines.lean`) | every goroutine owns handles, shared scanners belong to nobody; a call does to all handles what it does to those of its goroutine (`frame`); the invariant carries C65 through every interleaving |
| C88 | what was sent and received for each check, and what statuses these exchanges give (`Spec/ParValidate.lean`) | each group is a transition system; an invariant relates its table to its exchanges; steps of other groups do not touch it; a weight bounds the steps; the sequential model is the same function of the replies |
| C89 | the requests that should be sent to GitHub and to the six sites of Datadog, and what the answers mean (`Spec/HttpPresets.lean`) | the builders are evaluated; C38 says how replies become a status; case analysis on the order of statuses |
| C90 | the specifications of C81 (`Spec/GoRun.lean`) and of the discipline (`Spec/Goroutines.lean`) | an event of a goroutine belongs to one of its operations (induction on steps); C87 says what the library was asked and answered, C86 which rules arrived, C81 what the answer does to the event |
| C91 | the listed searches are the only ones that matter: any regex and any keywords that answer them in the same way give the same result (`SameAnswers`); bounds are polynomials of the number of characters (`Spec/Work.lean`) | the number of character boundaries ahead (`rank`) drops with every search; a search from a keyword on stops at an accepted match that is too far away, and from a later keyword near that match the places before it are visited once more but never a third time, because the keyword search then starts behind the match found (`innerLoopW_again`); for a scan, a counter is a cache shared by all rules, and C83 says which calls are made |
| C92 | a keyword as a word written up to case with word boundaries (`Written`), over the meaning of Rust patterns of C68 (`Spec/KeywordRegex.lean`) | the trees of keywords are ones that the reader of C71 reads back (`Sees`); then the meaning of sequences of literals by induction |
| C93 | builders as programs with requests to the store of C41-C44, any number of them at the same time; what a scanner should be as relation between rules and regexes (`Spec/Building.lean`) | the program of `build` treats all answers alike (`Prog.Image`), so replaying it with the regexes in place of the calls gives the run with the factories alone; invariant: the calls of different builders are apart, the answers so far are those of the own factories |
| C94 | `C.GoBytes` with the size cut to 32 bits, in the model of the Go calls (`goBytes`) | arithmetic; the witness is a scanner with a replacement of 2^32 - 42 characters, evaluated for an arbitrary replacement |
| C95 | the store with 32-bit versions, a second step relation that shares all other steps | below the bound every state is one of the unbounded model (invariant: a version is at most the number of regexes stored); without bound the invariant of the store; the failing processes by induction over the number of reuses |
| C96 | the code and C string returned by the native calls and the Go error made of them | reading a C string up to its only zero, injectivity of UTF-8; `C46_first_fault` for the first faulty rule |
| C97 | a memory of maps and arrays, paths in it, the places where they end, and the trees it can be read as (`Spec/GoHeap.lean`) | a mutation changes exactly the place where its path ends and no reference, so that all paths keep their places (`SameShape`); the last mutation of a place wins, and the library sends them in the order of the paths (C58) |
| C98 | who waits for and who holds a lock, a set of calls that wait for each other, which programs of a builder can panic (`Spec/Locks.lean`) | an invariant: each call takes locks in the order list, store, and neither compiles nor panics with the store locked; the rest of each call is a well-founded tree, and a step of one of several goes down in it |
| C99 | a header that is there once, a request that is what was signed, a text that says a time, control characters, the host of a URL (`Spec/AwsSign.lean`) | the request is computed once and for all; digits are read back |
| C100 | the strings and keys of an event, at any depth; texts without the bytes 0 to 3; lengths that do not fit 32 bits (`Spec/LongText.lean`) | mutual induction on the event: reading panics at what is left of the first text that is too long |
| C101 | patterns in use at the same time, counted by lists without repetition; a slot map that grows only when no slot is vacant (`Spec/StoreSize.lean`) | invariant over all interleavings: what the last collection kept together with what it will keep is at most N; a slot map that grows has as many entries as slots |
| C102 | digits of a text; CRC-32 bit by bit (`Spec/Validators.lean`) | weights modulo 11 and 97 with a finite table; a bit of CRC-32 is injective and commutes with what is above it, so up to four bytes act as one word |
| C103 | texts an action must not tell apart (`Spec/Secrecy.lean`), relation of two events | the cut of a string is unique (C81), hexadecimal digits are injective, rewriting of events composes |
| C104 | the same rules with other numbers, ties, one more rule (`Spec/RuleOrder.lean`) | a resolution stays one when rules are told apart only by whether they redact, and when rules without redaction are left out |
| C105 | the function that a scanner applies to every string (`Spec/Locality.lean`) | the result of a string is unique given path, text and remembered texts; chosen once for all events |
| C106 | two Go events whose strings differ in hidden texts (`Spec/GoSecrecy.lean`) | composition of C81 (with its unique cut) and C103; paths of an event with UTF-8 keys are paths of the library |
| C107 | the event as a panic leaves it (`Model/Unwind.lean`) | the loop over the strings is split at the first value without a string; the refinement of C10 for the part in front of it |
| C108 | a scanner with and without its last rule, matches reached through overlaps (`Spec/MoreRules.lean`) | a part of the candidates that no others overlap is resolved on its own; resolutions are unique |
| C109 | rules that do not look at what surrounds a match, foreign replacements (`Spec/Again.lean`) | a text without characters of the replacements lies between two of them; there it was in the old text, too, where the search (C20) cannot have missed it |
| C110 | undoing redactions with the reports (`Spec/Undo.lean`) | induction over the pieces of a string; reports belong to one string as paths are unique |
| C111 | texts in lines (`Spec/Lines.lean`) | the leftmost matches, their resolution and the pieces of two texts joined by a separator are those of the two texts one after another; for patterns: the tries of a leftmost-first search do not depend on what is beyond the separator |
| C112 | a list whose calls are made one after another, and what it means that a history can be put in such an order (`Spec/SharedList.lean`) | invariant over all interleavings: at most one call has the guard, what it has read is the list, and the calls in the order in which they wrote (or were refused) make the list; calls that begin later come later |
| C113 | bytes and characters of strings and of returned values, the bytes an action puts in (`Spec/Growth.lean`) | a match is not empty, so there are at most as many pieces as characters; an action makes a text no longer than the text or than what it puts in; summed over the strings |
| C114 | places that are the same to the rules; the reports of a text put at a path (`Spec/Names.lean`) | candidates and remembered texts are the same, and a string has one result for them (C105) |
| C115 | the request tells the text of a match at an endpoint of its own rule (`Spec/Whereto.lean`) | a request that is sent is the prescribed one (C88); the key of a group has the endpoints of all its rules |
| C116 | the higher one of two statuses, match by match (`Spec/Revalidate.lean`) | the checks do not read statuses, so both calls have the same outcomes; C38; for equal answers the outcomes depend on the matches only, not on their order |
| C117 | the different endpoints of each match, summed, plus ids times secrets (`Spec/Requests.lean`) | every check sends at most once (C88) and, when its call has returned, exactly once; the checks of a group are all different; every match is in one group; sums over the groups |
| C118 | permutation of the match lists; no AWS id in one call and secret in the other (`Spec/Batches.lean`) | with equal replies to equal requests every group is a map over its matches, whose function depends on the other matches only through the pairs |
| C119 | a rule with the same regex and fewer checks (`Spec/Stricter.lean`) | what passes more checks passes fewer; then C20 and C23 for the two searches, and the leftmost list of a part of the matches |
| C120 | keywords that contain others, windows at least as long (`Spec/MoreKeywords.lean`) | C85 for both rules, with the same leftmost matches; a match near a keyword is found or one between the keyword and it is |
| C121 | two lists of excluded keywords and two windows | the shorter prefix, without the ignored characters, is a suffix of the longer one, and a keyword in it has the same neighbours there; then C20 |
| C122 | two rule sets, every path of the one under a path of the other | what deletes to a path deletes, up to some place, to each of its prefixes; then the selection by paths (C15) |

## Where the code differs from the properties

Each item names the theorem that proves it on a witness.  The inputs can be read off the theorem.

* C17 `C17_records_out_of_window`: with required keywords, the texts remembered for multi-pass suppression include
  matches outside of the keyword window of an excluded field.
* C19, C26 `C26_keyword_missed`, `C26_keyword_missed_at_start`, `C19_keyword_missed`: `-` and `_` are removed from the
  look-ahead text before the span is cut, so an excluded keyword next to such a character is missed.
* C27 `C27_panics`: the same computation slices inside a character; the check panics.
* C21 `C21_hangs`: the acceptance test `is_match("")` does not exclude patterns with empty matches elsewhere (`\b`);
  scanning then never ends.
* C24 `C24_not_emitted`: a valid match that starts inside an emitted match is not emitted although it is the first
  one after a keyword.
* C87 `C87_deleted_during_scan`: `scan` does not take a reference of its own, so `Delete` in another goroutine frees the scanner
  under a running scan.
* C85 `C85_keyword_lost`: after a match is emitted, keywords are looked for from its start on; a keyword between the first
  keyword and this match is forgotten, and a later match in its window is not emitted.
* C03, C06 `C03_empty_match_repeated`, `C06_empty_match_panics`: empty matches (of rule kinds outside the repository) are kept twice
  if reported twice, and can make the redaction panic; both properties are about non-empty matches.
* C29 `C29_kelvin`: case folding maps the Kelvin sign to `k`, so a keyword is found without a word boundary.
* C30 `C30_leading_dot`: a path that starts with an index gets a leading dot.
* C31 `C31_overflow`: with half a billion digits the 32-bit sum of the Luhn check overflows (in a release build it wraps): a text is
  accepted although its sum is not divisible by 10, and the right one is rejected. `C31_any_length` says what is accepted.
* C32 `C32_accepts_other_lengths`: NHS numbers with fewer than ten digits and with eleven digits are accepted.  `C32_accepted_iff`
  says which: with fewer those that are NHS numbers with zeros in front, with eleven those that are without the second digit.
* C35 `C35_rejects_padded`: the base-62 checksum is not zero padded; genuine GitHub tokens with a small checksum are
  rejected.
* C37 `C37_refuted`: `validate_matches` drops the matches of rules without a validator.
* C40 `C40_own_configuration_refuted`: rules with equal endpoints share the validator of the first one, whatever
  their own status ranges are.
* C43 `C43_history_dependent`: keyword patterns and rule patterns share one store; a rule whose pattern equals that of
  a live keyword gets the keyword's (case insensitive) regex and skips validation.
* C93 `C93_depends_on_others`, `C93_two_outcomes`: the pattern `(?-u:\b)id(?-u:\b)` is refused by the parser of the library (it knows
  no flag `u`), but accepted while a scanner with the keyword `id` is alive, since the store is asked before the pattern is
  validated; the rule then ignores case.  The other way round (example in the file), the keyword `été` respects case while a
  scanner with the rule `été` is alive.
* C94 `C94_silently_lost`: `lowLevelScan` converts the 64-bit size of the response to `C.int`.  A response of k * 2^32 + n bytes
  with n below 2^31 is cut to its first n bytes without any error; for n = 0 the caller is told that nothing matched and keeps
  the sensitive text (`C94_lost`).  Sizes n of 2^31 and more make `GoBytes` panic (`C94_received`).
* C95 `C95_search_panics`, `C95_foreign_cache`: the keys of regexes have a slot and a 32-bit version, and `RegexCaches` entries
  stay when the regex is gone.  If a slot is reused 2^30 times while some cache of the pool is not used with it, slotmap takes the
  new key for an older one, `entry` returns `None`, and `raw_get` panics in every search with this cache.  After 2^31 reuses the key
  repeats, and a search uses the cache of another regex.  A process that creates and drops a scanner again and again reuses a
  slot with every second creation.
* C96 `C96_rule_reason_lost`: `create_regex_rule` calls `handle_panic_ptr_return` without `error_out`, so that the message of
  `serde_json` (which field or constant is wrong) is dropped and every refused rule is reported by the same words.
* C97 `C97_shared_secret_restored`: an event in which a map is reached on two paths, and rules scoped to one path each: each
  mutation is computed from the text before the scan, the second overwrites the first, and a secret that was reported as
  redacted is in the event again.
* C99 `C99_host_fixed`: the header `Host` and the region that are signed are those of `us-east-1` whatever `aws_sts_endpoint` is, so
  with the endpoint of another region, and with the default endpoint `https://sts.amazonaws.com` (`C99_default_host`), the request
  names a host that is not the one it is sent to.  `C99_bad_endpoint_panics`: an
  endpoint that is not a URL makes validation panic, where the HTTP validator reports an error.
* C100 `C100_hidden`: the Go binding writes the length of a string as `uint32(len)`. What is left of a string of 2^32 bytes or more
  is read as further instructions (`C100_read`): a string full of matches that begins with a zero is taken for an empty string and a
  key, and the caller is told that there are no matches.
* C101 `C101_dead_cache` (not a violation, within the bound): the matching caches of a dropped regex stay in every map of the pool
  until a new regex gets the same slot; a collection of the store does not visit them.
* C45 `C45_gauge_wrong`: the gauge is set from a counter in a second step; an interleaving leaves it wrong.
* C47 `C47_ambiguous`: `InvalidMatchValidator` and a panic both have code -5.
* C51 `C51_invalid_key_keeps_content`, `C51_colliding_keys_error`, `C51_colliding_keys_not_redacted`: field names that
  are not valid UTF-8 are decoded lossily; redactions do not reach the caller's event.
* C53 `C53_unordered_range_converted`, `C53_huge_count_is_literal`: `x{5,3}` is converted; `x{4294967296}` is read as
  literal text.
* C56 `C56_panics`: a match in a JSON number or boolean panics.
* C57 `C57_displayed_paths_collide`: field names with dots or brackets make different paths look equal.
* C63 `C63_overlap_leaks`: when the matches of two redacting rules overlap, only one is redacted; the part of the other
  secret outside of the overlap stays in the event.
* C64 `C64_invalid_text_changed`: a Go pattern (replacement, keyword) that is not UTF-8 is silently changed by the JSON
  encoder; the rule is created with another pattern.
* C66 `C66_append_lost`: a panic while building poisons the mutex of the rule list; later appends are ignored without
  an error and no scanner can be made from the list.
* C67 `C67_used_after_delete`: `Scanner.Delete` stores 0; a second `Delete` or a scan then dereferences a null pointer.
* C68 `C68_dollar_takes_newline`: `$` becomes `\n?$` (and `\Z` becomes `\n?\z`), which consumes the newline; only a
  trailing one still matches in the same places.  `C68_escaped_space_dropped`: escaped whitespace that is not of ASCII
  is printed verbatim and then ignored under `x`.  `C68_word_beyond_ascii`: `(?i)\w` also matches the Kelvin sign and
  the long s.
* C71 `C71_quotation_not_repeated`: `\Qab\E*` is parsed as a repetition of `ab` and printed as `ab*`.
  `C71_end_not_repeated`: `$?` is printed as `\x{A}?$?`, which matches a newline anywhere.
  `C71_ignored_space_repeated`: in `(?x)a *` the quantifier moves to the `a`.  `C71_text_rejected`: `(?)`, `(?i)*`,
  `\Q\E*`, `[b-a]`, `a{3,2}` and `(?<n>a)(?<n>b)` are accepted by the parser and the conversion, and not by the crate.
* C69 `C69_last_hump`: a capital at the end of a name does not begin a word, so the keyword `planB` is not found in the
  path `plan.b` (while `plan_b` is).
* C72 `C72_replaced_differently`: bytes that are not UTF-8 are replaced per part in a scanned value and per byte in the
  pattern of a rule, so a rule written with the same invalid bytes does not match them.
* C73 `C73_final_slash_not_sent`: the pattern that extracts an AWS secret ends in `\b`, so a secret that ends in `/` or
  `+` (one in 32) is not found before a quote or the end of the text.  The request is then signed with an empty secret,
  and a valid pair is reported invalid (`C73_valid_secret_reported_invalid`).  `C73_word_after_not_sent`: likewise before
  `_`.  `C73_other_secret_sent`: after a `/`, part of the secret may be sent with the `/`.
* C75 `C75_keyword_counted_repeatedly`: after a match that is dropped because of an excluded keyword the search goes on with
  the next character, so that the rest of the same text is matched, dropped and counted again: a match of five characters
  may count five times.  `C75_excluded_match_counted_twice`: a match that is emitted for a keyword in the text and for one
  in the path is counted twice by the multi-pass counter.
* C76 `C76_quotation_missed`: `\Qab\E{2}` is accepted and matches `abab`, but nothing is found there, since the crate reads
  the translation as `ab{2}` (the cause is that of C71).
* C77 `C77_line_break_panics`: an AWS id rule that matches a line break makes validation panic as soon as a secret is found in
  the same event (`signature.parse().unwrap()`). `C77_scan_then_validate_partial` asks for printable ids; that a printable
  id is accepted and a line break refused is what is assumed of the `http` crate (`SignsPrintable`).
* C78 `C78_cache_gauge_wrong`: `total_regex_cache_size` is only ever decreased, so it is right exactly when no regex with a
  cache was ever stored (`C78_cache_gauge_right_iff`); `C78_cache_gauge_partial` gives its value.
* C79 is partial as C76 is: the constructs that the conversion changes are the same (`Convertible`). It assumes of the regex
  crate that it chooses as `tries` of `Spec/Prefer.lean` does, which is its documented leftmost-first rule; an endless loop
  is left after an iteration that matches nothing.
* C80 is partial as C76 is (`Convertible`, patterns that match empty texts), and its part on validators is partial as C32 and
  C35 are. The excluded keywords are referred to through the check of C26, whose exact meaning is stated there.
* C81 is partial where C76, C27 and C51 have counterexamples (converted patterns, excluded keywords at the start of a text,
  keys that are not UTF-8), for texts in which a required keyword overlaps a match (C24), and for events whose
  response would not fit 2^31 bytes (C94).
* C84 is partial where C75 is: a rule with required keywords can emit a match twice and then counts it twice when it is
  dropped, and a match with an excluded keyword in front is counted once for each position its regex matches at.
* C85 is partial because a match in the window of a keyword can be missed (`C85_keyword_lost`), and because keywords that overlap
  matches are left out (`C24_not_emitted`).
* C87 is partial because `Delete` during a scan (or a second `Delete`) is undefined; its theorems ask for the discipline.
* C90 is partial as C87 is (discipline), and its last theorem as C81 is.
* C93 is partial: see its finding; the hypothesis `NoClash` excludes exactly that a text is the pattern of a rule and made of keywords
  and is treated differently by the two factories.
* C94 is partial: responses of 2^31 bytes or more are refused by a panic or cut (`C94_received`).
* C95 (and with it C62) is partial: it holds while at most 2^30 regexes were stored since the start of the process.
* C96 is partial: it is not proved for rules the library does not accept and for panics without a text or with a zero in it, for
  which it fails.
* C97 is partial: it is not proved for scanners that find different candidates on two paths to the same place, for which it
  is false (`C97_shared_secret_restored`). `C97_shared_texts` says what happens in general.
* C99 is partial: that `Host` names the host of the endpoint is proved exactly for `sts.us-east-1.amazonaws.com`.
* C100 is partial: it is proved for texts without the bytes 0 to 3, which are refused with an error when they are too long.
* C104 `C104_tie_depends_on_order`: if two rules with redaction match the same range, the first in the list decides what
  the text becomes.  `C104_detect_only_suppresses`: with the multi-pass heuristic a rule without redaction that excludes
  a field keeps other rules from redacting what occurs there.  `C104_redacting_uncovers`: one more rule with redaction
  can uncover a text that was redacted without it (its match displaces an overlapping one).
* C106 is partial for two reasons: the irregular cases of C81, and that the shift which Go receives for a match tells the length of
  the hidden text (`C103_shift_tells_length`).  With equal lengths nothing differs.
* C107 `C107_later_strings_keep_secrets`: if a number of a JSON event has a match (C56), the scan panics when the strings in front
  of it are already redacted and those after it are not; a caller that catches the panic and passes the event on passes on
  these secrets.
* C108 `C108_reaches_further`: the effect of a new rule is not limited to the matches that its own ones overlap: a displaced match
  no longer displaces a third one, which is then reported.
* C109 is partial.  `C109_joined`: with an empty replacement the texts around a match are joined, and the returned event can contain
  the secret (`aabb` becomes `ab` with a rule for `ab`).  `C109_displaced`: the search of a rule goes on behind its match even
  if this match is then displaced by the one of another rule, so that a second occurrence that overlaps it is neither redacted
  nor reported.
* C111 `C111_keyword_in_another_line`: required keywords are not bound to a line: a keyword in one line makes the next line be
  redacted, which is left alone if it is scanned on its own.  So logs that are split into lines before the scan can be redacted
  less than the same text in one event.
* C112 `C112_append_lost`: if `create_scanner` panics while it has the list locked, every later `append_rule_to_list` on that
  list does nothing (the poisoned lock panics, rule.rs 51 drops the caught panic), and its caller is told nothing.
* C113 `C113_partial_grows`: partial redaction of a match that is shorter than the number of characters to hide makes the text
  longer (`bb` becomes `***` if three characters are hidden).
* C115 `C115_aws_other_endpoint`: all rules for AWS secrets share the validator of the first one, whatever their endpoints: a secret
  that was found by a rule with another `aws_sts_endpoint` is sent to the endpoint of the first rule (scanner/mod.rs 652-673,
  match_validation/config.rs 204).  So C115 is partial for AWS.
* C116 `C116_refused_later`, `C116_revoked`: `validate_matches` merges the new status into the old one (match_status.rs 13-17), and
  an error is above `Invalid`.  So a match whose endpoint could not be reached keeps its error when a later validation finds it
  invalid, and a match that was valid stays valid when the secret has been revoked.  C116 is partial: `C116_higher` is exact.
* C117 `C117_equal_texts`: equal texts are not checked together: a secret that is found n times is sent n times to each endpoint
  (http_validator.rs 102-122), and the answers may differ from each other; the example beside it ends with one match valid and the
  other, with the same text and rule, invalid. n AWS ids and n secrets in one call lead to n * n requests (aws_validator.rs 119-170).
* C118 `C118_pair_apart`: an AWS id and its secret are tried together only if they are in the same call of `validate_matches`
  (aws_validator.rs 56-66 pairs the matches of one list).  In two calls both stay `NotChecked`.  So C118 is partial: callers that
  validate event by event, or field by field, miss pairs that are apart.
* C119 `C119_appears`: after a rejected match the search goes on with the next character (compiled.rs 283-293), so a validator or an
  excluded keyword can make a rule report a match that it would not report without the check: of `12345` a rule that rejects more
  than three digits reports `345`.  So C119 is partial; such a match always begins inside one that was rejected (`C119_reaches`).
* C120 `C120_keyword_loses`, `C120_window_loses`: after a match the search for keywords goes on at the start of this match
  (compiled.rs 176), which passes over keywords between the first keyword and the match.  So a rule with one more keyword, or with a
  longer look-ahead, can find less: in `xx id 5 77` the keyword `id` alone finds both numbers, `id` and `xx` only the first; in
  `id id 5 77` a look-ahead of 5 finds both, one of 6 only the first.  C120 is partial: something is still found (`C120_still_found`).

Other observations made while modelling (not stated as properties):

* AWS secret rules share the configuration of the first secret rule.
* An AWS id that makes an illegal header value panics in `generate_aws_headers_and_body` (`parse().unwrap()`).
* AWS replies 1xx and 3xx leave the status `NotChecked`.
* The comment at aws_validator.rs 83 contradicts the derived order of `MatchStatus`.
* The HTTP validator panics on a match without `match_value`.
* The gauge `total_regex_cache` only ever decreases.
* `ERR_UNKNOWN` cannot be returned by the native create call.
* Invalid UTF-8 in a value becomes U+FFFD when the value is redacted.
* Non-ASCII text makes `is_last_char` of the path normaliser never fire.
* The complexity estimate is exactly ten million for every pattern that is too complex.
* `#` is a literal even under `x`; `\x{+41}` is accepted as `A`.

## Axioms

<!-- axioms -->

No axioms (4 theorems):

C03_empty_match_repeated, C47_ambiguous, C53_convert_error, C83_configuration_separate.

`propext` (10 theorems):

C30_path_is_join_partial, C30_leading_dot, C43_history_dependent, C44_recent_exists,
C45_gauge_wrong, C72_replaced_differently, C83_regex_rules, C87_deleted_during_scan, C91_as_before,
C107_returned.

`Quot.sound`, `propext` (49 theorems):

C08_partial_first, C08_partial_last, C08_nothing_kept_of_short, C17_records_true_positives_partial,
C19_regex_and_validator, C19_no_excluded_keyword_partial, C20_nothing_missed, C20_leftmost,
C26_veto_partial, C27_panics_only_then_partial, C29_whole_words_partial, C30_shortcut_invisible,
C30_words_partial, C45_count_is_live, C46_pattern_accepted_iff, C46_pattern_error_iff,
C47_success_and_panic, C48_any_bytes_can_be_read, C48_error_iff_unsupported,
C54_converted_flags_valid, C58_starts_with, C58_starts_with_order, C59_pool_size, C66_append_lost,
C68_end_assertions, C71_bracketing_irrelevant, C73_leftmost, C85_selected_partial, C85_determined,
C91_listed, C91_reached, C97_cycle, C98_no_deadlock, C98_mutual_exclusion, C98_store_held_briefly,
C98_store_not_poisoned, C98_poisoned_by, C98_panic_contained, C98_no_panic, C100_read,
C101_dead_cache, C109_patterns, C109_one_rule, C112_linearisable, C112_built_with, C112_append_lost,
C114_rule, C119_reaches, C119_same.

`Classical.choice`, `Quot.sound`, `propext` (392 theorems):

C01_reports_disjoint, C01_reports_disjoint_any, C02_candidates_covered, C02_redactions_covered,
C03_is_the_resolution, C03_order_independent, C03_redactions_ignore_detect_only,
C04_redaction_exact, C05_indices_point_to_replacement, C05_byte_indices, C06_no_panic,
C06_unvalidated_zero_panics, C06_empty_match_panics, C07_values_are_original, C09_detect_only,
C10_scan_result, C10_changed_only_where_redacted, C11_includes_select_subtrees,
C12_excludes_cover_subtrees, C13_rule_runs_once, C14_selection_depends_on_path, C15_index_wildcards,
C16_scope_paths_are_sets, C17_suppressed, C17_nothing_else_suppressed, C17_order_independent,
C17_records_out_of_window, C18_excluded_never_reported, C18_excluded_not_rewritten,
C18_no_influence, C19_keyword_missed, C21_terminates_partial, C21_hangs,
C22_blocked_rules_have_no_effect, C23_near_keyword, C24_skip_ahead_partial, C24_not_emitted,
C25_window_test, C25_window_start, C26_keyword_missed, C26_keyword_missed_at_start, C27_panics,
C28_accepted_iff, C28_first_error, C29_kelvin, C31_luhn_partial, C31_single_error_partial,
C31_transposition_partial, C31_unique_check_digit, C31_any_length, C31_overflow, C32_nhs_partial,
C32_accepts_other_lengths, C32_accepted_iff, C33_nir_iff, C33_single_error, C34_chinese_iff,
C34_single_error, C34_transposition, C35_github_partial, C35_rejects_padded, C36_jwt_iff,
C36_stays_rejected, C37_refuted, C37_keeps_matches_partial, C37_no_validator, C38_merge, C38_order,
C38_http, C38_aws, C38_schedule_independent, C38_never_decreases, C39_aws_pairs, C39_scanner,
C40_classification, C40_own_configuration_refuted, C40_own_configuration_partial,
C41_store_consistent, C41_no_panic, C41_calls_return, C42_one_regex_per_pattern,
C42_mutual_exclusion, C42_no_deadlock, C43_history_independent_partial, C44_collection_exact,
C44_collection_invisible, C44_store_bounded, C45_gauge_is_live_partial, C45_gauge_recovers,
C46_built_iff, C46_first_fault, C46_positions, C47_codes_partial, C47_builder_unambiguous,
C48_event_round_trip, C49_response_round_trip, C49_type_names, C49_no_matches,
C50_mutations_applied, mutatedText_spec, C50_scan_string, C51_invalid_key_keeps_content,
C51_colliding_keys_error, C51_colliding_keys_not_redacted, C51_redaction_reaches_caller_partial,
C51_all_texts_partial, C52_terminates, C52_recursion_bound, C52_accepted_nesting,
C52_accepted_height, C52_rejections, C52_accepted_iff, C52_too_deep, C53_convert_iff,
C53_pattern_iff, C53_counts_bounded_partial, C53_unordered_range_converted,
C53_huge_count_is_literal, C54_flags_in_effect, C54_other_flags_kept,
C55_simple_visits_each_string_once, C55_simple_message_first, C55_json_visits_each_leaf_once,
C55_hashmap_visits_each_leaf_once, C55_edit_addresses_the_string, C55_hashmap_edit, C55_rewrite_at,
C55_returns_to_root, C56_panics_only_then_partial, C56_panics, C57_displayed_paths_collide,
C57_displayed_paths_distinct_partial, C58_path_order, C58_strings_compare_by_bytes, C60_hosts,
C60_defaults, C61_estimate_exact, C61_estimate_decides, C62_own_cache, C95_own_cache_partial,
C95_search_panics, C95_foreign_cache, C63_secret_redacted_partial, C63_secret_overlapped,
C63_overlap_leaks, C64_rule_arrives, C64_nothing_else_partial, C64_accepted_iff, C64_constructors,
C64_invalid_text_changed, C65_no_use_after_free, C65_no_leak, C65_heap_is_owned,
C66_built_from_appended_partial, C67_create_scanner, C67_scan, C67_delete, C67_used_after_delete,
C68_same_meaning_partial, C68_trailing_end_partial, C68_dollar_takes_newline,
C68_escaped_space_dropped, C68_word_beyond_ascii, C69_keyword_in_path_partial,
C69_path_suffices_partial, C69_last_hump, C70_returns, C70_accepted_iff, C70_errors,
C70_validate_regex, C71_text_read_partial, C71_read_iff_partial, C71_text_matches_partial,
C71_quotation_not_repeated, C71_end_not_repeated, C71_ignored_space_repeated, C71_text_rejected,
C72_ill_formed_replaced, C72_go_replaced, C73_secret_sent_partial, C73_final_slash_not_sent,
C73_word_after_not_sent, C73_other_secret_sent, C73_valid_secret_reported_invalid, C74_round_trip,
C74_field_order, C74_defaults, C75_scan_counters, C75_excluded_match_partial,
C75_keyword_counter_partial, C75_keyword_counted_repeatedly, C75_excluded_match_counted_twice,
C76_regex_of_pattern_partial, C76_search_partial, C76_redacted_partial, C76_quotation_missed,
C77_scan_then_validate_partial, C77_statuses, C77_line_break_panics, C78_total_regexes,
C78_cache_gauge_partial, C78_cache_gauge_right_iff, C78_cache_gauge_wrong, C79_found_partial,
C79_preferred_match, C79_first_alternative, C79_longest_shortest, C80_built_iff,
C80_rules_as_configured, C80_finds_partial, C80_near_keyword_partial, C80_required_keywords_partial,
C80_scanner_ok_partial, C80_validators_partial, C80_returns_partial, C80_paths_ignored,
C81_created_iff, C81_every_rule, C81_go_rules_partial, C81_cut_unique, C81_redacting_rule_partial,
C82_reads_iff, C82_denotes_unique, C82_accepted_iff, C82_refused_iff, C82_deep_error,
C83_configuration, C83_calls, C83_as_without_data, C83_separate, C84_scan, C84_scanned_events,
C84_match_count, C84_duration, C84_excluded_match_partial, C84_keywords, C84_counters,
C84_registered, C84_regex_rule_partial, C85_required_keywords, C85_recorded, C85_keyword_lost,
C86_reads_iff, C86_text_unique, C86_levels, C86_no_zero, C86_go_text, C86_document_arrives,
C86_rule_from_text, C86_rust_round_trip, C87_no_undefined_behaviour_partial,
C87_never_stuck_partial, C87_reports_partial, C87_no_leak_partial, C88_requests_once, C88_result,
C88_panics_alike, C88_ends, C88_refines_sequential, C89_github, C89_datadog, C89_setters,
C90_defined_partial, C90_created_partial, C90_sent, C90_scanned_partial, C90_program_partial,
C91_linear, C91_scan, C91_endless, C92_content_text, C92_path_text, C92_texts_read, C92_matchers,
C92_faithful, C93_as_configured_partial, C93_same_everywhere_partial, C93_keeps_regexes_partial,
C93_no_panic, C93_progress, C93_depends_on_others, C93_two_outcomes, C94_whole_partial,
C94_received, C94_lost, C94_silently_lost, C95_store_unaffected, C96_scan_panic_partial,
C96_create_panic_partial, C96_texts_distinguished, C96_no_information, C96_no_false_panic,
C96_freed_whole, C96_first_fault_named, C96_rule_reason_lost, C97_shared_texts,
C97_redaction_reaches_caller_partial, C97_unshared, C97_shared_secret_restored, C98_progress,
C98_calls_return, C98_regex_rules, C99_signed_is_sent, C99_date, C99_sent_iff, C99_signs_printable,
C99_host_partial, C99_host_fixed, C99_bad_endpoint_panics, C99_default_host,
C100_string_refused_partial, C100_event_refused_partial, C100_hidden, C101_size, C101_slots,
C101_compiled, C102_github_payload, C102_github_check, C102_nhs_digit, C102_nhs_swap, C102_nir_swap,
C103_alike, C103_hidden, C103_hidden_same_length, C103_shift_tells_length, C104_reordered,
C104_renumbered, C104_detect_only_partial, C104_tie_depends_on_order, C104_detect_only_suppresses,
C104_redacting_uncovers, C105_one_function, C105_more_strings, C105_other_order,
C105_remembered_matters, C106_go_hidden_partial, C106_go_hidden_same_length_partial,
C107_rule_panics, C107_left, C107_later_strings_keep_secrets, C108_only_added, C108_reached,
C108_blocked, C108_reaches_further, C109_again_partial, C109_joined, C109_displaced, C110_undo,
C110_same_result, C110_without_values, C111_two_texts, C111_lines, C111_rule, C111_patterns,
C111_keyword_in_another_line, C112_all_arrive, C113_bounded, C113_partial_grows, C114_same_texts,
C114_path_blind, C114_each_alone, C114_scopes_matter, C115_http, C115_aws, C115_aws_partial,
C115_aws_other_endpoint, C115_scan, C116_higher, C116_up_to_date_partial, C116_steady, C116_returns,
C116_refused_later, C116_revoked, C117_at_most, C117_exactly, C117_equal_texts, C118_order,
C118_batches_partial, C118_pair_apart, C118_together, C119_reaches_keywords, C119_removes_partial,
C119_appears, C120_adds_partial, C120_still_found, C120_keyword_loses, C120_window_loses,
C121_vetoed, C121_fewer, C122_reaches, C122_superfluous, C122_no_lists.

<!-- end axioms -->
