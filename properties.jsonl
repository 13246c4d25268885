{"id": "C01", "title": "Word normalisation", "statement": "Every word is stored as a sequence of 28 symbols (26 letters, one punctuation symbol, one word-end symbol) that ends with a word end; upper and lower case spellings of an ASCII word give the same sequence, combining accents vanish, the ligatures become two letters, and no input string is rejected.", "quantifier": "every string", "why_tests_cant": "The set of strings is infinite; unit tests try a handful of spellings.", "anchors": ["noodle/src/words.rs: Char, From<char>, Word::new"]}
{"id": "C02", "title": "Character classes", "statement": "A character class matches exactly the symbols it lists: a single letter, a range, a union; '.' is any letter; '[^...]' is every letter not listed. (The code lets an explicitly listed '_' or ' survive negation.)", "quantifier": "every list of class items, every symbol", "why_tests_cant": "Subsets of 28 symbols are too many to enumerate and ranges cross case and punctuation code points.", "anchors": ["noodle/src/words.rs: CharBitset", "noodle/src/parser.rs: parse_term (Rule::class)"]}
{"id": "C03", "title": "Word list loading", "statement": "Loading a word list keeps exactly the lines that are not one-letter words (other than I and a) and contain no digit, each with its normalised spelling, the optional count column as its score, sorted (by tranche first); the tranche of a word follows from its place among the kept lines: tranche t holds one word more than its nominal size (10000, then half as large again each time), and a word that is not all small ASCII letters is put one tranche later.", "quantifier": "every file contents (sequence of lines)", "why_tests_cant": "Depends on the position of every line relative to the growing tranche size; files are unbounded.", "anchors": ["noodle/src/words.rs: load_wordlist"]}
{"id": "C04", "title": "Bitsets are finite sets", "statement": "The bitset operations insert, remove, contains, union, difference, intersection, subset, clear, copy, resize and the ones() iterator behave exactly as the operations on a finite set of numbers, with ones() ascending and without duplicates.", "quantifier": "every size, every index in range, every pair of sets", "why_tests_cant": "Word-boundary (32-bit) effects for all sizes; tests use sizes 100 and 1000.", "anchors": ["noodle/src/bitset.rs: BitSet, BitSetRef, BitSetRefMut, Ones"]}
{"id": "C05", "title": "Multi-dimensional bitset rows do not alias", "statement": "In a 3-D bitset of dimensions (x,y,z) every row (i,j) with i<x, j<y lies inside the allocation, distinct rows never overlap, so writing one row leaves every other row unchanged; the 2-D slice i consists of exactly the rows (i,0..y).", "quantifier": "every dimension and every in-range index pair", "why_tests_cant": "Index arithmetic is unchecked (get_unchecked), so a mistake is memory corruption at some untested size.", "anchors": ["noodle/src/bitset.rs: Index::slice, SplitIndex::slice_outer, slice2d"]}
{"id": "C06", "title": "Compiled epsilon sets are closed", "statement": "In every compiled expression each state's epsilon set contains the state itself and is transitively closed, and all state references are in range, which is what the matcher requires.", "quantifier": "every expression that compiles", "why_tests_cant": "Quantifies over all syntax trees.", "anchors": ["noodle/src/expression.rs: Expression::from_ast, optimize_states, epsilon_transitive_closure"]}
{"id": "C07", "title": "Compilation preserves meaning", "statement": "The compiled expression accepts a word exactly when the regular expression read in the documented way does.", "quantifier": "every expression, every word", "why_tests_cant": "Infinite set of expressions and words; the shipped tests only check syntax trees.", "anchors": ["noodle/src/expression.rs: build_states, optimize_states"]}
{"id": "C08", "title": "Compilation does not crash", "statement": "Compiling any syntactically valid expression returns an expression (no panic, no out-of-range memory write).", "quantifier": "every syntax tree the parser can produce", "why_tests_cant": "Crashes depend on nesting of operators.", "anchors": ["noodle/src/expression.rs: from_ast, build_states, optimize_states"]}
{"id": "C09", "title": "State sets stay inside their allocation", "statement": "While an expression is compiled, no bit outside the allocation of a state set is ever read or written: neither above the fixed 16384-bit capacity while the automaton is built, nor above the smaller capacities the optimisation passes allocate.", "quantifier": "every expression", "why_tests_cant": "get_unchecked writes: an out-of-range index is undefined behaviour at untested sizes.", "anchors": ["noodle/src/expression.rs: MAX_SET_SIZE, State::new_transition, prune_epsilon_pairs, collapse_epsilon_char_pairs", "noodle/src/bitset.rs: insert, contains"]}
{"id": "C10", "title": "Repetition counts", "statement": "t{n,m} matches from n to m copies of t, t{n} exactly n, t{n,} at least n, t? t* t+ likewise, and t{0} only the empty string.", "quantifier": "every n, m, every class t, every word", "why_tests_cant": "Counts are unbounded.", "anchors": ["noodle/src/expression.rs: build_states (Repetition)"]}
{"id": "C11", "title": "NFA optimisation is transparent", "statement": "The optimisation passes run on the compiled automaton never change which words it accepts and keep the success state last.", "quantifier": "every automaton produced from an expression", "why_tests_cant": "The passes renumber states in place; correctness depends on the whole automaton.", "anchors": ["noodle/src/expression.rs: optimize_states, prune_epsilon_pairs, collapse_epsilon_char_pairs"]}
{"id": "C12", "title": "Exact word match", "statement": "With fuzz 0, a word is reported as a match for an expression iff the word's symbols (minus ignored ones) are accepted by the expression's automaton.", "quantifier": "every expression, every word", "why_tests_cant": "Infinite words and automata.", "anchors": ["noodle/src/expression.rs: fill_transition_table", "noodle/src/matcher.rs: next_single_word"]}
{"id": "C13", "title": "Ignored boundaries and punctuation", "statement": "When an expression does not mention '_' (resp. apostrophe) word ends (resp. punctuation) in candidate words are skipped: inserting or removing them anywhere in a phrase never changes the verdict.", "quantifier": "every expression, every phrase, every insertion position", "why_tests_cant": "All positions in all words.", "anchors": ["noodle/src/expression.rs: fill_transition_table, from_ast", "noodle/src/parser.rs: detect_options"]}
{"id": "C14", "title": "Fuzzy matches are close", "statement": "Every word or phrase reported for a query with fuzz k is within Levenshtein distance k of some string accepted exactly by the expression (over the non-ignored symbols).", "quantifier": "every expression, fuzz level and phrase", "why_tests_cant": "All edit sequences.", "anchors": ["noodle/src/expression.rs: fill_transition_table (fuzz)"]}
{"id": "C15", "title": "Fuzz is monotone", "statement": "Raising the fuzz level never removes a match.", "quantifier": "every expression, every k, every phrase", "why_tests_cant": "All expressions and phrases; the code removes states from higher fuzz levels as an optimisation.", "anchors": ["noodle/src/expression.rs: fill_transition_table, difference_with(fuzz_superset)"]}
{"id": "C16", "title": "Fuzz completeness", "statement": "Every word within k edits of an accepted string is reported (what the documentation promises); the exact relation actually implemented is: each word symbol is either consumed exactly, deleted, changed, or preceded by at most one inserted letter.", "quantifier": "every expression, k, word", "why_tests_cant": "All edit sequences.", "anchors": ["noodle/src/expression.rs: fill_transition_table"]}
{"id": "C17", "title": "The prefix cache is invisible", "statement": "The verdict and the transition table for a word never depend on which words were processed before it.", "quantifier": "every sequence of words, every expression", "why_tests_cant": "All histories of cached prefixes, including words that are prefixes of others and words that died early.", "anchors": ["noodle/src/matcher.rs: next_single_word (table_chars)"]}
{"id": "C18", "title": "Single-word results in order, once each", "statement": "Single-word matches are reported in word-list order and each list entry is examined exactly once, across any number of resumptions.", "quantifier": "every word list and every sequence of timeouts", "why_tests_cant": "All schedules of timeouts.", "anchors": ["noodle/src/matcher.rs: next_single_word", "noodle/src/query.rs: next_within_deadline"]}
{"id": "C19", "title": "Single-word results are exactly the common matches", "statement": "The single-word phase reports exactly the words of the word list that match every expression of the query.", "quantifier": "every list of expressions, every word list", "why_tests_cant": "Matchers are chained through each other's filtered word list; interplay over all lists.", "anchors": ["noodle/src/query.rs: next_within_deadline (Word phase)"]}
{"id": "C20", "title": "Result limit", "statement": "With a result limit n at most n matches are reported, and they are the first n matches of the unlimited run.", "quantifier": "every query, word list, n", "why_tests_cant": "All runs.", "anchors": ["noodle/src/query.rs: results_limit"]}
{"id": "C21", "title": "Timeouts lose nothing", "statement": "Cutting a run by deadlines anywhere and resuming it reports the same matches in the same order as an uninterrupted run.", "quantifier": "every query, every sequence of deadlines", "why_tests_cant": "All timeout schedules.", "anchors": ["noodle/src/query.rs: next_within_deadline", "noodle/src/matcher.rs: next_single_word"]}
{"id": "C22", "title": "Completion", "statement": "Every run finishes: after finitely many calls the evaluator reports Complete, and then forever stays complete, reporting no more matches (the iterator is fused).", "quantifier": "every query and word list", "why_tests_cant": "Termination.", "anchors": ["noodle/src/query.rs: next_within_deadline, Iterator for QueryEvaluator"]}
{"id": "C23", "title": "Phrase soundness", "statement": "Every reported phrase consists of words of the word list, and matches every expression of the query.", "quantifier": "every query and word list", "why_tests_cant": "All phrases; the search runs on reduced automata and filtered lists.", "anchors": ["noodle/src/query.rs: next_within_deadline (Phrase phase)"]}
{"id": "C24", "title": "No duplicate phrases", "statement": "No phrase (sequence of list positions) is reported twice.", "quantifier": "every query and word list", "why_tests_cant": "All phases of the search revisit the same prefixes.", "anchors": ["noodle/src/query.rs: Phrase phase, search_queue"]}
{"id": "C25", "title": "Phrase completeness", "statement": "A run that completes without hitting its limit reports every phrase of at most max-words words that matches every expression.", "quantifier": "every query, word list, depth limit", "why_tests_cant": "Pruning must be safe for all inputs.", "anchors": ["noodle/src/query.rs: Phrase phase", "noodle/src/matcher.rs: optimize_for_wordlist, filter_search_phases"]}
{"id": "C26", "title": "Phrase length limit", "statement": "No reported phrase is longer than the depth limit; with limit 1 or 0 only single words are reported.", "quantifier": "every query, word list, limit", "why_tests_cant": "All runs.", "anchors": ["noodle/src/query.rs: search_depth_limit"]}
{"id": "C27", "title": "Automaton reduction for a word list is transparent", "statement": "Reducing the automaton to the states useful for the remaining words changes neither the verdict on any phrase of remaining words within the depth limit nor drops a word usable in a match.", "quantifier": "every automaton, word list, search queue", "why_tests_cant": "State merging correctness over all tables.", "anchors": ["noodle/src/matcher.rs: optimize_for_wordlist"]}
{"id": "C28", "title": "Search phase filtering is safe", "statement": "A (length, tranche) search phase is dropped only if no phrase of that length over the remaining words can match.", "quantifier": "every automaton, word list, queue", "why_tests_cant": "All phrases.", "anchors": ["noodle/src/matcher.rs: filter_search_phases"]}
{"id": "C29", "title": "Dead words are useless", "statement": "A word dropped while filling the tables (or put in the dead class) cannot occur in any phrase matched by that expression. Conversely, for an expression without fuzz, a word kept by an optimisation does occur in a matching phrase of the words that were still there.", "quantifier": "every expression, every word, every phrase", "why_tests_cant": "All phrases containing the word.", "anchors": ["noodle/src/matcher.rs: next_single_word (partial_len), WordClass 0"]}
{"id": "C30", "title": "A phrase matches like its concatenation", "statement": "Stepping through the words of a phrase one at a time gives the same verdict as matching the concatenated symbols of all words.", "quantifier": "every expression, fuzz, phrase", "why_tests_cant": "All splits.", "anchors": ["noodle/src/matcher.rs: step, has_success_state"]}
{"id": "C31", "title": "Lone anagram is exact", "statement": "The query <bank> (and the super/sub/transadd/transdelete forms) over a bank of letters matches exactly the words whose letters are a permutation (super-multiset, sub-multiset, permutation plus n letters, minus n letters) of the bank; also between parts of a fixed length, as in <pasta-1>led.", "quantifier": "every bank of letters whose expressions fit the construction capacity of 16384 states, every kind, every word", "why_tests_cant": "All banks and all words.", "anchors": ["noodle/src/parser.rs: expand_expressions, ast_for_anagram"]}
{"id": "C32", "title": "Anagrams never lose matches", "statement": "Replacing anagram blocks inside a larger expression by the generated conjunction never loses a true match.", "quantifier": "every expression (blocks inside repetitions are not rewritten), where a bank of <..+> or <..+n> holds letters only", "why_tests_cant": "All contexts.", "anchors": ["noodle/src/parser.rs: expand_expressions"]}
{"id": "C33", "title": "Option detection", "statement": "Word boundaries (punctuation) are significant exactly when the expression contains '_' (an apostrophe) somewhere in a class or anagram, or the option was given.", "quantifier": "every expression tree", "why_tests_cant": "All trees.", "anchors": ["noodle/src/parser.rs: detect_options, parse_options"]}
{"id": "C34", "title": "Query lines", "statement": "A query is processed line by line (newline or ;): a later pragma overrides an earlier one, macros apply to later lines only, everything after #wordlist is taken as the word list, and a syntax error is reported with the line number.", "quantifier": "every query text", "why_tests_cant": "All texts.", "anchors": ["noodle/src/parser.rs: QueryAst::new_from_str"]}
{"id": "C35", "title": "Enumerations", "statement": "The expression '2 5' matches exactly phrases whose words have 2 and 5 letters.", "quantifier": "every list of numbers, every phrase", "why_tests_cant": "All numbers.", "anchors": ["noodle/src/parser.rs: parse_term (Rule::number)", "noodle/src/expression.rs: build_states"]}
{"id": "C36", "title": "Display round trip", "statement": "Printing a parsed expression and parsing it again yields the same meaning.", "quantifier": "every syntax tree from the parser", "why_tests_cant": "All trees.", "anchors": ["noodle/src/parser.rs: Display for Ast"]}
{"id": "C37", "title": "Subset, superset, substring", "statement": "(t1..tn:-) matches the subsequences, (t1..tn:+) the supersequences and (t1..tn:^) the contiguous fragments of t1..tn.", "quantifier": "every list of classes, every word", "why_tests_cant": "All lists.", "anchors": ["noodle/src/parser.rs: parse_term", "noodle/src/expression.rs: build_states (Substring)"]}
{"id": "C38", "title": "Active-query gauge", "statement": "At any time the number of active queries reported by /metrics is the number of requests that have begun and have not come to their regular end; it is never negative, and it is zero when all requests have ended regularly. (It does not return to zero after a web socket query with a syntax error, a failed send or a panic: these never leave the count.)", "quantifier": "every interleaving of sessions, including failing ones", "why_tests_cant": "All interleavings and failure points.", "anchors": ["noodle-webapp/src/main.rs: ACTIVE_QUERIES, run_websocket, run_query_sync"]}
{"id": "C39", "title": "Plain HTTP output", "statement": "The body returned for a query over HTTP lists the matches in the order found, one per line (plain text, or JSON that can be read back), followed by a timeout line iff the deadline passed, and nothing else; a syntax error returns the error text; every query that compiles is answered.", "quantifier": "every query, word list, deadline", "why_tests_cant": "All runs.", "anchors": ["noodle-webapp/src/main.rs: run_query_sync"]}
{"id": "C40", "title": "Dictionary fallback", "statement": "A query naming an unknown dictionary is evaluated on the dictionary 'default'; a word list in the query overrides both; the dictionary of a name is the first regular file with that name before its first dot. (Without a 'default' dictionary the lookup fails even for a query with its own word list.)", "quantifier": "every name, every set of dictionaries", "why_tests_cant": "All names.", "anchors": ["noodle-webapp/src/main.rs: WORDLISTS, words", "noodle/src/query.rs: QueryEvaluator::from_ast"]}
{"id": "C41", "title": "Optimisation loops terminate", "statement": "Every fixpoint loop of the compiler and of the query planner stops.", "quantifier": "every automaton, query and word list", "why_tests_cant": "Termination.", "anchors": ["noodle/src/expression.rs: optimize_states", "noodle/src/query.rs: optimisation loop"]}
{"id": "C42", "title": "Evaluation does not panic", "statement": "Evaluating a query with at least one compiled expression over a tranche-sorted word list triggers none of the evaluator's assertions and no out-of-range index.", "quantifier": "every query, sorted word list, deadline sequence", "why_tests_cant": "All reachable states.", "anchors": ["noodle/src/query.rs: next_within_deadline", "noodle/src/matcher.rs: optimize_for_wordlist, step_by_word_index"]}
{"id": "C43", "title": "What is written is what is meant", "statement": "The text of an expression in the documented syntax (letters, classes, ranges, numbers, groups, alternatives, repetitions, subset/superset/substring groups, anagram blocks, flags, blanks) is accepted, and the syntax tree obtained denotes the set of letter sequences that the documentation assigns to the text.", "quantifier": "every expression of the documented syntax, of any size", "why_tests_cant": "Infinitely many texts; precedence and backtracking depend on the whole text.", "anchors": ["noodle/src/parser.rs: ExpressionAst::new_from_str, parse_term, parse_options", "noodle/src/noodle_grammar.pest"]}
{"id": "C44", "title": "Command line program", "statement": "The command line program prints all matches of the query, in the order found, one per line with blanks between the words, and nothing else, and stops; the limits are those of the command line (#words and #limit in the query have no effect); a syntax error makes it fail.", "quantifier": "every query, word list file, count and phrase length", "why_tests_cant": "Unbounded inputs; termination for every query.", "anchors": ["noodle-cli/src/main.rs: main", "noodle/src/query.rs: set_results_limit, set_search_depth_limit, Iterator::next"]}
{"id": "C45", "title": "Web socket results", "statement": "Over a web socket the match messages are what an evaluation of the query on the chosen words reports, in order and without gaps, whatever the timing and whenever the client goes away; undisturbed, the handler ends exactly when the evaluation is complete, after a bounded number of rounds in time.", "quantifier": "every query, schedule of rounds, failed send, moment of disconnection", "why_tests_cant": "Schedules and disconnections are unbounded.", "anchors": ["noodle-webapp/src/main.rs: run_websocket"]}
{"id": "C46", "title": "From the text of a query to the words found", "statement": "For a query text whose lines are expressions of the documented syntax, the words reported (phrases of one word) are exactly the words of the list that every line describes, where a line describes a word if the word, read with the characters insignificant to the line removed and changed by at most as many edits as the line's last !n flag allows (none without one), is a sequence the line denotes; the command line program prints exactly these words.", "quantifier": "every query text in the fragment, every word list", "why_tests_cant": "Infinitely many queries and word lists; parsing, macro expansion, anagram rewriting, compilation, optimisation and search all take part.", "anchors": ["noodle/src/parser.rs: parse_query", "noodle/src/expression.rs: Expression::from_ast", "noodle/src/query.rs: QueryEvaluator", "noodle-cli/src/main.rs: main"]}
{"id": "C47", "title": "Order of the results", "statement": "Single words are reported first, in word-list order. Among phrases, one that is no longer and whose rarest word is no rarer (by tranche) than another's comes before it; phrases equally long and equally rare come in the lexicographic order of the positions of their words. In particular, for a word list of a single tranche results come by length.", "quantifier": "every query, word list, limit (below 2^32 words), result limit and schedule of deadlines", "why_tests_cant": "Orders of all word lists and automata; the queue of search phases is reordered by saturating estimates and shortened on the way.", "anchors": ["noodle/src/query.rs: next_within_deadline", "noodle/src/query.rs: SearchPhase"]}
{"id": "C48", "title": "Expressions are a conjunction", "statement": "The words found do not depend on the order or repetition of the expressions of a query; a further expression only removes words and phrases (up to the one phrase of C25, and as far as the planning of C23 did not give up) and leaves the order of the remaining words alone.", "quantifier": "every pair of queries with the same (more) expressions, every word list, every schedule", "why_tests_cant": "Quantifies over pairs of queries and all word lists; expressions are evaluated on word lists already filtered by their neighbours.", "anchors": ["noodle/src/query.rs: QueryEvaluator::new", "noodle/src/query.rs: next_within_deadline"]}
{"id": "C49", "title": "Words are judged one by one", "statement": "Whether a word is found does not depend on the other words of the list; a longer word list only adds words and phrases (up to the one phrase of C25, and as far as the planning of C23 did not give up) and leaves the order of the words found alone.", "quantifier": "every query and every pair of word lists", "why_tests_cant": "Quantifies over pairs of word lists of any size; caches, word classes and the reduction of the automaton depend on the whole list.", "anchors": ["noodle/src/query.rs: next_within_deadline", "noodle/src/matcher.rs: WordMatcher"]}
{"id": "C50", "title": "Parsing never panics", "statement": "For every text whatever, parsing an expression or a query returns a result or a syntax error with a line number. The only exception is a numeral of 2^64 or more in a line of an expression (after macros have been replaced), which panics.", "quantifier": "every text", "why_tests_cant": "Quantifies over all strings, well-formed or not; the code after the grammar unwraps, indexes and asserts on the shape of the parse tree.", "anchors": ["noodle/src/parser.rs: QueryAst::new_from_str", "noodle/src/parser.rs: ExpressionAst::new_from_str", "noodle/src/parser.rs: parse_term", "noodle/src/parser.rs: parse_expression", "noodle/src/noodle_grammar.pest"]}
{"id": "C51", "title": "Progress reports are right", "statement": "While single words are searched, progress() tells how many entries of the list have been judged (the matches reported so far are exactly those among them), as a count and a percentage that never decrease and never exceed 100; while phrases are searched it names a phrase length between two and the limit and a percentage of at most 100; after Complete it is \"Done\". It panics only for an empty word list, or while phrases are searched if every phrase of more than one word that the query can report repeats one and the same word.", "quantifier": "every query, word list, limits, and every moment of every sequence of calls and deadlines", "why_tests_cant": "Quantifies over all histories of calls; the estimate is recomputed from a queue that shrinks in an order that depends on the automata.", "anchors": ["noodle/src/query.rs: QueryEvaluator::progress", "noodle/src/query.rs: search_estimate", "noodle/src/matcher.rs: WordMatcher::progress"]}
{"id": "C52", "title": "The final text is true", "statement": "The text of the first Complete says why the search is over, and is true: the limit n was reached and n matches have been reported; or only single words were asked for and all of them, with their number, have been reported; or there are no answers of more than one word; or the number of all answers up to the given length, at most one of which has not been reported. Every further Complete says that it was called repeatedly.", "quantifier": "every query, word list, limits, and every sequence of calls and deadlines that completes", "why_tests_cant": "The claim \"no phrases possible\" quantifies over all phrases; the counts over all histories.", "anchors": ["noodle/src/query.rs: next_within_deadline", "noodle/src/query.rs: QueryResponse::Complete"]}
{"id": "C53", "title": "Metrics and counters", "statement": "At every moment, however requests interleave, the gauge of active queries is the number of requests that have begun and not announced their end, and the counter of all queries is the number of requests received; a page of metrics never shows more active queries than queries. The metrics page, in the Prometheus text format, and the script wordlists.js list every dictionary once with the number of its words, in whatever order the map is walked, and nothing else (as long as file names need no escapes). A web socket is first told the number of other requests in progress at the moment it begins.", "quantifier": "every interleaving of any number of requests, every moment, every directory of dictionaries and every order of the map", "why_tests_cant": "Quantifies over all interleavings of unboundedly many concurrent handlers and all hash map orders.", "anchors": ["noodle-webapp/src/main.rs: get_metrics", "noodle-webapp/src/main.rs: get_wordlist_js", "noodle-webapp/src/main.rs: run_query_sync", "noodle-webapp/src/main.rs: run_websocket"]}
{"id": "C54", "title": "Served word lists can be loaded again", "statement": "The word list served under a name is that of the dictionary with the name, or of the default dictionary if there is none; it fails only if neither exists. Loading the served text as a word list file gives the same words with the same symbols, each as often as before (scores and tranches are lost), provided no word ends with a carriage return.", "quantifier": "every directory of word list files, of any content", "why_tests_cant": "Quantifies over all file contents and names.", "anchors": ["noodle-webapp/src/main.rs: get_wordlist", "noodle-webapp/src/main.rs: words", "noodle/src/words.rs: load_wordlist"]}
{"id": "C55", "title": "The program stays inside its allocations", "statement": "Compiling and evaluating a query reads and writes bitset memory without bounds checks (vectors of 32-bit blocks, and rows and slabs of two- and three-dimensional tables in one allocation, updated in place). During evaluation no such access is ever outside of its allocation, even in runs that end in a panic, and what the caller sees is exactly what the same evaluation over mathematical sets would give; the same holds of compilation whenever it succeeds (see C09 for when it does not).", "quantifier": "every list of expressions as the compiler produces them, of any number of states; every word list (sorted or not), phrase length limit and result limit; every history of calls with any deadlines", "why_tests_cant": "Quantifies over all automaton sizes, word lists and call histories; an out-of-bounds access of `get_unchecked` need not be visible in a test.", "anchors": ["noodle/src/bitset.rs: BitSet, BitSetRef, slice, slice2d, get_unchecked", "noodle/src/expression.rs: fill_transition_table, char_transitions", "noodle/src/matcher.rs: WordMatcher, PhraseMatcher", "noodle/src/query.rs: next_within_deadline"]}
{"id": "C56", "title": "The case of a query does not matter", "statement": "Two expressions that differ only in the case of (ASCII) letters are read as the same expression, or are both rejected, provided no range mixes cases as in [A-c] (where it does matter). Two such queries are the same query, with the same answers from the server and the command line program, as long as they define no macro and name no dictionary and no word list of their own; directives are understood in any case.", "quantifier": "every pair of texts of any length that differ in case only; every dictionary, deadline, result limit and phrase length", "why_tests_cant": "Quantifies over all pairs of texts, including those with syntax errors.", "anchors": ["noodle/src/noodle_grammar.pest", "noodle/src/parser.rs: parse_term, ExpressionAst::new_from_str, QueryAst::new_from_str", "noodle/src/words.rs: Char::from, CharBitset::from_range"]}
{"id": "C57", "title": "Using the evaluator object", "statement": "The limits of an evaluator may be changed between calls as long as no call has responded Logs or Complete; afterwards the setters panic. What counts is the limits in force: after any mixture of calls and changes, further calls respond exactly as those of an evaluator that had the present limits from the start, except that they all say Complete if the results limit is now not above the number of matches already reported. (If the phrase length is now at least two, it must have been so at every call: raising it to two or more between calls loses phrases and can even report phrases that do not match. Lowering it to one is always safe.) Nothing crashes. Iterating yields the responses up to and including Complete and then ends. expressions() gives the expressions of the query, in order, until Complete, and nothing afterwards.", "quantifier": "every history of calls (with any deadlines) and of changes of the two limits, every list of well-formed expressions and every word list", "why_tests_cant": "Quantifies over all interleavings of calls, deadlines and changes of settings.", "anchors": ["noodle/src/query.rs: set_search_depth_limit, set_results_limit, expressions, next_within_deadline, Iterator for QueryEvaluator"]}
{"id": "C58", "title": "What the web server is asked", "statement": "A GET of /query/<s> runs the query that <s> stands for after percent-decoding (escapes in any case, any characters escaped or not) as UTF-8 and answers in plain text; a POST to /query of at most 65536 bytes runs the query in its body and answers in JSON; so both run the same query. No other request runs a query. Further path segments are ignored (an unescaped slash cuts the query off); a GET that is not UTF-8 runs a text with U+FFFD and never panics; a POST that is not UTF-8 panics; one that is too long or does not tell its length is refused. The other pages are found by their first segment; the name of a word list is taken from the path undecoded, so that a list whose name has a blank cannot be asked for.", "quantifier": "all requests, all texts, all percent-encodings of their UTF-8 bytes, all sequences of bytes as bodies", "why_tests_cant": "infinitely many texts and encodings of each; validity of UTF-8 depends on combinations of up to four bytes", "anchors": ["noodle-webapp/src/main.rs: main, get_query, post_query, routes", "noodle-webapp/src/main.rs: run_query_sync"]}
{"id": "C59", "title": "Choosing a dictionary", "statement": "A query line #dict with a name of letters, full stops, apostrophes and underscores asks for the dictionary of that name; hyphens and blanks in the name are dropped (so that a list with a hyphen in its name, such as wiki-titles, cannot be asked for), and any other character, in particular a digit (npl-allwords2), makes the line a syntax error, whatever follows. Whatever the text of a query is, the name it asks for has only those characters; so lists with other names in the directory change no answer. A line that defines nothing and has no comment is a syntax error as soon as it has a character that no construct uses, such as the slash of /* */.", "quantifier": "every text of a query, every line that starts with #dict, every directory of word lists", "why_tests_cant": "ranges over all texts and all directories", "anchors": ["noodle/src/noodle_grammar.pest: pragma_dict, character", "noodle/src/parser.rs: QueryAst::new_from_str", "noodle-webapp/src/main.rs: main, run_query_sync, run_websocket"]}
{"id": "C60", "title": "What the web page asks", "statement": "The text that the web page sends for a chosen word list, phrase length, number of results and a typed query is, for every typed query that can be read, the same query with the chosen values where the query does not give its own; with a custom word list the words are the lines of that list (provided the query has no list itself and no macro whose name occurs in '#wordlist': a macro called w makes every custom list a syntax error). A syntax error in the typed query is reported with a line number that is three too large.", "quantifier": "every typed query, every custom word list, every name of a word list that can be asked for, all numbers below 2^64", "why_tests_cant": "ranges over all texts typed into the page", "anchors": ["noodle-webapp/static/index.html: submit", "noodle/src/parser.rs: QueryAst::new_from_str"]}
{"id": "C61", "title": "Searching among earlier results", "statement": "On the web page, copying the shown results (those that the filter keeps, at least one) to the custom word list and searching again, with a query that has no word list of its own and no macro whose name occurs in #wordlist, finds as entries of the list, when the search completes without reaching its limit, exactly the earlier results (phrases too, their words joined by blanks) that were copied and match the new query; with the same query, all that were copied are found again. If nothing is copied, a dictionary is searched instead. (The words must not begin or end with white space or contain line ends or semicolons: a word with a semicolon is copied as two.)", "quantifier": "every list of shown results, every filter, every query text, every later session", "why_tests_cant": "ranges over all results, filters and queries; normalisation, parsing and search take part", "anchors": ["noodle-webapp/static/index.html: submit, #copy-wordlist", "noodle/src/parser.rs: QueryAst::new_from_str", "noodle/src/words.rs: Word::new", "noodle/src/query.rs: QueryEvaluator"]}
{"id": "C62", "title": "What the log says is true", "statement": "A session sends at most one log, when it turns to phrases. It says how many optimisation passes were made (between 1 and 101, at most the number of automaton states plus the phrase length plus 3; 101 if it says that it gave up), how many words were candidates and how many are left, and the number of states of each expression before and after. The candidates contain every word of the list that occurs in a phrase of listed words matching the whole query; the words left contain every word of every answer of two or more words and of every such phrase reported, they are not none, and, unless it gave up, each of them occurs for every expression without fuzz in a phrase of such words that the expression matches. No expression gains states or loses all.", "quantifier": "every non-empty list of well-formed expressions, every word list in tranche order, all limits, all histories of calls with all deadlines", "why_tests_cant": "the numbers summarise a loop of up to 101 passes over all expressions and words; that no word of an answer is dropped ranges over all phrases", "anchors": ["noodle/src/query.rs: QueryEvaluator::next_within_deadline (361-376, 429-439, 489)", "noodle/src/matcher.rs: PhraseMatcher::optimize_for_wordlist"]}
{"id": "C63", "title": "Reading word list files", "statement": "Loading a file takes exactly the lines that are valid UTF-8, in order, each ended by LF or CR LF or by the end of the file; every other line is left out and affects no other line, and so is what had been read of a line when a read fails. Whatever the bytes, the list is one that some text would give, so everything that holds of lists loaded from texts holds; for a file that is valid UTF-8 it is the list of its text, and what the web server serves loads again as the same words. A file is decompressed exactly if its name ends with .zst (and is more than that). Loading ends within one step per byte if the source comes to its end, and never if the source only fails from some point on (a directory, a damaged archive).", "quantifier": "all sequences of bytes and failing reads, ended or stuck, all file names", "why_tests_cant": "ranges over all byte sequences, including invalid UTF-8, and over all points at which reads fail", "anchors": ["noodle/src/words.rs: load_wordlist (206-233)"]}
{"id": "C64", "title": "The address of the page holds the query", "statement": "Submitting a query puts it in the address of the page, and loading the page with this address puts the same query back into the field, whatever characters it contains; the address then has only letters, digits and marks. For any link, whoever wrote it: if what follows the # stands for a text (percent-escapes of the UTF-8 bytes of characters, where escapes of ; / ? : @ & = + $ , # stay as they are), the field gets this text; if it does not, the script of the page fails and no button works.", "quantifier": "all texts of the query field, all links", "why_tests_cant": "ranges over all Unicode texts and over all sequences of escapes, valid or not", "anchors": ["noodle-webapp/static/index.html: 408, 447"]}
{"id": "C65", "title": "What the page shows", "statement": "After a query has been submitted on the page, and until the next one is, the page holds exactly the matches and logs that came in on the connection of this query while it was open: nothing of earlier queries, nothing twice, nothing lost, whatever the user does with sorting, filter and stop button and in whatever order connections open, fail and close. Shown are those the filter lets through; they are in the order of their coming, or, when the user asks for it, ranked by score with ties in the order of their coming; the copy button copies what is shown. On each connection the text of its query is sent, once, when it opens. The status is that of this query, unless a connection fails or the query is stopped (a failing connection of an earlier query does overwrite it). With the server: the page shows the matches the evaluator reports for this query, in order, and logs what the evaluator notes, up to what has come in.", "quantifier": "all histories of user actions and connection events, all messages, all regular expressions and scores", "why_tests_cant": "the interleavings of two or more connections with user actions are unbounded", "anchors": ["noodle-webapp/static/index.html: 409-585", "noodle-webapp/src/main.rs: Response"]}
{"id": "C66", "title": "Choosing a dictionary on the page", "statement": "The menu of the page has one option for each dictionary the server has loaded, with its number of words, the longest first, and no other; at first `default` is chosen, if it exists, and otherwise a dictionary with the most words. If a dictionary is chosen whose name has only letters, full stops, apostrophes and underscores, then for every query that names no other dictionary and no word list the words searched are those of the chosen one. If its name has hyphens (and there is none with the name without them), those of `default` are searched instead; with a digit in the name every query is answered with a syntax error.", "quantifier": "all directories of word lists, all orders in which the server lists them, all inputs", "why_tests_cant": "ranges over all directories, list sizes, names and query texts", "anchors": ["noodle-webapp/static/index.html: 169-172, 449-450, 606-620", "noodle-webapp/src/main.rs: get_wordlist_js, load_wordlists"]}
{"id": "C67", "title": "What is logged of an expression", "statement": "For each expression of a query the web page logs a text. It quotes the expression, and for each state of the compiled automaton it has a line that says, truly and completely, which symbols lead to which state and which other states are reached without a symbol. Two expressions of which the same text is logged match the same phrases, with the same options.", "quantifier": "all expressions that compile, all phrases", "why_tests_cant": "ranges over all expressions and pairs of expressions", "anchors": ["noodle/src/expression.rs: impl fmt::Debug for Expression", "noodle/src/words.rs: impl fmt::Debug for CharBitset, impl fmt::Debug for Char", "noodle/src/bitset.rs: impl fmt::Display for BitSet<()>", "noodle-webapp/src/main.rs: run_websocket"]}
{"id": "C68", "title": "What is sent over a web socket arrives as it is", "statement": "Every message of the web socket is a JSON text with exactly one value, whatever characters the query, the words and the logs contain, and the page takes from it exactly what the server put into it: the status text, the log text, or the text and score of each word of the match; it ignores none. The messages are, in order: the number of other queries, the time for parsing, the logs of the expressions, then for each response of the evaluator the message that says it (a match, the notes, the progress at that moment, the final text), and if the time is over a message about that; of a query with a syntax error the client gets this error and nothing else. The log messages of a query are, in order, what is logged of each expression and then what the evaluation notes, and belong to the same evaluation as the matches; a client that goes away has got the first of them.", "quantifier": "all messages, all texts, queries, word lists, timings, and points at which the client goes away", "why_tests_cant": "texts of queries and words are unbounded, and so are the ways in which a text might be read", "anchors": ["noodle-webapp/src/main.rs: Response, run_websocket", "noodle-webapp/static/index.html: 469-492"]}
{"id": "C69", "title": "The layout of a query does not matter; the examples of the page work", "statement": "Newlines and semicolons between the lines of a query may be exchanged, and blanks at the beginning of lines added or removed, without effect: both texts are accepted as the same expressions and options and get the same answers (over the web socket, as a plain request, from the command line), or both are rejected because of the same line. A click on an example of the page therefore asks for what the link shows, with at most ten words in a phrase, and the address of the link, opened elsewhere, puts the same query into the field. Every example of the page is a well-formed query; with every dictionary it is compiled as it is meant, never panics, and a complete run reports exactly the words that its expressions stand for.", "quantifier": "all texts and layouts of them, all dictionaries, all timings; all examples of the page", "why_tests_cant": "texts, layouts and dictionaries are unbounded; macros defined on earlier lines change what later lines contain", "anchors": ["noodle/src/parser.rs: QueryAst::new_from_str", "noodle/src/noodle_grammar.pest: WHITESPACE, query", "noodle-webapp/static/index.html: 223-235, 559-567"]}
{"id": "C70", "title": "The benchmark program", "statement": "The benchmark program, for every dictionary file, ends without a panic. For its queries, in order, it prints the number of matches of the query with the default limits (at most ten words, at most 300 matches), which is the number of all matches of the query in the dictionary or 300 if there are more; it stops with an error message exactly at the first number outside of the expected range, if there is one, and ends with a table of the queries before that. Asking the evaluator, as an iterator, for the first match and counting the rest gives the same number as counting all, for every query. The ranges that reach beyond 300 can be met only by exactly 300.", "quantifier": "all dictionary files; for the count: all accepted queries, options and word lists", "why_tests_cant": "the program itself is a test on one dictionary; that it ends, does not panic and counts correctly has to hold for all dictionaries", "anchors": ["noodle/src/main.rs: main, expected_count", "noodle/src/query.rs: Iterator for QueryEvaluator, from_ast"]}
{"id": "C71", "title": "Prepared word lists hold what was counted and load as they are", "statement": "The tool that prepares word lists, from the counted words of three files, writes a list with exactly the canonical forms (small letters without accents, ligatures and signs at the ends; none for words with digits or foreign letters) that have at least the threshold of points, each once, those with most points first, each as the last word with this form. The points of a form are the sum of what its rows are worth, with the documented bonuses and penalties, titles counted three times. The lists that it writes for the first two files hold in the same way the words of these files, with the points earned up to then. If it does not fail, the list has at least two words, and the program that loads word lists reads from it each of these words that it keeps, once, and nothing else, with the score that is written, from 0 to a million, where more points never give a larger score.", "quantifier": "all contents of the three files, all thresholds, all behaviours of the Unicode tables and of floating point arithmetic within the stated assumptions", "why_tests_cant": "the files are unbounded, and forms, points and order depend on all rows", "anchors": ["listgen/listgen.py: canonicalize, create_wordlist, Wordlist.dump_final", "noodle/src/words.rs: load_wordlist"]}
{"id": "C72", "title": "Counts from many files are merged without loss", "statement": "The tool that prepares word lists merges the counts of words from any number of files of titles and of bodies into two files. Each has exactly one line for every canonical form of a word counted in its rows, with the sum of all counts of words of this form, spelled in both files in the same way: like the form itself, if that was counted (in all files) at least as often as required, compared to the count of the first word of this form (in titles, or else in bodies), and otherwise like this first word. So the counts of a file add up to everything counted, and do not depend on the order in which the files are read. This supposes that no form of a word contains a digit: with a superscript in a word, the counts of two forms are mixed in one line.", "quantifier": "all numbers and contents of files of titles and bodies, all thresholds for the preferred spelling, all Unicode tables that keep plain ASCII", "why_tests_cant": "files are unbounded; the second half of the merge uses counts that the first half has replaced, and both share one table of spellings", "anchors": ["listgen/listgen.py: word_frequency, canonicalize"]}
{"id": "C73", "title": "Links next to a result ask for the result", "statement": "The links that the page shows next to a result (a search for its definition, the encyclopedia, the crossword solver) ask these sites for exactly the text of the result, whatever characters it has, if and only if it has no &, # and + (for the first two) or no ? and # (for the third); otherwise they ask for the text up to the first & or #, with blanks for +, or up to the first ? or #. For a phrase this text is its words with blanks between them, which is also what the copy button takes.", "quantifier": "all results (sequences of words of any length and any characters)", "why_tests_cant": "words have any Unicode characters, and escaping and reading an address interact", "anchors": ["noodle-webapp/static/index.html: ws.onmessage (copy, google, wiki, cxio)"]}
{"id": "C74", "title": "What is extracted from articles is what is counted", "statement": "The tool that prepares word lists counts, in every article with a title and a body, each part of the title between white space, and each part of the body up to the second ' Retrieved ' in its first line: as the text from its first to its last letter, digit or underscore, if between them are only such characters and / - , . & ', and there is a letter of the English alphabet, no underscore, and nothing that looks like the name of a web site; otherwise as the empty word. (So a word with a dash is never counted, although the program means to replace the dash.) The file written for titles, and that for bodies, has one line for each word counted, with the number of times. However articles are distributed over files, the merging program then reads these files without an exception, and writes two files with exactly one line for each canonical form of a word counted, with the number of times that words of this form were counted, and a word that was counted, if no form has a digit.", "quantifier": "all articles (any text in title and body, or none), all distributions over files, all Unicode tables within the stated assumptions, all thresholds for the preferred spelling", "why_tests_cant": "regular expressions with backtracking over any text; the formats of one program and the reader of the next must agree for every word", "anchors": ["listgen/listgen.py: strip_body, strip_word, extract_word_frequency, word_frequency"]}
{"id": "C75", "title": "The word list comes from the words of the articles", "statement": "When the tool that prepares word lists (run on the counts extracted from any articles, however they are distributed over files, and any Wiktionary file) ends without an exception, then the word list it writes is the one determined by the rows of the Wiktionary file, by a row for each canonical form in titles with the number of times words of this form were counted in titles (worth three times as much), and by such a row for each form in bodies, each spelled like a word that was counted, if no form has a digit: every form with enough points, once, in order of points. The main program then loads from this list every word it keeps, once, with the score written, from 0 to a million, and more points never give a larger score.", "quantifier": "all articles, all distributions over files, all Wiktionary files, all positive thresholds, all Unicode tables and arithmetic within the stated assumptions", "why_tests_cant": "it composes three programs and two file formats, for every input", "anchors": ["listgen/listgen.py: main, extract_word_frequency, word_frequency, create_wordlist", "src/words.rs: load_wordlist"]}
{"id": "C76", "title": "When the preparation of word lists succeeds", "statement": "Making the word list, with a positive threshold, from three files that can be read, in which no word has a tab and no row takes points away, ends without an exception exactly if each of the three lists it writes has at least two words: the forms in the Wiktionary file, the forms in the file of titles, and the forms with enough points. For files made from articles, in whatever way these are distributed over files, this needs only a readable Wiktionary file with positive counts (and no form with a digit).", "quantifier": "all three files, or all articles and their distributions, all positive thresholds, all Unicode tables and arithmetic within the stated assumptions", "why_tests_cant": "absence of exceptions for every input, with the exact condition", "anchors": ["listgen/listgen.py: main, create_wordlist, Wordlist.dump_final, add_word"]}
{"id": "C77", "title": "The list of Wiktionary is what the next program reads", "statement": "From the entries of a dump of Wiktionary, the tool makes a file with exactly one line for each canonical form of a word of an English entry (worth 1000), or of a form listed there that is its own canonical form and has no blank (worth 50), cleaned, except those that are not like a word: the most that a word of this form is worth, the form, and the first such word; those that are worth most first. The program that makes the word list reads from this file exactly these words with these numbers, so that the whole preparation, from entries and articles, ends without an exception exactly if its three lists have two words each.", "quantifier": "all entries (any words and forms without line breaks), all articles and their distributions over files, all positive thresholds, all Unicode tables within the stated assumptions", "why_tests_cant": "a format written by one program and read by another, for all words; a maximum and a first occurrence over any history of additions", "anchors": ["listgen/listgen.py: wiktionary_wordlist, Wordlist.add_word, Wordlist.dump, create_wordlist, main"]}
{"id": "C78", "title": "The bars below the results", "statement": "On the page, each result has a bar of between 2 and 100 percent of its width (up to a rounding error of the 2). Of two results with as many words, the one whose scores add up to more has no longer bar; when the results are shown by score, the bars get no longer down the page, whatever has been done on the page before. A single word with score s has a bar of (3300000 - s)/32000 percent, kept between 2 and 100, up to 10^-9; the score of a phrase is the sum of the scores of its words over the root of their number, up to rounding. (The comment in the page says that 300000 gives a full bar and 3500000 nothing; but it is 100000 and less, and 3236000 and more.)", "quantifier": "all phrases, scores and histories of the page; all floating point arithmetic with the properties of IEEE 754 that are listed", "why_tests_cant": "rounding and scores range over 2^32 values for each word, and the order on the page over all histories", "anchors": ["noodle-webapp/static/index.html: 482-507 (netScore, fractionScore, score-bar)"]}
