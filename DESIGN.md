# Formal model of zbanks/noodle in Lean 4

## Trusted base

* Lean 4.33.0's kernel. Axioms used by any theorem: at most `propext`, `Classical.choice`, `Quot.sound`
  (audited by vcheck). No axioms of our own, no compiled evaluation.
* The reading of the Rust source: the code is not run here; each model definition cites the file and
  lines it models, and says where it simplifies.
* Modelled as parameters (assumed behaviour stated where used): Unicode tables (nfkd, case mapping,
  combining marks), the clock (`Instant::now`, assumed monotone), the file system, network sends.
* pest: the parser generator is not part of the repository. `Model/Peg.lean` is our reading of its semantics (ordered
  choice, greedy repetition, implicit whitespace between the items of `~` and of repetitions of non-atomic rules,
  silent and atomic rules); `Model/Grammar.lean` is the grammar file rule by rule.
* `sort`, `sort_unstable_by`, `dedup`, `HashMap`, `Vec`, `String`: the documented behaviour of the standard library.
  serde's derived (de)serialisation of the web messages: `Model/Web.lean` builds the JSON texts from the field lists.

## Conventions

* `usize`/`u64` are `Nat` unless the property is about overflow. `u32` blocks and `CharBitset` are `BitVec 32`.
* A panic, an out-of-range unchecked access or `unreachable!()` is an explicit `Crash` value.
* 1-D state sets at automaton level are `Nat` bitmasks; the block-level representation is modelled
  separately and proved to refine them (C04, C05). `Model/Blocks.lean` and `Model/BlockCompile.lean` are the
  evaluator and the compiler once more over that representation, with every unchecked access explicit; C55 proves that
  they do the same, so nothing about compiled expressions and sessions rests on the masks.
* `loop`/`while` become structural recursion, with fuel computed from the state plus a theorem that
  the fuel never runs out.
* Clock: a call with a deadline takes `some n`, "the first n clock reads are before the deadline, all later
  ones after it" (exactly the behaviours of a monotone clock); `none` is no deadline.

## Layout (lean/Verif)

* `Model/*` the model, function by function. `Spec/*` the independent specifications.
* `Proofs/*` lemmas. `Props/*` the property theorems and their non-vacuity examples.

## Plan per property

| id | model | proof |
|----|-------|-------|
| C01 | `Char::from`, `Word::new` with Unicode maps as parameters | cases, induction on the text |
| C02 | `CharBitset` as BitVec 32, `parse_term` class branch | bitwise lemmas |
| C03 | `load_wordlist` as a fold over lines, then sort | induction on lines |
| C04,C05 | blocks as `List (BitVec 32)` | refinement to `Nat -> Bool`, arithmetic |
| C06,C41 | `epsilon_transitive_closure` with fuel | fixpoint measure |
| C07,C10,C11 | `build_states`, `optimize_states` | block-by-block path simulation for the unoptimised automaton; the optimisation on bare relations (`Proofs/Graph` to `Proofs/Shape`): a shape (`Trim`) under which merging and collapsing are bisimulations, and every expression of the fragment has it; negative witnesses where the code is wrong |
| C08,C09 | `Crash` results of the same functions | the same; witnesses of crashes |
| C12–C16 | `fill_transition_table`, `char_transitions` | induction over characters; edit relation; Mathlib `levenshtein` for C14 |
| C17–C19 | `WordMatcher::next_single_word`, Word phase | cache invariant; induction over list |
| C20–C22 | `next_within_deadline` | invariants over calls, termination measure |
| C23–C30 | `optimize_for_wordlist`, `filter_search_phases`, phrase DFS | path semantics of tables, simulation for state merging, DFS enumeration lemma |
| C31,C32 | `expand_expressions`, `ast_for_anagram` | multiset counting |
| C33,C34,C36 | `detect_options`, `QueryAst::new_from_str`, `Display` | structural induction |
| C35,C37 | `parse_term` constructions | language lemmas + C07 |
| C38–C40 | webapp handlers as step machines | invariants over interleavings |
| C42 | the `Crash` results of the evaluator | invariant |
| C43 | grammar and parser against the surface syntax of Spec/Surface | induction on surface terms |
| C44,C45 | the CLI and web socket output as functions of the query | composition with C18–C26 |
| C46 | parser, expansion, compiler, evaluator composed | composition of C33/C34/C43, C07, C19 |
| C47 | the search queue, its sort, and the enumeration of a phase | stability of the sort; lexicographic enumeration; positions (Spec/Order) |
| C48,C49 | the evaluator | from C19, C23, C25 |
| C51,C52 | `progress()` and the texts of `Complete` (Model/Report), floating point as a parameter | the invariant of C18–C26 gives the position in the word list, the queue and the count; induction over the calls |
| C53 | `/metrics` and `/wordlists.js` as texts (the order of the `HashMap` is a parameter), both counters as updates of interleaved requests (Model/Web) | the Prometheus text format and the script are specified by grammars that can be read in one way only; the updates of each request are a projection of any interleaving. The counters are sequentially consistent in the model; the code uses `Relaxed` |
| C54 | `/wordlist/{name}` and `load_wordlist` | composition: the served text has the words as lines, and the characterisation of C03 applies to it |
| C55 | the evaluator over vectors of 32-bit blocks: 1-D sets, rows of 2-D and 3-D tables in one allocation, updated in place; an unchecked access out of range is `Crash.ub` (Model/Blocks); the compiler likewise (Model/BlockCompile) | a simulation relation between blocks and masks through `fill_transition_table`, the word matcher, `optimize_for_wordlist`, `filter_search_phases` and the search loop; it keeps the crash too, and the mask evaluator never has `Crash.ub`; the compiler up to the `Crash.ub` of the mask model, which is raised earlier |
| C56 | the PEG model of the parser (Model/Peg, Grammar), the translation to syntax trees and queries (Model/Parse) | a simulation of two runs of the parser on texts that differ in case, by induction on the fuel; the nodes are equal up to case, and a `letter_range` stands for the same letters (counterexample for mixed ranges) |
| C57 | the setters, the iterator and `expressions()` (Model/Query); histories of uses in Spec/Ops | one call in the single-word phase depends on the limits only through `depth ≤ 1` and `limit reached`; induction over the history; lowering the phrase length to one: the rows of source 0 of the cached tables are right in either mode, so the verdicts on single words are (Proofs/Loose); the matchers keep their expressions through every function of the evaluator (Proofs/Exprs); counterexamples for raising the phrase length from one: phrases lost, and a false one reported |
| C58 | routes, warp's path filters, percent decoding, `from_utf8` and its lossy form (Model/Routes); Lean's own UTF-8 encoder and percent-encoding as a relation in Spec/Http | the decoder inverts the encoder and accepts nothing else (case analysis of the four lengths, arithmetic); decoding = relation by induction; case analysis of the routes in their order |
| C59 | the grammar and the parser (Model/Grammar, Model/Parse), the dictionaries of the web server (Model/Web) | every parse is a derivation of the grammar on the whole line (Proofs/Derive, Proofs/Alphabet), derivations use only the characters of their rules (induction); the other direction is the completeness of the line parser (C34) |
| C60 | the text built by the page (Model/Page, from index.html:449-456) and the parser | simulation: the run over the lines of the input after the three lines of the page is the run over the input alone, with line numbers shifted and options defaulted; the word list by C34 |
| C61 | `match.fullText` and the copy button of the page (Model/Page), then C60, C34, C19 | the text of a phrase normalises to the symbols of its words; C60 gives the list, C19 what is found |
| C62 | the texts of `Logs` (Model/Report: `optimizePasses`, `logLines`, `logTexts`) | the loop's invariant, with the number of states per expression and the measure that bounds the passes; C29's usefulness after a pass that changes nothing |
| C63 | `load_wordlist` from bytes and failing reads to lines (Model/File: `readUntil`, `nextLine`, `readAll`, `openList`) | induction over the source cut at line ends; UTF-8 facts of C58 (a byte below 128 occurs only as its own character) |
| C64 | `encodeURI`, `decodeURI`, `location.hash` and their use by the page (Model/Link) | `decodeURI` decides the relation of Spec/Link (induction over the link); encoded texts contain nothing the address bar changes |
| C65 | the script of the page as a machine: connections, matches, status, sorting, filter (Model/Screen) | invariant of all histories since the last submission (what is held is what was heard on the last connection), and one of all connections; insertion sort is the only ranked permutation; end to end with C68 |
| C66 | the menu of dictionaries (Model/Menu), filled from the script of C53, with the rules of HTML for what is selected | sorting is a permutation; exactly one option is selected after each insertion; the words searched by C60, C40; unusable names by C59 and C34 |
| C67 | the printed form of compiled expressions (Model/DebugText) | a printed class says which symbols it has; the text can be cut into lines and these into their parts in only one way |
| C68 | the texts of the messages, serde's JSON and what the page takes from its value (Model/Wire); the values of JSON texts are those of the standard (Spec/Json) | a JSON text has one value (determinism of the grammar); what serde writes is derivable; the logs of the handler by induction over its loop |
| C69 | the parser and grammar; the query of an example, its address, and the list of examples (Model/Link) | only the beginning of the input depends on how long the input is (induction over the fuel of the parser), and after it blanks are skipped; names of macros begin with a letter (invariant), so that replacing commutes with blanks in front; the examples are the closed list of the page, each checked against documented lines (C34), the rest by C07, C42, C64 |
| C70 | the benchmark program (Model/Bench): the evaluator as a filtered iterator, the queries, the loop, what is printed | induction over the responses of a complete session (C41, C42); the queries are a closed list, each checked against documented lines (C34, C07); the limit by C20 |
| C71 | the preparation of word lists (Model/ListGen) and `load_wordlist` | invariant of the dictionaries over the rows read so far; canonical forms by uniqueness of trimming; sorting twice is sorting once; the lines written are read back by C03 |
| C72 | the counting of words before that (Model/ListCount); `enough c n` stands for `c >= 0.01 * n` | invariants: a dictionary of counts agrees with the rows on every sum and every first word; the table of spellings agrees with the first entries, so a spelling has only one form (a form of a form is itself); the dictionary that was replaced in between is not asked for anything it lost |
| C73 | the links next to a result (Model/Links), addresses read as in Spec/Links | reading an address has one result (escapes of a character are prefix free); marks that `encodeURI` keeps occur only where the text has them |
| C74 | the extraction of words (Model/Extract), regular expressions as greedy and lazy matching with continuations | a match of a star is a split; the longest split that goes on is taken, and any match has the same core; lazy stars give the first split; writing and reading a file of counts is the identity, which connects C74 with C72 |
| C75 | `main` of listgen.py (Model/Prepare): counting, then making the list | what a file of rows means is determined (`rows_unique`), and the file written for rows of words without white space means these rows (`rows_written`); with this C74 and C71 are composed |
| C76 | `create_wordlist` and `main` of listgen.py | each step is total but reading and `dump_final`; a list of words with points can be written exactly if it has two words (`dumpFinal_ends`); two descriptions of a list have the same length |
| C77 | `wiktionary_wordlist`, `add_word`, `dump` (Model/WikiList) | invariant over the additions (first word and best score of each form); the file with three columns is read back row by row, then C76 |
| C78 | `netScore`, `fractionScore`, the width of the bars (Model/ScoreBar); doubles as rational numbers with a rounding function | sums of whole numbers are exact; the rest is monotone, or bounded by the relative error of each operation; with C65 for the order on the page and C26 for the results of the server; an arithmetic with 160 binary digits meets the assumptions |
| C50 | grammar, parser | what a node of a parse tree may look like (`Proofs/Derive`), for every text; then induction over the tree |

The fragment `tame` (Spec/Fragment.lean) for which the compiler is proved right: classes; sequences; alternatives each of
which but the last ends with a class or an unbounded repetition (`dog.*|.*cat`); substring groups of at least two classes;
`t?`, `t{n,m}` of any term of the fragment; `t*` of a term in which nothing is optional or repeated (classes, sequences,
choices); `t+`, `t{n,}` (n ≥ 1) of any term of the fragment that does not match the empty word and in which alternatives
before the last end with a class. Outside: `t*` of a term with optional parts, loops over terms that match the empty word,
alternatives before the last that end with a group, an option or a bounded repetition (or with a loop, when they are inside a
loop), and terms that build no states inside repetitions. For each of these kinds but the loops over the empty word some
expressions are miscompiled (C07, C10), though others, such as `(ab:^)*`, are not.
The fragment is close to tight: trying all small terms `t`, `x t*` is miscompiled for practically every `t` with optional parts.

Nothing in the list is inexpressible; performance, real network I/O, zstd and Unicode tables are not modelled.


## Coverage, file by file

| file in /repo | modelled | not modelled |
|---|---|---|
| noodle/src/words.rs | `Char`, `CharBitset`, `Word`, `Tranche`, `load_wordlist` (Model/Chars, Model/Load, Model/File) | the Unicode tables (parameters), opening the file, the zstd decoder, `Display` of words, the messages printed |
| noodle/src/bitset.rs | `BitSet1D/2D/3D`, reshape, slices, set operations (Model/Bitset) | `Debug` output |
| noodle/src/expression.rs | `from_ast`, `build_states`, `optimize_states`, both closures (Model/Expr, Model/Compile), `Debug` (Model/DebugText) | — |
| noodle/src/matcher.rs | `WordMatcher`, `fill_transition_table`, `char_transitions`, `optimize_for_wordlist` (Model/Matcher) | statistics counters (`WordMatcher::progress` is in Model/Report) |
| noodle/src/query.rs | `QueryEvaluator::new`, `next_within_deadline`, all phases, setters, `filter_search_phases` (Model/Query); `progress()` and the texts of `Complete` and `Logs` (Model/Report; the two floating point expressions and the printed duration are parameters) | — |
| noodle/src/parser.rs and its grammar | grammar, `parse_*`, `detect_options`, `expand_expressions`, `ast_for_anagram`, `QueryAst::new_from_str`, `Display` (Model/Peg, Grammar, Parse, Expand, Display) | wording of syntax errors |
| noodle-cli/src/main.rs | the whole program as output as a function of arguments and word list (Model/Web) | process exit codes |
| noodle-webapp/src/main.rs | query loading, plain HTTP handler, web socket handler, both counters as updates of interleaved requests, the pages `/metrics`, `/wordlists.js`, `/wordlist/{name}` (Model/Web), the texts of all messages (Model/Wire), the routes with percent and UTF-8 decoding (Model/Routes) | parsing of HTTP, static files, memory ordering of the counters |
| noodle-webapp/static/index.html | the text it asks for and the text of its copy button (Model/Page), the address bar and the examples (Model/Link), the connections, the status, the log and the results with sorting and filter (Model/Screen), reading a message (Model/Wire), the menu of dictionaries (Model/Menu), the links next to the results (Model/Links), the score and the bars (Model/ScoreBar) | regular expressions and the arithmetic of doubles are parameters; the feedback form |
| noodle/src/main.rs | Model/Bench.lean | the times it measures and prints |
| listgen/listgen.py | `canonicalize`, `create_wordlist`, `dump_final` (Model/ListGen), `word_frequency` (Model/ListCount), `extract_word_frequency` with its regular expressions (Model/Extract), `main` (Model/Prepare), `wiktionary_wordlist`, `dump` (Model/WikiList) | tables of Unicode, `int` and floating point arithmetic are parameters; compression and JSON of the dumps; `Wordlist.load`, `merge`, `validate_wordlist`, `build_wiki_graph`, which nothing calls |

Numbers: `usize` is `Nat` in the model; where the width matters (shape overflow, `a{3,2}` underflow, allocations of
fewer than 2^14 states, numerals of 2^64 and more) the model has an explicit `Crash`.

## Where the code does not satisfy the property as a user would state it

Items with a property id are proved about the model, as a `*_counterexample` theorem or as an example beside the
partial theorem; the others were seen when reading the code.

1. `prune` (expression.rs, `optimize_states`) renumbers states wrongly: `a?|b?` panics, `x(b?c)*` is miscompiled,
   `x(b{2}c)*` underflows (C07, C08, C10, C11).
2. Alternatives re-point only the last state of each alternative: `(a|b)|c` loses and gains matches; together with 1,
   `ab?|c` matches none of `a`, `ab` and `c` (C07).
3. The substring group `(a:^)` never matches the empty fragment (C37).
4. `a{3,2}` underflows; an anagram inside a repetition reaches `unreachable!` (C08).
5. An expression of 16384 or more states is written outside its allocation. So are small ones:
   `prune_epsilon_pairs` may delete one state twice and then allocates the new sets for too few states; with
   `(a?|b?)abcdefghijklmnopqrstuvwxyz` the next pass inserts state 32 into a set of one block (C09).
6. The empty query panics; the fuzz search is incomplete for a letter missing at the end or two adjacent missing
   letters (C16).
7. The phrase phase can drop the last pending result (C25); the final text still counts it (C52).
8. More than 100 optimisation passes on a query of several expressions: the word classes of a matcher then need not be those
   of the final word list, and indices of one list are used in the classes of another. Soundness (C23) is proved for single
   words, for one expression, and otherwise up to the logged warning; after the warning wrong phrases are reported and right
   ones lost (`C23_counterexample`: a query of two lines, 204 words, each pass of the planner drops one word per expression).
9. Changing the search depth mid-run leaves stale rows; `progress()` divides by zero for an empty word list,
   and while phrases are searched if only repetitions of one word can match (C51).
10. The gauge of active queries leaks when sending fails (C38).
11. Numerals of 2^64 or more panic the parser.
12. An anagram beside other text can accept non-anagrams (C31 is for the lone anagram; C32 is the one-sided claim).
13. `words()` panics without a default dictionary even if `#wordlist` is used (C40).
14. `Display` is not faithful for a repetition of a repetition, an empty class, a substring group of one term (C36).
15. Parser quirks: `/*…*/` comments never parse; `#dictionary foo` sets the dictionary `ionaryfoo`; `[a - c]` is the
    empty class; macros cannot be redefined; the command line program ignores `#words` and `#limit`.
16. Web server: names are not escaped in `/metrics` and `/wordlists.js` (C53); served words ending in a carriage return do not
    come back (C54); a POST body that is not UTF-8 panics, and `/wordlist/<name>` is not percent-decoded (C58).
17. `[A-c]` and `[a-c]` differ (C56); dictionary names with hyphens or digits cannot be chosen (C59).
18. The web page: a macro named `w` breaks every custom word list and the line numbers of errors are off by three (C60);
    copying no results searches the dictionary instead, and a word with a semicolon is copied as two words (C61).
19. Raising the phrase length from one while a run is in its word phase loses phrases, and lowering it to one and raising it again can make the evaluator report phrases that do not match: `a x` for `a?b` (C57).
20. The page: the error of a connection that is closed while it is being made overwrites the status of the next query (C65);
    the menu of dictionaries offers names that the server does not take, among them all with a hyphen (C66).
21. The page: the comment on the score bars gives other ends of the scale than the formula has (C78).
