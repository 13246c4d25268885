{
 "claims": [
  {
   "property": "C01",
   "status": "proved",
   "theorems": [
    "Noodle.C01_symbol",
    "Noodle.C01_ascii",
    "Noodle.C01_case",
    "Noodle.C01_marks",
    "Noodle.C01_ligature",
    "Noodle.C01_end"
   ],
   "note": "Unicode tables (NFKD, marks, case mapping) are parameters; their ASCII behaviour is the hypothesis AsciiLawful."
  },
  {
   "property": "C04",
   "status": "proved",
   "theorems": [
    "Noodle.Bits.C04_new",
    "Noodle.Bits.C04_ops",
    "Noodle.Bits.C04_queries",
    "Noodle.Bits.C04_resize",
    "Noodle.Bits.C04_out_of_range",
    "Noodle.Bits.C04_mask"
   ],
   "note": "Block-level bitsets refine finite sets."
  },
  {
   "property": "C05",
   "status": "proved",
   "theorems": [
    "Noodle.Bits.C05_new",
    "Noodle.Bits.C05_write",
    "Noodle.Bits.C05_disjoint",
    "Noodle.Bits.C05_slice2d"
   ],
   "note": ""
  },
  {
   "property": "C06",
   "status": "proved",
   "theorems": [
    "Noodle.C06_closed",
    "Noodle.C06_ready",
    "Noodle.C06_evaluates"
   ],
   "note": "For every syntax tree the compiler returns an automaton for."
  },
  {
   "property": "C07",
   "status": "partial",
   "theorems": [
    "Noodle.C07_language_partial",
    "Noodle.C07_words_partial",
    "Noodle.C07_phrases_partial",
    "Noodle.C07_unoptimised_partial",
    "Noodle.C07_counterexample_lost",
    "Noodle.C07_counterexample_extra",
    "Noodle.C07_counterexample_optional",
    "Noodle.C07_counterexample_loops"
   ],
   "note": "Proved on the fragment `tame` (Spec/Fragment.lean); false of the code in general: counterexamples proved. Missing: t* of a term with optional parts, loops over terms that match the empty word, alternatives (but the last) that end neither with a class nor with an unbounded repetition, and those that end with one inside a loop (the code is wrong for some expressions of these kinds, such as ab?|c and (a+|b+)+)."
  },
  {
   "property": "C08",
   "status": "partial",
   "theorems": [
    "Noodle.C08_compiles_partial",
    "Noodle.C08_counterexample"
   ],
   "note": "Proved on the fragment; false of the code in general: panics proved for concrete expressions."
  },
  {
   "property": "C09",
   "status": "partial",
   "theorems": [
    "Noodle.C09_inside_partial",
    "Noodle.C09_closure_partial",
    "Noodle.C09_whole_partial",
    "Noodle.C09_counterexample",
    "Noodle.C09_small_counterexample",
    "Noodle.C09_text_counterexample"
   ],
   "note": "Building and closing the automaton: every tree of fewer than 16384 states; the whole compiler: the fragment of C07. False for larger trees and, in the optimisation passes, for small expressions such as (a?|b?)abcdefghijklmnopqrstuvwxyz (both proved)."
  },
  {
   "property": "C10",
   "status": "partial",
   "theorems": [
    "Noodle.C10_meaning",
    "Noodle.C10_counts_partial",
    "Noodle.C10_counterexample"
   ],
   "note": "Proved on the fragment; false for x(b?c)* (proved)."
  },
  {
   "property": "C11",
   "status": "partial",
   "theorems": [
    "Noodle.C11_transparent_partial",
    "Noodle.C11_trim_partial",
    "Noodle.C11_counterexample"
   ],
   "note": "Proved on the fragment and for every automaton of a certain shape; false for x(b?c)* (proved)."
  },
  {
   "property": "C12",
   "status": "proved",
   "theorems": [
    "Noodle.C12_exact",
    "Noodle.C12_matches"
   ],
   "note": ""
  },
  {
   "property": "C13",
   "status": "proved",
   "theorems": [
    "Noodle.C13_boundaries",
    "Noodle.C13_punctuation",
    "Noodle.C13_session"
   ],
   "note": ""
  },
  {
   "property": "C14",
   "status": "partial",
   "theorems": [
    "Noodle.C14_matches",
    "Noodle.C14_words",
    "Noodle.C14_close_partial",
    "Noodle.C14_counterexample"
   ],
   "note": "Proved for every match and every reported word. For phrases, sessions that gave up optimising a query of several expressions are excluded, for which the claim is false: C14_counterexample (see C23)."
  },
  {
   "property": "C15",
   "status": "proved",
   "theorems": [
    "Noodle.C15_matches",
    "Noodle.C15_words",
    "Noodle.C15_phrases_partial"
   ],
   "note": "What matches, and the words reported. Reported phrases up to the one lost phrase of C25, and unless a session gave up on several expressions (C23)."
  },
  {
   "property": "C16",
   "status": "partial",
   "theorems": [
    "Noodle.C16_exact",
    "Noodle.C16_wrong_letters_partial",
    "Noodle.C16_extra_letters_partial",
    "Noodle.C16_missing_letter_partial",
    "Noodle.C16_counterexample"
   ],
   "note": "The documented claim is false of the code (a letter missing at the end, two adjacent missing letters): counterexample proved; the exact relation is proved."
  },
  {
   "property": "C17",
   "status": "proved",
   "theorems": [
    "Noodle.C17_verdict",
    "Noodle.C17_tables"
   ],
   "note": ""
  },
  {
   "property": "C18",
   "status": "proved",
   "theorems": [
    "Noodle.C18_prefix",
    "Noodle.C18_at_logs"
   ],
   "note": ""
  },
  {
   "property": "C19",
   "status": "proved",
   "theorems": [
    "Noodle.C19_singles",
    "Noodle.C19_iff"
   ],
   "note": ""
  },
  {
   "property": "C03",
   "status": "proved",
   "theorems": [
    "Noodle.C03_load",
    "Noodle.C03_tranches",
    "Noodle.C03_gap"
   ],
   "note": "The file is read as lines and columns; a gap between tranches is kept as in the file."
  },
  {
   "property": "C20",
   "status": "proved",
   "theorems": [
    "Noodle.C20_limit",
    "Noodle.C20_first"
   ],
   "note": ""
  },
  {
   "property": "C21",
   "status": "proved",
   "theorems": [
    "Noodle.C21_prefix",
    "Noodle.C21_same",
    "Noodle.C21_no_deadline"
   ],
   "note": "Clock modelled as the number of reads before the deadline."
  },
  {
   "property": "C22",
   "status": "proved",
   "theorems": [
    "Noodle.C22_terminates",
    "Noodle.C22_stays",
    "Noodle.C22_fused"
   ],
   "note": ""
  },
  {
   "property": "C23",
   "status": "partial",
   "theorems": [
    "Noodle.C23_sound_partial",
    "Noodle.C23_words",
    "Noodle.C23_one",
    "Noodle.C23_no_give_up",
    "Noodle.C23_counterexample",
    "Noodle.C23_query_text"
   ],
   "note": "Sound for single words, and for phrases unless the evaluator logs that it gave up after 100 optimisation passes on a query of at least two expressions; proved not to happen when states + depth <= 97. In that excluded case the claim is false: C23_counterexample, a query text of two lines and 204 words."
  },
  {
   "property": "C24",
   "status": "proved",
   "theorems": [
    "Noodle.C24_nodup",
    "Noodle.C24_positions",
    "Noodle.C24_count"
   ],
   "note": ""
  },
  {
   "property": "C25",
   "status": "partial",
   "theorems": [
    "Noodle.C25_partial",
    "Noodle.C25_order_partial",
    "Noodle.C25_exact",
    "Noodle.C25_one",
    "Noodle.C25_counterexample",
    "Noodle.C23_counterexample"
   ],
   "note": "False of the code: the last phrase found can be dropped; proved that all answers are reported, once per sequence of list entries and in the documented order, except possibly the very last one, which then is one repeated word (unless the evaluator gave up on several expressions, when other phrases can be lost: C23_counterexample)."
  },
  {
   "property": "C26",
   "status": "proved",
   "theorems": [
    "Noodle.C26_length",
    "Noodle.C26_single"
   ],
   "note": ""
  },
  {
   "property": "C27",
   "status": "proved",
   "theorems": [
    "Noodle.C27_verdict",
    "Noodle.C27_optimize",
    "Noodle.C27_no_assert"
   ],
   "note": ""
  },
  {
   "property": "C28",
   "status": "proved",
   "theorems": [
    "Noodle.C28_safe"
   ],
   "note": ""
  },
  {
   "property": "C29",
   "status": "proved",
   "theorems": [
    "Noodle.C29_dropped",
    "Noodle.C29_dead_class",
    "Noodle.C29_useful"
   ],
   "note": "C29_useful: the converse, for expressions without fuzz."
  },
  {
   "property": "C30",
   "status": "proved",
   "theorems": [
    "Noodle.C30_concat",
    "Noodle.C27_verdict"
   ],
   "note": ""
  },
  {
   "property": "C31",
   "status": "proved",
   "theorems": [
    "Noodle.C31_rewriting",
    "Noodle.C31_matches",
    "Noodle.C31_words",
    "Noodle.C31_lone",
    "Noodle.C31_context_counterexample"
   ],
   "note": "Rewriting, compilation and run, for banks of letters within the construction capacity."
  },
  {
   "property": "C32",
   "status": "proved",
   "theorems": [
    "Noodle.C32_no_loss",
    "Noodle.C32_words_partial",
    "Noodle.C32_counterexample"
   ],
   "note": "No loss for every expression; C32_words_partial carries it through the compiler (on its fragment) to the reported words. Counterexample: <a b+>."
  },
  {
   "property": "C33",
   "status": "proved",
   "theorems": [
    "Noodle.C33_tree",
    "Noodle.C33_text"
   ],
   "note": "C33_tree for every syntax tree; C33_text for every expression of the documented surface syntax (Spec/Surface.lean), from its text."
  },
  {
   "property": "C34",
   "status": "proved",
   "theorems": [
    "Noodle.C34_query",
    "Noodle.C34_wordlist",
    "Noodle.C34_error",
    "Noodle.C34_rejected",
    "Noodle.C34_no_redefinition",
    "Noodle.C34_empty_comment",
    "Noodle.C34_alphabet",
    "Noodle.C34_slash"
   ],
   "note": "Lines of the documented form (Spec/Script.lean); C34_error for every text."
  },
  {
   "property": "C38",
   "status": "proved",
   "theorems": [
    "Noodle.C38_gauge",
    "Noodle.C38_idle",
    "Noodle.C38_bounds",
    "Noodle.C38_http",
    "Noodle.C38_counterexample"
   ],
   "note": "Every interleaving of HTTP and web socket requests; counterexample to the gauge returning to zero."
  },
  {
   "property": "C39",
   "status": "proved",
   "theorems": [
    "Noodle.C39_answer",
    "Noodle.C39_error",
    "Noodle.C39_same",
    "Noodle.C39_json",
    "Noodle.C39_readable"
   ],
   "note": "HTTP handler; the text of syntax errors is a parameter."
  },
  {
   "property": "C40",
   "status": "proved",
   "theorems": [
    "Noodle.C40_dictionaries",
    "Noodle.C40_words",
    "Noodle.C40_missing",
    "Noodle.C40_counterexample"
   ],
   "note": ""
  },
  {
   "property": "C44",
   "status": "proved",
   "theorems": [
    "Noodle.C44_prints",
    "Noodle.C44_error"
   ],
   "note": ""
  },
  {
   "property": "C45",
   "status": "proved",
   "theorems": [
    "Noodle.C45_socket",
    "Noodle.C45_panics",
    "Noodle.C45_ends"
   ],
   "note": "The last message carries the verdict of C52."
  },
  {
   "property": "C41",
   "status": "proved",
   "theorems": [
    "Noodle.C41_compiler",
    "Noodle.C41_planner"
   ],
   "note": ""
  },
  {
   "property": "C42",
   "status": "proved",
   "theorems": [
    "Noodle.C42_no_crash",
    "Noodle.C42_empty_query"
   ],
   "note": ""
  },
  {
   "property": "C43",
   "status": "proved",
   "theorems": [
    "Noodle.C43_meaning"
   ],
   "note": "Every expression of the documented surface syntax."
  },
  {
   "property": "C02",
   "status": "proved",
   "theorems": [
    "Noodle.C02_bracket",
    "Noodle.C02_character",
    "Noodle.C02_dot"
   ],
   "note": "From the text of the class to the letters the single-class query accepts."
  },
  {
   "property": "C35",
   "status": "proved",
   "theorems": [
    "Noodle.C35_enumeration"
   ],
   "note": "Number enumerations, from text to the words matched."
  },
  {
   "property": "C37",
   "status": "partial",
   "theorems": [
    "Noodle.C37_parts_partial",
    "Noodle.C37_counterexample"
   ],
   "note": "Subset, superset and substring groups; false of the code for the empty fragment when a letter precedes (counterexample)."
  },
  {
   "property": "C46",
   "status": "partial",
   "theorems": [
    "Noodle.C46_words_partial",
    "Noodle.C46_program_partial"
   ],
   "note": "Queries, also fuzzy ones, whose lines lie in the fragment of expressions the compiler translates correctly (Spec/Fragment.lean)."
  },
  {
   "property": "C36",
   "status": "partial",
   "theorems": [
    "Noodle.C36_roundtrip_partial",
    "Noodle.C36_parsed_partial",
    "Noodle.C36_counterexample"
   ],
   "note": "All trees except three shapes for which the claim is false of the code (counterexample): a repetition of a single repetition, an empty class, a substring group of one term or with repetitions; and anagram banks with blanks."
  },
  {
   "property": "C47",
   "status": "proved",
   "theorems": [
    "Noodle.C47_order",
    "Noodle.C47_lengths"
   ],
   "note": "Phrase length limits below 2^32 (the code truncates the exponent to 32 bits)."
  },
  {
   "property": "C48",
   "status": "proved",
   "theorems": [
    "Noodle.C48_words",
    "Noodle.C48_narrows",
    "Noodle.C48_phrases_partial"
   ],
   "note": "Phrases up to the one lost phrase of C25, and unless a session gave up on several expressions (C23)."
  },
  {
   "property": "C49",
   "status": "proved",
   "theorems": [
    "Noodle.C49_words",
    "Noodle.C49_grows",
    "Noodle.C49_phrases_partial"
   ],
   "note": "Phrases up to the one lost phrase of C25, and unless a session gave up on several expressions (C23)."
  },
  {
   "property": "C50",
   "status": "proved",
   "theorems": [
    "Noodle.C50_expression",
    "Noodle.C50_query",
    "Noodle.C50_plain",
    "Noodle.C50_digits",
    "Noodle.C50_counterexample"
   ],
   "note": "The sum of an anagram's length and the number in <...+n> is not bounded in the model (it overflows for n within that length of 2^64). Exhaustion of the stack by deep nesting is not modelled."
  },
  {
   "property": "C51",
   "status": "proved",
   "theorems": [
    "Noodle.C51_session",
    "Noodle.C51_words",
    "Noodle.C51_grows",
    "Noodle.C51_done",
    "Noodle.C51_runs",
    "Noodle.C51_phrases",
    "Noodle.C51_panic",
    "Noodle.C51_empty",
    "Noodle.C51_counterexample"
   ],
   "note": "The two floating point expressions are parameters; assumed of them: at most 64 squared, zero only for sizes up to one. The phrase part for at most 10485 phases (40 words and 256 tranches), above which the estimate may overflow."
  },
  {
   "property": "C52",
   "status": "proved",
   "theorems": [
    "Noodle.C52_told",
    "Noodle.C52_texts",
    "Noodle.C52_counterexample"
   ],
   "note": "The counterexample shows that the number need not be that of the reported matches."
  },
  {
   "property": "C53",
   "status": "proved",
   "theorems": [
    "Noodle.C53_metrics",
    "Noodle.C53_script",
    "Noodle.C53_counters",
    "Noodle.C53_consistent",
    "Noodle.C53_others",
    "Noodle.C53_told",
    "Noodle.C53_counterexample"
   ],
   "note": "Sequentially consistent counters. The counterexample shows that names are not escaped."
  },
  {
   "property": "C55",
   "status": "proved",
   "theorems": [
    "Noodle.C55_program",
    "Noodle.C55_same",
    "Noodle.C55_refines",
    "Noodle.C55_safe",
    "Noodle.C55_total",
    "Noodle.C55_stored",
    "Noodle.C55_compiles",
    "Noodle.C55_compiler_panics"
   ],
   "note": ""
  },
  {
   "property": "C56",
   "status": "proved",
   "theorems": [
    "Noodle.C56_expression",
    "Noodle.C56_query",
    "Noodle.C56_answer",
    "Noodle.C56_prints",
    "Noodle.C56_counterexample"
   ],
   "note": "The counterexample shows why ranges of mixed case are excepted."
  },
  {
   "property": "C57",
   "status": "proved",
   "theorems": [
    "Noodle.C57_setters",
    "Noodle.C57_settings",
    "Noodle.C57_no_crash",
    "Noodle.C57_expressions",
    "Noodle.C57_iterator",
    "Noodle.C57_counterexample",
    "Noodle.C57_counterexample_false"
   ],
   "note": "The counterexamples show why, if phrases are wanted now, they must have been wanted at every call before: otherwise phrases are lost, and false ones can be reported."
  },
  {
   "property": "C58",
   "status": "proved",
   "theorems": [
    "Noodle.C58_get",
    "Noodle.C58_post",
    "Noodle.C58_only",
    "Noodle.C58_read",
    "Noodle.C58_invalid",
    "Noodle.C58_answers",
    "Noodle.C58_bodies",
    "Noodle.C58_pages",
    "Noodle.C58_names_counterexample",
    "Noodle.C58_panic",
    "Noodle.C58_slash"
   ],
   "note": "warp's filters, percent_decode_str and Rust's UTF-8 decoders are modelled from their documentation and source; HTTP parsing is not modelled. C58_panic and C58_slash are instances."
  },
  {
   "property": "C59",
   "status": "proved",
   "theorems": [
    "Noodle.C59_names",
    "Noodle.C59_unused",
    "Noodle.C59_asked",
    "Noodle.C59_exactly",
    "Noodle.C59_page",
    "Noodle.C59_counterexample",
    "Noodle.C34_alphabet"
   ],
   "note": "The statement is what the code does, not what the list names of the documentation suggest: C59_counterexample, C59_page."
  },
  {
   "property": "C60",
   "status": "proved",
   "theorems": [
    "Noodle.C60_page",
    "Noodle.C60_custom",
    "Noodle.C60_defaults",
    "Noodle.C60_error",
    "Noodle.C60_counterexample"
   ],
   "note": "The page's JavaScript (index.html:449-456) is modelled as the concatenation it is."
  },
  {
   "property": "C61",
   "status": "proved",
   "theorems": [
    "Noodle.C61_search",
    "Noodle.C61_again",
    "Noodle.C61_nothing",
    "Noodle.C61_semicolon"
   ],
   "note": "The filter is any predicate on texts; of Unicode it is used that normalisation splits at a blank (BlankSplits, Spec/Copied.lean). C61_again inherits the hypothesis of C23_sound_partial."
  },
  {
   "property": "C62",
   "status": "proved",
   "theorems": [
    "Noodle.C62_noted",
    "Noodle.C62_log"
   ],
   "note": "The printed duration is a parameter."
  },
  {
   "property": "C63",
   "status": "proved",
   "theorems": [
    "Noodle.C63_reads",
    "Noodle.C63_load",
    "Noodle.C63_text",
    "Noodle.C63_some_text",
    "Noodle.C63_bad_line",
    "Noodle.C63_stuck",
    "Noodle.C63_again",
    "Noodle.C63_zst",
    "Noodle.C63_counterexample"
   ],
   "note": "BufRead::lines, Path::extension and the UTF-8 decoder are modelled from the standard library; the zstd decoder is a parameter. C63_counterexample: after a failed read the rest of the line is taken for a line."
  },
  {
   "property": "C64",
   "status": "proved",
   "theorems": [
    "Noodle.C64_link",
    "Noodle.C64_links",
    "Noodle.C64_clean",
    "Noodle.C64_counterexample"
   ],
   "note": "encodeURI, decodeURI and location.hash are modelled from the ECMAScript, HTML and URL standards; strings with half surrogate pairs are not modelled."
  },
  {
   "property": "C65",
   "status": "proved",
   "theorems": [
    "Noodle.C65_found",
    "Noodle.C65_shown",
    "Noodle.C65_view",
    "Noodle.C65_settings",
    "Noodle.C65_status",
    "Noodle.C65_sent",
    "Noodle.C65_copied",
    "Noodle.C65_session",
    "Noodle.C65_counterexample"
   ],
   "note": "The events of web sockets are modelled from the standards; regular expressions and the score formula are parameters. C65_counterexample: the error of a connection of an earlier query overwrites the status."
  },
  {
   "property": "C66",
   "status": "proved",
   "theorems": [
    "Noodle.C66_menu",
    "Noodle.C66_initial",
    "Noodle.C66_chosen",
    "Noodle.C66_hyphen",
    "Noodle.C66_unusable"
   ],
   "note": "The selection of options is modelled from the HTML standard. C66_hyphen and C66_unusable are what the code does, not what a user expects."
  },
  {
   "property": "C67",
   "status": "proved",
   "theorems": [
    "Noodle.C67_says",
    "Noodle.C67_same"
   ],
   "note": ""
  },
  {
   "property": "C68",
   "status": "proved",
   "theorems": [
    "Noodle.C68_message",
    "Noodle.C68_status",
    "Noodle.C68_log",
    "Noodle.C68_talk",
    "Noodle.C68_error"
   ],
   "note": "JSON.parse is the grammar of the standard, not a program; the printed forms of durations and pest's error texts are parameters."
  },
  {
   "property": "C69",
   "status": "proved",
   "theorems": [
    "Noodle.C69_layout",
    "Noodle.C69_answers",
    "Noodle.C69_example",
    "Noodle.C69_click",
    "Noodle.C69_examples",
    "Noodle.C69_run",
    "Noodle.C69_counterexample"
   ],
   "note": "Blanks elsewhere than at the beginning of a line can matter (counterexample: a blank before the = of a macro belongs to its name). innerText of a link is taken to be the text in the file, without the escapes of HTML."
  },
  {
   "property": "C70",
   "status": "proved",
   "theorems": [
    "Noodle.C70_count",
    "Noodle.C70_queries",
    "Noodle.C70_number",
    "Noodle.C70_program",
    "Noodle.C70_capped",
    "Noodle.C70_empty"
   ],
   "note": "The times printed are not modelled; println! lines are constructors, one for each call."
  },
  {
   "property": "C71",
   "status": "proved",
   "theorems": [
    "Noodle.C71_canonical",
    "Noodle.C71_words",
    "Noodle.C71_lists",
    "Noodle.C71_loads",
    "Noodle.C71_sample"
   ],
   "note": "Assumptions about Python and floating point are in Spec.Sane, satisfied by plain_sane. C71_lists (the other two files) supposes that no row takes points away (counts are positive)."
  },
  {
   "property": "C72",
   "status": "proved",
   "theorems": [
    "Noodle.C72_merged",
    "Noodle.C72_spelling",
    "Noodle.C72_total",
    "Noodle.C72_order",
    "Noodle.C72_sample",
    "Noodle.C72_counterexample"
   ],
   "note": "Supposes that no canonical form of a counted word has a digit (C72_counterexample: with superscripts it is false). Assumptions about Unicode are in Spec.PlainAscii, satisfied by plain_ascii."
  },
  {
   "property": "C73",
   "status": "proved",
   "theorems": [
    "Noodle.C73_links",
    "Noodle.C73_right",
    "Noodle.C73_phrase",
    "Noodle.C73_counterexample"
   ],
   "note": ""
  },
  {
   "property": "C74",
   "status": "proved",
   "theorems": [
    "Noodle.C74_word",
    "Noodle.C74_word_unique",
    "Noodle.C74_body",
    "Noodle.C74_dash",
    "Noodle.C74_determined",
    "Noodle.C74_counts",
    "Noodle.C74_merged",
    "Noodle.C74_sample"
   ],
   "note": "Assumptions about Unicode are in Spec.WordChars, Spec.ReadsBack and Spec.PlainAscii, satisfied by plain_chars, plain_reads, plain_ascii."
  },
  {
   "property": "C75",
   "status": "proved",
   "theorems": [
    "Noodle.C75_prepare",
    "Noodle.C75_sample"
   ],
   "note": "Composes C74, C72, C71 and C03. Assumptions as there; a run that raises an exception (a malformed Wiktionary file, or a list of fewer than two words) gives no list."
  },
  {
   "property": "C76",
   "status": "proved",
   "theorems": [
    "Noodle.C76_ends",
    "Noodle.C76_prepare"
   ],
   "note": "NoDebt: what a positive count is worth is not negative, as for int(count * 0.2 - 1); satisfied by plain_debt."
  },
  {
   "property": "C77",
   "status": "proved",
   "theorems": [
    "Noodle.C77_list",
    "Noodle.C77_read",
    "Noodle.C77_prepare",
    "Noodle.C77_sample"
   ],
   "note": "Entries without line breaks in words and forms; assumptions on Unicode: WordChars, ReadsBack, NoBreaks (plain_breaks)."
  },
  {
   "property": "C78",
   "status": "proved",
   "theorems": [
    "Noodle.C78_range",
    "Noodle.C78_rarer",
    "Noodle.C78_sorted",
    "Noodle.C78_session",
    "Noodle.C78_word",
    "Noodle.C78_phrase",
    "Noodle.C78_counterexample",
    "Noodle.C78_sample"
   ],
   "note": "Assumptions on the arithmetic of doubles: Spec.Rounds (C78_sample: they can be met); the order of the page is that of the computed scores (Spec.Sorts)."
  },
  {
   "property": "C54",
   "status": "proved",
   "theorems": [
    "Noodle.C54_served",
    "Noodle.C54_again",
    "Noodle.C54_counterexample"
   ],
   "note": ""
  }
 ]
}