{
 "claims": [
  {
   "property": "C01",
   "status": "partial",
   "theorems": [
    "Fmr.C01_partial",
    "Fmr.C01_relaxed_partial",
    "Fmr.C01_false",
    "Fmr.C01_gamma_rule_reported"
   ],
   "note": "Full statement C01_statement is false of the code (C01_false: bounds of (any{m,n}) confused between rules). Proved for all grammars with uniform bounds, and for all grammars with the relaxed reading of bounds."
  },
  {
   "property": "C02",
   "status": "partial",
   "theorems": [
    "Fmr.C02_partial",
    "Fmr.C02_of_closed_partial",
    "Fmr.C02_closed_iff",
    "Fmr.C02_false"
   ],
   "note": "Full statement C02_statement is false of the code (C02_false: nullable rule used twice). Proved for all grammars whose possibly empty terms are placed safely (NullSafe), and for every run whose chart is closed under completing empty spans."
  },
  {
   "property": "C03",
   "status": "proved",
   "theorems": [
    "Fmr.C03_longest",
    "Fmr.C03_longest_derivable_partial"
   ],
   "note": "C03_longest is unconditional in terms of finished matches in the chart; the derivability reading needs safely placed empty derivations (NullSafe) and uniform bounds."
  },
  {
   "property": "C04",
   "status": "proved",
   "theorems": [
    "Fmr.C04_exhaustive",
    "Fmr.C04_exhaustive_derivable_partial"
   ],
   "note": "C04_exhaustive is unconditional in terms of the chart; the derivability reading needs safely placed empty derivations (NullSafe) and uniform bounds."
  },
  {
   "property": "C05",
   "status": "proved",
   "theorems": [
    "Fmr.C05_terminates"
   ],
   "note": "For every well-formed grammar, text and iteration order."
  },
  {
   "property": "C06",
   "status": "partial",
   "theorems": [
    "Fmr.C06_partial",
    "Fmr.C06_same_longest_partial",
    "Fmr.C06_false"
   ],
   "note": "Full statement C06_statement is false (C06_false: nullable grammar, two orders, different results). Proved for safely placed empty derivations (NullSafe)."
  },
  {
   "property": "C07",
   "status": "proved",
   "theorems": [
    "Fmr.C07_columns",
    "Fmr.C07_chart"
   ],
   "note": ""
  },
  {
   "property": "C08",
   "status": "proved",
   "theorems": [
    "Fmr.C08_parse_never_faults"
   ],
   "note": ""
  },
  {
   "property": "C09",
   "status": "partial",
   "theorems": [
    "Fmr.C09_partial",
    "Fmr.C09_state_bounds_partial",
    "Fmr.C09_false"
   ],
   "note": "Full statement is false of the code (C09_false). Proved for uniform bounds, and for the bounds recorded in each state."
  },
  {
   "property": "C10",
   "status": "proved",
   "theorems": [
    "Fmr.C10_trees_valid",
    "Fmr.C10_counts_partial"
   ],
   "note": "Every tree returned for a match is a derivation tree: productions, contiguity, spans, terminals. The second theorem adds the counts of any/list terms for grammars with uniform bounds (in general false, see C09)."
  },
  {
   "property": "C11",
   "status": "proved",
   "theorems": [
    "Fmr.C11_getTrees_returns",
    "Fmr.C11_any_completed"
   ],
   "note": "For rule bodies without mixed terminals (what the loader produces). Result independent of fuel."
  },
  {
   "property": "C12",
   "status": "proved",
   "theorems": [
    "Fmr.C12_match_has_tree",
    "Fmr.finals_have_address"
   ],
   "note": "By a provenance invariant over all reachable configurations of the chart loop."
  },
  {
   "property": "C13",
   "status": "partial",
   "theorems": [
    "Fmr.C13_exact_partial",
    "Fmr.C13_unambiguous_partial",
    "Fmr.C13_spines_partial",
    "Fmr.C13_graded_partial",
    "Fmr.C13_false"
   ],
   "note": "False in general: a derivation tree is lost when a node is completed a second time after its parent. Proved: exact characterisation of the returned set; completeness for unambiguous inputs; completeness for ambiguous inputs whose derivation trees for the same symbol and tokens have right spines of equal length (C13_spines_partial), and a test of the productions that ensures this for all texts (C13_graded_partial)."
  },
  {
   "property": "C14",
   "status": "proved",
   "theorems": [
    "Fmr.C14_no_duplicate_trees",
    "Fmr.C14_shapes"
   ],
   "note": "Pairwise different as node values; with uniform bounds also in symbols, bodies, spans and children (C14_shapes)."
  },
  {
   "property": "C15",
   "status": "proved",
   "theorems": [
    "Fmr.C15_calls_independent",
    "Fmr.C15_calls_succeed"
   ],
   "note": "State-passing model of the write to state.Rb refines the pure one, for every sequence of calls."
  },
  {
   "property": "C16",
   "status": "proved",
   "theorems": [
    "Fmr.C16_leaves_cover"
   ],
   "note": "For every node of every returned tree."
  },
  {
   "property": "C17",
   "status": "proved",
   "theorems": [
    "Fmr.C17_leftmost",
    "Fmr.C17_terminates",
    "Fmr.C17_derivable_partial"
   ],
   "note": "C17_leftmost is unconditional in terms of the parses of the suffixes; the derivability reading needs safely placed empty derivations (NullSafe) and uniform bounds."
  },
  {
   "property": "C18",
   "status": "partial",
   "theorems": [
    "Fmr.C18_greedy",
    "Fmr.C18_terminates_partial",
    "Fmr.C18_derivable_partial",
    "Fmr.C18_exact_partial",
    "Fmr.C18_result_partial",
    "Fmr.C18_false"
   ],
   "note": "False in general: a start rule that matches the empty sequence makes EarleyParseMaxAll loop forever (C18_false). Proved: the shape of the result whenever it returns; termination if no start rule derives the empty sequence; for safely placed empty derivations and uniform bounds, that it returns exactly if the greedy scan never comes to a token where only the empty sequence matches, and that it returns the matches of that scan."
  },
  {
   "property": "C19",
   "status": "proved",
   "theorems": [
    "Fmr.C19_all_offsets",
    "Fmr.C19_terminates",
    "Fmr.C19_derivable_partial"
   ],
   "note": "C19_all_offsets is unconditional in terms of the exhaustive parses of the suffixes; the derivability reading needs safely placed empty derivations (NullSafe) and uniform bounds."
  },
  {
   "property": "C20",
   "status": "proved",
   "theorems": [
    "Fmr.C20_errors"
   ],
   "note": "All four entry points; tagged spans are assumed to lie inside the document, and tokens to be numbered if there are regexps. An alternative of the document that cannot be hashed is one more error cause. The error conditions are stated without the functions of the model."
  },
  {
   "property": "C21",
   "status": "partial",
   "theorems": [
    "Fmr.C21_exact",
    "Fmr.C21_partial",
    "Fmr.C21_trees_partial",
    "Fmr.C21_empty_node",
    "Fmr.C21_false",
    "Fmr.C21_pos_panics"
   ],
   "note": "False in general: offsets of the trimmed text are applied to the untrimmed text (C21_false), and Pos panics for a node over zero tokens at the start or end (C21_pos_panics). C21_exact: what Pos and OriginalText return, and when they panic, for all nodes of all trees of all grammars and all texts. C21_trees_partial: the claim for texts without white space in front and nodes that are not empty at an end of the token list."
  },
  {
   "property": "C22",
   "status": "partial",
   "theorems": [
    "Fmr.C22_exact_partial",
    "Fmr.C22_symm_trans",
    "Fmr.C22_decides",
    "Fmr.C22_foreign",
    "Fmr.C22_false"
   ],
   "note": "False for values of foreign dynamic types (not reflexive; values of unknown argument types are ignored). Exact on well-formed values; symmetry and transitivity hold for all values, and what is compared is characterised for all values (C22_decides)."
  },
  {
   "property": "C23",
   "status": "proved",
   "theorems": [
    "Fmr.C23_terminalMatch",
    "Fmr.C23_decision"
   ],
   "note": "For every registry content and case mapping."
  },
  {
   "property": "C24",
   "status": "partial",
   "theorems": [
    "Fmr.C24_partial",
    "Fmr.C24_flags_partial",
    "Fmr.derives_iff_sources",
    "Fmr.C24_false",
    "Fmr.C24_capture_false"
   ],
   "note": "False in general: two literals with the same text and different flags share one rule whose flags depend on the map order (C24_false); a reference to an undefined rule can be captured by a generated name (C24_capture_false). Proved, with any other grammars in force: language equality if equal literals have equal flags and nobody refers to introduced names; without the condition on flags each literal has the flags of some occurrence."
  },
  {
   "property": "C25",
   "status": "proved",
   "theorems": [
    "Fmr.C25_structure",
    "Fmr.C25_unmixed",
    "Fmr.C25_idempotent",
    "Fmr.C25_terminates",
    "Fmr.C25_mono",
    "Fmr.C25_prefix",
    "Fmr.C25_names"
   ],
   "note": "Idempotence is by the Refined flag of the grammar. C25_names gives the generated names exactly, as a function of the literal, when the literals of the file have distinct first names."
  },
  {
   "property": "C26",
   "status": "partial",
   "theorems": [
    "Fmr.C26_partial",
    "Fmr.C26_false"
   ],
   "note": "False: \"foo!\" in one file and \"foo\" in an included one get the same generated name (C26_false). Proved for any number of files, also ones sharing literals and next to further sources, when files that introduce the same name introduce it for the same literal."
  },
  {
   "property": "C27",
   "status": "partial",
   "theorems": [
    "Fmr.C27_partial",
    "Fmr.C27_false",
    "Fmr.C27_statement_false",
    "Fmr.C27_false_unknown"
   ],
   "note": "False: every grammar text that ends in a line comment without newline makes the loader loop forever (C27_false), and so does U+FFFD or invalid UTF-8 after a literal (C27_false_unknown). Proved, also that nothing panics, for texts without U+FFFD whose line comments end, with finitely many files."
  },
  {
   "property": "C28",
   "status": "proved",
   "theorems": [
    "Fmr.C28_text",
    "Fmr.C28_roundtrip"
   ],
   "note": "C28_text: every text of the documented syntax is read as exactly the definitions it denotes. C28_roundtrip: every writable list of definitions has a text, and reading it gives the definitions back."
  },
  {
   "property": "C29",
   "status": "partial",
   "theorems": [
    "Fmr.C29_exact",
    "Fmr.C29_partial",
    "Fmr.C29_arguments",
    "Fmr.C29_no_unknown",
    "Fmr.C29_false"
   ],
   "note": "False: a terminal cannot start with white space other than newline and tab, and cannot contain U+FFFD (C29_false). C29_exact and C29_arguments characterise exactly what can be written."
  },
  {
   "property": "C30",
   "status": "partial",
   "theorems": [
    "Fmr.C30_text_wellformed",
    "Fmr.C30_string_partial",
    "Fmr.C30_file_partial",
    "Fmr.C30_false",
    "Fmr.loaded_env"
   ],
   "note": "For all inputs that are accepted. False only for the rules that refine makes for literals: the empty literal becomes a rule with an empty alternative (C30_false), and generated names need not be identifiers. loaded_env: a loaded grammar has all properties that the parsing theorems assume, except that it may use the internal start symbol."
  },
  {
   "property": "C31",
   "status": "partial",
   "theorems": [
    "Fmr.C31_partial",
    "Fmr.C31_exact",
    "Fmr.C31_false",
    "Fmr.C31_false_marker"
   ],
   "note": "False: numbers of 2^63 or more wrap around (C31_false), a number may even turn into the marker -1 (C31_false_marker). Proved for numbers below 2^63. C31_exact: the value read for every digit string."
  },
  {
   "property": "C32",
   "status": "partial",
   "theorems": [
    "Fmr.C32_partial",
    "Fmr.C32_false"
   ],
   "note": "False for hashes with collisions: the later alternative replaces the earlier (C32_false). Proved when the hash is injective on the alternatives of the file."
  },
  {
   "property": "C33",
   "status": "partial",
   "theorems": [
    "Fmr.C33_terminates_partial",
    "Fmr.C33_string",
    "Fmr.C33_file",
    "Fmr.C33_regexps"
   ],
   "note": "Only the text and the included files must be without U+FFFD. Termination for every include graph, if all line comments end (see C27). The included files are exactly the reachable ones, each read once and in the order of the list; the root file of GrammarFromFile is read again if it is included under another path. A regexp of an included file is in the root's table if MD5 has no collision."
  },
  {
   "property": "C34",
   "status": "proved",
   "theorems": [
    "Fmr.C34_regexp_spans"
   ],
   "note": "The regexp engine is a parameter; its match offsets are assumed ordered and inside the text only where needed."
  },
  {
   "property": "C35",
   "status": "partial",
   "theorems": [
    "Fmr.C35_partial",
    "Fmr.C35_false"
   ],
   "note": "False for every 64-bit hash (two class tokens whose bodies collide overwrite each other, C35_false by pigeonhole); proved when the alternatives the document itself gives rise to have distinct hashes (no assumption on other inputs of the hash)."
  },
  {
   "property": "C36",
   "status": "partial",
   "theorems": [
    "Fmr.C36_partial",
    "Fmr.C36_false"
   ],
   "note": "False for a span with a space token inside (the space is a terminal that no token of the input can match, C36_false); proved for spans without space tokens when the alternatives of the document have distinct hashes."
  },
  {
   "property": "C37",
   "status": "proved",
   "theorems": [
    "Fmr.C37_index",
    "Fmr.C37_loaded",
    "Fmr.C37_build",
    "Fmr.C37_no_error"
   ],
   "note": "A literal counts as contained up to white space around it, which the code trims; MultiMatch is assumed to report only keys of the trie."
  },
  {
   "property": "C38",
   "status": "partial",
   "theorems": [
    "Fmr.C38_partial",
    "Fmr.C38_no_lists",
    "Fmr.C38_terminates",
    "Fmr.C38_false"
   ],
   "note": "False: references by (list<B>) are not in the index, so rules above them are not tried (C38_false). Proved for plain references, and in full for grammars without lists; termination without restriction."
  },
  {
   "property": "C39",
   "status": "partial",
   "theorems": [
    "Fmr.C39_partial",
    "Fmr.C39_false",
    "Fmr.C39_false_flags"
   ],
   "note": "False: a frame with a repeated term is never complete (C39_false), and one with a literal with flags can be complete although that term has no slot (C39_false_flags). Proved for literals without flags: complete frames have all slots, and conversely if the keys of the terms differ."
  },
  {
   "property": "C40",
   "status": "partial",
   "theorems": [
    "Fmr.C40_match_partial",
    "Fmr.C40_fmr_partial",
    "Fmr.C40_false",
    "Fmr.C40_false_include",
    "Fmr.C40_false_empty",
    "Fmr.C40_false_context",
    "Fmr.frameCase_loaded"
   ],
   "note": "False: frames defined in an included file, rules that derive the empty text, and @ in the function of a frame make it panic. Proved without them, for grammars that were loaded from a text (frameCase_loaded)."
  },
  {
   "property": "C41",
   "status": "partial",
   "theorems": [
    "Fmr.C41_partial",
    "Fmr.C41_false"
   ],
   "note": "False: without a candidate rule the parser returns an error (C41_false). C41_partial says exactly when MatchFrames fails and that it returns otherwise."
  },
  {
   "property": "C42",
   "status": "partial",
   "theorems": [
    "Fmr.C42_same_expression",
    "Fmr.C42_denotes",
    "Fmr.C42_errors",
    "Fmr.C42_labelled",
    "Fmr.C42_labelled_partial",
    "Fmr.C42_function",
    "Fmr.C42_function_panics",
    "Fmr.C42_partial",
    "Fmr.C42_false",
    "Fmr.C42_empty_leaf_panics"
   ],
   "note": "False: a leaf prints its normalized text but evaluates to its original text (C42_false); Eval panics on an empty leaf at the start of a text. Proved for every interpretation of the functions: both compute the same expression when leaves are read so (C42_same_expression); it is the printed one if the two texts agree (C42_partial). C42_labelled: the nodes of a tree have texts and labels exactly if none is empty at an end of the token list."
  },
  {
   "property": "C43",
   "status": "proved",
   "theorems": [
    "Fmr.C43_index",
    "Fmr.C43_mistyped",
    "Fmr.C43_no_panic"
   ],
   "note": "C43_no_panic: for trees whose nodes have texts and labels, and functions that do not panic."
  },
  {
   "property": "C44",
   "status": "partial",
   "theorems": [
    "Fmr.C44_partial",
    "Fmr.C44_false",
    "Fmr.C44_exact",
    "Fmr.C44_trees",
    "Fmr.C44_digits",
    "Fmr.C44_lost_context",
    "Fmr.numberText_bf",
    "Fmr.fnName_ok"
   ],
   "note": "False: 3 and 3.0 print alike (C44_false), so do numbers that agree in ten digits (C44_digits), and f(@) prints as f() if the record cannot be encoded (C44_lost_context). Proved exactly: two trees print alike if and only if they have the same calls of the same functions with the same strings, and numbers and records with the same texts (C44_exact; C44_trees for the trees of parses). The texts of numbers are as required (numberText_bf); of the JSON encoder it is assumed that a record becomes an object text. Without numbers and records the expression is determined (C44_partial). strconv.Quote is modelled in full."
  },
  {
   "property": "C45",
   "status": "partial",
   "theorems": [
    "Fmr.C45_prints",
    "Fmr.C45_partial",
    "Fmr.C45_false"
   ],
   "note": "False: the slots of literals have no trees and print as null although filled (C45_false). C45_prints is exactly what is printed, for all frames and slots; C45_partial: for references, null iff there is no slot."
  },
  {
   "property": "C46",
   "status": "proved",
   "theorems": [
    "Fmr.C46_list",
    "Fmr.C46_entity_nil",
    "Fmr.C46_entity",
    "Fmr.C46_entity_call",
    "Fmr.C46_list_node"
   ],
   "note": "fmt.Sprintf(\"%v\") is a parameter. C46_list_node: a (list<x>) node evaluates to the list of its items' values in order."
  },
  {
   "property": "C47",
   "status": "partial",
   "theorems": [
    "Fmr.C47_scanned",
    "Fmr.C47_exclusive",
    "Fmr.C47_partial",
    "Fmr.C47_false",
    "Fmr.C47_leading_zero",
    "Fmr.C47_reads",
    "Fmr.C47_exact"
   ],
   "note": "False: text after the number is ignored (C47_false) and leading zeros make it octal (C47_leading_zero). Proved: parity on the decimal text of every integer; never both, whatever the scanner; and exactly which texts are even or odd (C47_exact: the integer in Go's notation at the beginning of the text). fmt.Sscan is modelled from its published behaviour."
  },
  {
   "property": "C48",
   "status": "proved",
   "theorems": [
    "Fmr.C48_string_total",
    "Fmr.C48_names",
    "Fmr.C48_distinct",
    "Fmr.C48_roundtrip",
    "Fmr.C48_rejects"
   ],
   "note": "JSON string encoding is a parameter with its round-trip contract."
  },
  {
   "property": "C49",
   "status": "proved",
   "theorems": [
    "Fmr.C49_race_free",
    "Fmr.C49_get",
    "Fmr.C49_put",
    "Fmr.C49_legal",
    "Fmr.C49_progress"
   ],
   "note": "Any number of goroutines, any schedule; sync.RWMutex by its specification."
  },
  {
   "property": "C50",
   "status": "proved",
   "theorems": [
    "Fmr.C50_once",
    "Fmr.C50_return",
    "Fmr.C50_waits",
    "Fmr.C50_exclusive",
    "Fmr.C50_race_free",
    "Fmr.C50_progress",
    "Fmr.C50_after_panic"
   ],
   "note": "sync.Once modelled step by step. C50_after_panic: if the initialisation panics, later calls return nil or a partial pipeline without an error."
  },
  {
   "property": "C51",
   "status": "proved",
   "theorems": [
    "Fmr.C51_kept",
    "Fmr.C51_literal",
    "Fmr.C51_refine",
    "Fmr.C51"
   ],
   "note": "Check-then-put races included (race_run). C51_refine: what refine makes does not depend on the registry."
  },
  {
   "property": "C52",
   "status": "partial",
   "theorems": [
    "Fmr.C52_partial",
    "Fmr.C52_injective",
    "Fmr.C52_invalid",
    "Fmr.C52_context",
    "Fmr.C52_false",
    "Fmr.C52_escape",
    "Fmr.C52_flags",
    "Fmr.C52_space",
    "Fmr.C52_float",
    "Fmr.C52_nested",
    "Fmr.C52_example"
   ],
   "note": "False of the code: a context argument makes String return invalid_fmr, strconv.Quote uses escapes the grammar does not know, a leading parenthesis is read as flags, leading white space is dropped, a float with an integral value comes back as an integer. Proved for all functions without these, nested to any depth."
  },
  {
   "property": "C53",
   "status": "partial",
   "theorems": [
    "Fmr.C53_mirrors",
    "Fmr.C53_partial",
    "Fmr.C53_faithful_partial",
    "Fmr.C53_trees",
    "Fmr.C53_trees_partial",
    "Fmr.C53_false"
   ],
   "note": "False for literals that contain brackets: a literal is its own label, which is not quoted (C53_false). Proved for all matched texts when labels contain no brackets, quotes (balance) or blanks (faithfulness). C53_trees: Bracketed panics exactly if a node whose text it prints is empty at an end of the token list, for all grammars and texts."
  },
  {
   "property": "C54",
   "status": "proved",
   "theorems": [
    "Fmr.C54_parse",
    "Fmr.C54_parseAny",
    "Fmr.C54_extractMaxAll",
    "Fmr.C54_extractAll",
    "Fmr.C54_trees",
    "Fmr.C54_end_to_end_partial",
    "Fmr.C54_any_partial",
    "Fmr.C54_all_partial",
    "Fmr.C54_maxAll_partial",
    "Fmr.C54_loaded_partial"
   ],
   "note": "The four Extract/Parse entry points; C54_end_to_end_partial composes C01-C05, C10-C12 for Parse, C54_any/all/maxAll_partial with C17-C19 for the other calls (safely placed empty derivations, uniform bounds)."
  },
  {
   "property": "C55",
   "status": "proved",
   "theorems": [
    "Fmr.C55_registry"
   ],
   "note": ""
  },
  {
   "property": "C56",
   "status": "partial",
   "theorems": [
    "Fmr.C56_accepted",
    "Fmr.C56_accepts_iff",
    "Fmr.C56_false"
   ],
   "note": "False for a text that is U+FFFD, which is accepted (C56_false). Proved both ways for texts without U+FFFD (it ends the text, or makes the parser loop, C27_false_unknown); the part of the text after the include directives."
  },
  {
   "property": "C57",
   "status": "partial",
   "theorems": [
    "Fmr.C57_partial",
    "Fmr.C57_false"
   ],
   "note": "False: a rule from which no literal found in the text is reachable is never tried, although it may match by (any) or a regexp (C57_false). C57_partial: the slots are exactly the derivable spans of the rules that are tried (no empty derivations, uniform bounds)."
  },
  {
   "property": "C58",
   "status": "proved",
   "theorems": [
    "Fmr.C58_chart",
    "Fmr.C58_exhaustive",
    "Fmr.C58_longest",
    "Fmr.C58_trees"
   ],
   "note": "C58_chart holds for every grammar, with nullable rules too. C58_trees: the trees of a match that ends in the prefix are the same."
  },
  {
   "property": "C59",
   "status": "partial",
   "theorems": [
    "Fmr.C59_mirrors",
    "Fmr.C59_trees",
    "Fmr.C59_laid",
    "Fmr.C59_partial",
    "Fmr.C59_false",
    "Fmr.C59_layout_false"
   ],
   "note": "C59_mirrors: Tree returns exactly the object mirroring the tree, for all trees. False in general: Tree panics for nodes over no token at the ends (C59_false), and other nodes over no token can lie outside their parent (C59_layout_false). C59_trees: Tree panics exactly if an object would be for an empty node at an end of the token list, for all grammars and texts. C59_laid, C59_partial: if all objects are for nodes over tokens, they are laid out in the text given by the caller, and in the trimmed text if it has no white space in front."
  },
  {
   "property": "C60",
   "status": "partial",
   "theorems": [
    "Fmr.C60_sum_partial",
    "Fmr.C60_sub_partial",
    "Fmr.C60_mul_partial",
    "Fmr.C60_neg_partial",
    "Fmr.C60_false",
    "Fmr.C60_rounded",
    "Fmr.C60_unreadable",
    "Fmr.C60_shown",
    "Fmr.C60_chained"
   ],
   "note": "False: results of more than ten digits are printed with an exponent and rounded (C60_false, C60_rounded), and zeros can have a sign. C60_shown says what is printed for every result of arguments below 2^64: its sign and its first ten digits, rounded to even. C60_chained: texts printed this way can be used as arguments again. The partial theorems say for arguments below 2^64 exactly when the text is right. math/big is modelled from its published behaviour."
  },
  {
   "property": "C61",
   "status": "partial",
   "theorems": [
    "Fmr.C61_sum_partial",
    "Fmr.C61_sub_partial",
    "Fmr.C61_mul_partial",
    "Fmr.C61_neg_partial",
    "Fmr.C61_cancel",
    "Fmr.C61_false"
   ],
   "note": "False: 9999999999.1 - 9999999999 gives 0.09999999963 (C61_cancel). Proved exact if the result has at most ten significant digits, lies between 0.0001 and 10^10, and (sum, sub) the arguments do not cancel by a factor of more than 3*10^7."
  },
  {
   "property": "C62",
   "status": "partial",
   "theorems": [
    "Fmr.C62_error",
    "Fmr.C62_partial",
    "Fmr.C62_exact",
    "Fmr.C62_unreadable",
    "Fmr.C62_zero",
    "Fmr.C62_overflow",
    "Fmr.C62_out_of_range",
    "Fmr.C62_large",
    "Fmr.C62_false",
    "Fmr.C62_signed_zero"
   ],
   "note": "False: 10^15/3 gives 333333333333333.312500 (C62_large). Proved: the error bound for all decimal texts (C62_error), correct rounding for integers with dividend up to 4.5*10^9 (C62_partial), exact integer quotients up to 2^53 (C62_exact), the unreadable cases. float64 is modelled by correct rounding."
  },
  {
   "property": "C63",
   "status": "partial",
   "theorems": [
    "Fmr.C63_partial",
    "Fmr.C63_even"
   ],
   "note": "Assumes the documented contract of ProbablyPrime. Missing: from 2^64 on that contract allows a composite number to be accepted with a small probability."
  },
  {
   "property": "C64",
   "status": "proved",
   "theorems": [
    "Fmr.C64_optional",
    "Fmr.C64_certificate",
    "Fmr.C64_sharp"
   ],
   "note": "Condition NullSafe on the grammar (Spec/NullSafe.lean); each of its parts is shown to be needed by a grammar where a match is lost."
  },
  {
   "property": "C65",
   "status": "proved",
   "theorems": [
    "Fmr.C65_column",
    "Fmr.C65_total",
    "Fmr.C65_steps"
   ],
   "note": "For grammars whose list items are never empty (part of the statement) and distinct start rules. dotted, anyTerms and listTerms count the dotted productions, (any) terms and (list) terms of the grammar."
  },
  {
   "property": "C66",
   "status": "partial",
   "theorems": [
    "Fmr.C66_partial",
    "Fmr.C66_longest_partial",
    "Fmr.C66_false"
   ],
   "note": "False: one more alternative can make the parser lose a match when optional parts are placed unsafely (C66_false). Proved if the larger grammar is NullSafe and the smaller one has uniform bounds."
  },
  {
   "property": "C67",
   "status": "proved",
   "theorems": [
    "Fmr.C67_string",
    "Fmr.C67_file",
    "Fmr.C67_runes"
   ],
   "note": "The byte-level parser is a second model (Model/Bytes.lean: programs over next/backup, run on bytes); the claim relates it to the rune-level model used everywhere else."
  },
  {
   "property": "C68",
   "status": "partial",
   "theorems": [
    "Fmr.C68_string",
    "Fmr.C68_file",
    "Fmr.C68_unique",
    "Fmr.C68_partial",
    "Fmr.C68_false",
    "Fmr.C68_positioned",
    "Fmr.C68_positioned_file",
    "Fmr.C68_number"
   ],
   "note": "False for the row: a newline at the beginning of the text is not counted (C68_false). Proved: the position is that of a rune of the text, row and column determine it, and the row is the line number if the text does not begin with a newline and the rune is no newline (C68_partial). Every error in a text has a position if the library functions accept what the parser gives them (C68_positioned); fmt.Sscan refuses `-.`, and this error has none (C68_number)."
  },
  {
   "property": "C69",
   "status": "proved",
   "theorems": [
    "Fmr.C69_string",
    "Fmr.C69_alone"
   ],
   "note": "For texts without U+FFFD or invalid bytes, as stated; errors inside included files are excluded."
  },
  {
   "property": "C70",
   "status": "proved",
   "theorems": [
    "Fmr.C70_lines",
    "Fmr.C70_print",
    "Fmr.C70_string",
    "Fmr.C70_distinct",
    "Fmr.C70_loaded"
   ],
   "note": "Assumes that a newline is not printable (strconv.IsPrint) and that a big.Float prints without quotes, braces and newlines. C70_loaded: loaded grammars meet the condition on names, up to the names made from literals."
  },
  {
   "property": "C71",
   "status": "partial",
   "theorems": [
    "Fmr.C71_states",
    "Fmr.C71_chart",
    "Fmr.C71_partial",
    "Fmr.C71_false"
   ],
   "note": "False: bounds of (any{m,n}) and (list<x>{m,n}) are not printed, so different states look the same (C71_false). Proved: the text determines everything that is printed (C71_states, C71_chart), and for grammars whose alternatives and terms differ in more than bounds and flags no two states of a column are printed alike (C71_partial)."
  },
  {
   "property": "C72",
   "status": "partial",
   "theorems": [
    "Fmr.C72_partial",
    "Fmr.C72_false"
   ],
   "note": "False: only the root and its children are printed; the two readings of an ambiguous text look the same (C72_false). Proved for the root and its children."
  },
  {
   "property": "C73",
   "status": "partial",
   "theorems": [
    "Fmr.C73_language",
    "Fmr.C73_string_partial",
    "Fmr.C73_file_partial",
    "Fmr.C73_false"
   ],
   "note": "The language is preserved from the texts to the parser for all grammars (C73_language); the result of Parse follows for texts whose ranges are uniform and whose optional parts are placed safely (WholeSafe, a condition on the written alternatives), as in C01 and C02. False without these conditions: two rules for the empty literal are refined to one rule, and a match is lost (C73_false). Assumes no colliding hashes, equal flags for equal literals, names of literals distinct over several files, no use of reserved names."
  },
  {
   "property": "C74",
   "status": "partial",
   "theorems": [
    "Fmr.C74_fails",
    "Fmr.C74_alternatives_partial",
    "Fmr.C74_derives_partial",
    "Fmr.C74_false"
   ],
   "note": "False for every 64-bit hash: of two alternatives of a rule with the same hash one is lost (C74_false). Proved when the alternatives of a rule have distinct hashes; when the grammar can be made (C74_fails) is proved in general."
  },
  {
   "property": "C75",
   "status": "partial",
   "theorems": [
    "Fmr.C75_any_string_partial",
    "Fmr.C75_any_file_partial",
    "Fmr.C75_all_string_partial",
    "Fmr.C75_all_file_partial",
    "Fmr.C75_maxAll_string_partial",
    "Fmr.C75_maxAll_file_partial",
    "Fmr.C75_false"
   ],
   "note": "Same conditions as C73; ExtractMaxAll additionally needs that no start rule matches nothing (it does not return otherwise, see C18). False without the condition on optional parts, for all three calls (C75_false)."
  },
  {
   "property": "C76",
   "status": "partial",
   "theorems": [
    "Fmr.C76_trees",
    "Fmr.C76_sound",
    "Fmr.C76_calls_partial",
    "Fmr.C76_false"
   ],
   "note": "The trees of the grammars in the parser are exactly the trees of what is written (C76_trees), and all calls return only such trees up to the bounds of ranges (C76_sound), for every grammar that loads. With the bounds of each term false (C76_false: bounds confused between alternatives); with uniform ranges and safely placed optional parts, what the calls return is stated in terms of the texts alone (C76_calls_partial). With C42 the printed and evaluated meanings are those of the written functions. Same assumptions on texts and documents as C73."
  },
  {
   "property": "C77",
   "status": "partial",
   "theorems": [
    "Fmr.C77_frames_partial",
    "Fmr.C77_prints_partial",
    "Fmr.C77_false"
   ],
   "note": "False: rules that no word found in the text leads to are not tried and get no slot (C77_false). Proved with the slots of references restricted to the rules that are tried (Tried, over the written definitions), for frames in the main file, uniform ranges, nothing optional, distinct keys of the terms of an alternative, and the assumptions on texts and documents of C73."
  },
  {
   "property": "C78",
   "status": "partial",
   "theorems": [
    "Fmr.C78_meanings",
    "Fmr.C78_partial",
    "Fmr.C78_false"
   ],
   "note": "With the bounds of each term false (C78_false: bounds confused between alternatives, as C76); a part without tokens at the edge of the tokens makes Eval panic (C42_empty_leaf_panics). Proved for every grammar that loads and every tree without such parts, up to the bounds of ranges (C78_meanings), and with uniform ranges and nothing optional in terms of the texts alone (C78_partial). Assumes that functions return, and the assumptions on texts and documents of C73."
  },
  {
   "property": "C79",
   "status": "partial",
   "theorems": [
    "Fmr.C79_partial",
    "Fmr.C79_file_partial",
    "Fmr.C79_loads",
    "Fmr.C79_loads_file",
    "Fmr.C79_rejected_partial",
    "Fmr.C79_loaded",
    "Fmr.C79_loaded_file",
    "Fmr.C79_false"
   ],
   "note": "False for texts with U+FFFD (C79_false: a comment that holds it is rejected). Proved as an equivalence for strings and files without it (C79_partial, C79_file_partial), with one result for all sufficient bounds (C79_loads, C79_loads_file), if the hash of terminals and the index do not fail, finitely many files are included, and no two alternatives of a text have the same hash (else one of them is lost, see C24). Other texts are rejected with an error if no text ends inside a // comment (C79_rejected_partial; else loading does not return, see C27). Every grammar that is loaded satisfies the assumption LoadedFrom of C76 to C78 (C79_loaded, C79_loaded_file)."
  },
  {
   "property": "C80",
   "status": "proved",
   "theorems": [
    "Fmr.C80_unique",
    "Fmr.C80_targets",
    "Fmr.C80_files"
   ],
   "note": "For every text without U+FFFD, which the loader cannot read."
  },
  {
   "property": "C81",
   "status": "partial",
   "theorems": [
    "Fmr.C81_partial",
    "Fmr.C81_loads",
    "Fmr.C81_false",
    "Fmr.C81_ambiguous"
   ],
   "note": "False from 10^10 on: values are printed with ten significant digits and an exponent (C81_false: 一百亿 evaluates to 1e+10). Proved for all n < 10^16: every tree covers the text and evaluates to n with ten significant digits (TenDigitText, Spec/Printed.lean), which are the digits of n exactly below 10^10. C81_loads: the shipped text is accepted by the loader. C81_ambiguous: a colloquial text outside the numerals of Spec/Numerals.lean, 一百二, has both 120 and 102 as meanings."
  },
  {
   "property": "C82",
   "status": "partial",
   "theorems": [
    "Fmr.C82_partial",
    "Fmr.C82_returned",
    "Fmr.C82_diverges",
    "Fmr.C82_false",
    "Fmr.C82_not_enough"
   ],
   "note": "False: for a column with an unbounded list and an empty match of its item it does not return (C82_diverges, C82_false). Proved if every (list<x>) has bounds or an item that cannot be empty; what it returns is closed and right for all grammars (C82_returned). The only call (earley.go:185) is commented out, and would not make the parser complete (C82_not_enough)."
  },
  {
   "property": "C83",
   "status": "partial",
   "theorems": [
    "Fmr.C83_loads_partial",
    "Fmr.C83_fits_partial",
    "Fmr.C83_rejected",
    "Fmr.C83_error",
    "Fmr.C83_false"
   ],
   "note": "False: examples/builtin/any.grammar is rejected, since its literal \"(\" is taken for the start of flags (C83_rejected, C83_error, C83_false). Proved for the other 16 files, whose texts are copied in Model/Shipped.lean and Model/ShippedMore.lean, for every loader that reads them (ReadsShipped, Spec/Shipped.lean); it assumes that neither hashing nor the annotator fails and that no two alternatives of a file have the same hash."
  },
  {
   "property": "C84",
   "status": "partial",
   "theorems": [
    "Fmr.C84_calls_partial",
    "Fmr.C84_sure",
    "Fmr.C84_loads",
    "Fmr.C84_false"
   ],
   "note": "False: readings are lost. For nine minus two times three minus one, which can be bracketed in five ways with five values, Parse returns four trees (C84_false); this is the loss of C13 with a shipped grammar. Proved: the grammar can be loaded (C84_loads); the four calls find the expressions that the text contains, and for every tree Semantic prints a reading and Eval gives its value (C84_calls_partial); if all readings have the same value, then there are trees and all give it (C84_sure). A value of zero may be written -0. It assumes that the tokens of the literals are their words, and that sum, sub, mul and neg are registered."
  },
  {
   "property": "C85",
   "status": "partial",
   "theorems": [
    "Fmr.C85_partial",
    "Fmr.C85_loads",
    "Fmr.C85_false",
    "Fmr.C85_loose"
   ],
   "note": "False from 10^10 on: ten billion evaluates to 1e+10 (C85_false). Proved: the grammar can be loaded (C85_loads), and for every numeral below 10^12 Parse returns trees that cover the text and Eval of each of them writes the number with ten significant digits, which are all digits exactly below 10^10 (C85_partial). The grammar also takes other texts for numbers, like hundred thousand and zero (C85_loose). Not covered: trillions and decimals. It assumes that the literals are tokens, and that sum and mul are registered."
  },
  {
   "property": "C86",
   "status": "partial",
   "theorems": [
    "Fmr.C86_partial",
    "Fmr.C86_false",
    "Fmr.C86_missing",
    "Fmr.C86_eval",
    "Fmr.C86_english",
    "Fmr.C86_chinese"
   ],
   "note": "False: 13 of the 16 files call functions that are not registered, and exactly those in the table missingFuncs (C86_missing, C86_false); the other three call only registered ones (C86_partial). Eval of a tree whose expression has such a call is an error (C86_eval). For every number with decimals in English words (below 10^12 before the point) and in Chinese (below 10^16), Parse returns trees over the whole text and Eval of each of them is an error (C86_english, C86_chinese). It assumes that goutil.Call of a name that is not in its map gives an error (CallsOnly), and that no call panics or diverges (CallsReturn)."
  },
  {
   "property": "C87",
   "status": "partial",
   "theorems": [
    "Fmr.C87_partial",
    "Fmr.C87_negative",
    "Fmr.C87_unreadable",
    "Fmr.C87_root",
    "Fmr.C87_square",
    "Fmr.C87_cube",
    "Fmr.C87_cube_negative",
    "Fmr.C87_large",
    "Fmr.C87_edge",
    "Fmr.C87_special",
    "Fmr.C87_huge",
    "Fmr.C87_accurate",
    "Fmr.C87_text",
    "Fmr.C87_int_near",
    "Fmr.C87_false"
   ],
   "note": "False beyond 53 bits: pow(3,40) is 12157665459056928768.000000 (C87_large, C87_false), and -1 to an odd exponent beyond 2^53 is 1 (C87_edge). The cube root as the shipped grammars compute it, with the text 0.333333 of a third, is below n for every cube n^3 with n >= 2 (C87_cube) and NaN for every negative number (C87_cube_negative). Proved: powers are exact if the result is below 2^1024 and has 53 significant bits (C87_partial); negative exponents give the quotient (C87_negative); square roots of numbers below 2^53 are right up to six digits and one bit (C87_root), and exact for squares (C87_square). For all finite arguments with a result between 10^-300 and 10^300 and an exponent of at most 2^30, the sign is right and the relative error is at most (2|y|+2^15+4)/2^52, and (2|y|+2)/2^52 for integer exponents (C87_accurate, C87_text for the printed text, C87_int_near for integers, positive or negative); all the special cases that the Go documentation lists for math.Pow hold (C87_special), and exponents of 2^63 or more give zero, one or infinity without a sign (C87_huge). Exp(y*Log(x)), which only exponents with a fraction other than one half use, is a parameter; C87_cube, C87_accurate, C87_text and C87_int_near assume a relative error of at most 2^-40 (NearPow). math.Pow is that of the published Go library; platforms with an own implementation are not covered."
  },
  {
   "property": "C88",
   "status": "partial",
   "theorems": [
    "Fmr.C88_partial",
    "Fmr.C88_lost",
    "Fmr.C88_blank",
    "Fmr.C88_builtin_blank",
    "Fmr.C88_math_blank",
    "Fmr.C88_false"
   ],
   "note": "False: what comes after the last newline of the input is ignored, so a last line without newline is not answered (C88_false; C88_lost for all three example programs). Also, a blank line ends examples/arithmetic and examples/builtin with an error and no line after it is answered (C88_blank, C88_builtin_blank), while examples/math goes on (C88_math_blank). Proved: all complete lines are answered, from the text of the grammar file and the input to the output (C88_partial). It assumes that each line has a word and numbers of at most ten digits, that the tokens of a line are its words, and that the JavaScript engine gives the values of expressions after the script was run (JsCalc)."
  },
  {
   "property": "C89",
   "status": "partial",
   "theorems": [
    "Fmr.C89_partial",
    "Fmr.C89_loads",
    "Fmr.C89_trees",
    "Fmr.C89_below",
    "Fmr.C89_some",
    "Fmr.C89_only",
    "Fmr.C89_wrong",
    "Fmr.C89_two",
    "Fmr.C89_false"
   ],
   "note": "False: one hundred fifty thousand is read as 100 + 50 * 1000 (C89_false), and so is every numeral with a count of hundreds and more before thousand, million or billion: all its trees are for a smaller number (C89_wrong). Twenty one thousand without hyphen has a tree for 21000 and one for 20 + 1000 (C89_two). Proved: the grammar loads (C89_loads); Parse returns trees over the whole text for every numeral, Semantic prints the expression and Eval its value below 10^10 (C89_trees); no reading is greater than the number (C89_below); the number is a reading exactly if no count has hundreds and more (C89_some), and the only one exactly if in addition the counts are hyphenated (C89_only), so that then every tree is right (C89_partial). It assumes that the tokens of a numeral are its words, and that - and , are tokens of the literals with them (BiLoader)."
  },
  {
   "property": "C90",
   "status": "partial",
   "theorems": [
    "Fmr.C90_partial",
    "Fmr.C90_loads",
    "Fmr.C90_unambiguous",
    "Fmr.C90_value",
    "Fmr.C90_reads",
    "Fmr.C90_wrong",
    "Fmr.C90_zero",
    "Fmr.C90_false"
   ],
   "note": "False: of 十五 only 十 is read, so the answer is 10 (C90_false). Proved: no text, numeral or not, has two values (C90_unambiguous); a numeral that is read has the right value (C90_value); it is read exactly if it does not begin with 十 and a digit and has no 零 right after 万 (C90_reads), and then all trees are right (C90_partial). All other numerals are cut off without an error: Parse returns trees, all for the numeral of a smaller number in front, 10000 for 一万零五 (C90_wrong). In 零 nothing is found (C90_zero). The numerals are those with the plain characters of Spec/Numerals (zhNumber). It assumes that the tokens of a numeral are its characters."
  },
  {
   "property": "C91",
   "status": "partial",
   "theorems": [
    "Fmr.C91_partial",
    "Fmr.C91_exponential",
    "Fmr.C91_reached",
    "Fmr.C91_false"
   ],
   "note": "False: with <s> = <s> <t> | <t>; <t> = <p> | <q>; <p> = \"a\"; <q> = \"a\" a text of n tokens has exactly 2^n trees (C91_exponential, C91_reached), which no polynomial bounds (C91_false), while the chart stays polynomial (C65). Proved: the number of trees is at least one and at most the number of derivation trees that look different, and one if there is one (C91_partial)."
  },
  {
   "property": "C92",
   "status": "partial",
   "theorems": [
    "Fmr.C92_partial",
    "Fmr.C92_graded_partial",
    "Fmr.C92_unambiguous_partial",
    "Fmr.C92_false"
   ],
   "note": "False: with <s> = <y>; <y> = <p> | <q> | <r> <c>; <p> = \"a\"; <q> = <r>; <r> = \"a\"; <c> = \"c\" the text a has one tree or two, depending on the order in which the alternatives of <y> come out of the map (C92_false); the matches are the same (C06). Proved: the trees are the same up to their order if derivation trees for the same symbol and tokens have right spines of equal length (C92_partial), for all texts of graded grammars (C92_graded_partial), and for unambiguous inputs (C92_unambiguous_partial)."
  },
  {
   "property": "C93",
   "status": "proved",
   "theorems": [
    "Fmr.C93_names",
    "Fmr.C93_same_order",
    "Fmr.C93_meanings",
    "Fmr.C93_unreachable",
    "Fmr.C93_merge",
    "Fmr.C93_context",
    "Fmr.C93_prefix",
    "Fmr.C93_prefix_tree"
   ],
   "note": "For every iteration order of the renamed grammar there is one of the original grammar such that charts, final states and trees agree up to the names (C93_names); with corresponding orders the runs agree step by step (C93_same_order). Without context arguments all trees have the same Semantic and Eval (C93_meanings). Unreachable rules change nothing at all (C93_unreachable). Where names matter: two rules with equal alternatives must not share a name (C93_merge), the context @ contains names (C93_context), and Bracketed and Tree take rules called l_t_... or g_t_... for literals and leave out their subtrees (C93_prefix, C93_prefix_tree)."
  },
  {
   "property": "C94",
   "status": "proved",
   "theorems": [
    "Fmr.C94_math",
    "Fmr.C94_plain",
    "Fmr.C94_builtin",
    "Fmr.C94_math_calc",
    "Fmr.C94_builtin_numbers",
    "Fmr.C94_builtin_numerals",
    "Fmr.extractWith_snd"
   ],
   "note": "For every engine, also one that fails on some texts: examples/math with -eval (C94_math), without it (C94_plain), and examples/builtin (C94_builtin), from the meanings of the parts that EarleyParseMaxAll finds; an engine error hides a reading in examples/math and shows the value that comes with the error in examples/builtin, and neither ends the program. From the texts of the grammar files: arithmetic.grammar in examples/math (C94_math_calc) and builtin.grammar in examples/builtin (C94_builtin_numbers), and with an engine that calculates, every line with a numeral that has a single value by C89 is answered with that value (C94_builtin_numerals). Lines without newline and blank lines are in C88."
  },
  {
   "property": "C95",
   "status": "proved",
   "theorems": [
    "Fmr.C95_names",
    "Fmr.C95_contracts",
    "Fmr.C95_eval",
    "Fmr.C95_questions",
    "Fmr.C95_integers",
    "Fmr.C95_fractions"
   ],
   "note": "The table of funcs.go and math_funcs.go and Call through it are modelled for arguments that the function can take; what goutil.Call does with others (too many, or of another type) is a parameter. The names that can be called are exactly the registered ones (C95_names), the contracts HasBuiltins, HasMath, HasCalc and CallsOnly of C46, C83-C86 and C90 follow (C95_contracts), Eval of a call gives the function's result (C95_eval), and this is parity and primality (C95_questions), integer arithmetic (C95_integers), quotients and powers (C95_fractions) by C47, C60-C63 and C87."
  },
  {
   "property": "C96",
   "status": "partial",
   "theorems": [
    "Fmr.C96_calls_partial",
    "Fmr.C96_false"
   ],
   "note": "False: if one rule has the literal y! and another the literal y, then y is matched by the first rule exactly if the second one is in another file (C96_false), since generated names leave out punctuation and are made distinct within a file only. Proved for all four calls if, in case there are several files, the words of a literal identify it (LiteralsApart), with the conditions of C76 on ranges and optional parts, which are shown to depend on what is written only (C96_calls_partial)."
  },
  {
   "property": "C97",
   "status": "proved",
   "theorems": [
    "Fmr.C97_calls",
    "Fmr.C97_texts",
    "Fmr.C97_local",
    "Fmr.C97_unknown",
    "Fmr.C97_fields",
    "Fmr.C97_text",
    "Fmr.C97_case",
    "Fmr.C97_lemma",
    "Fmr.C97_parse",
    "Fmr.C97_class"
   ],
   "note": "All four calls, trees literally equal. If all literals have the flag i (l), case (inflection) does not matter (C97_case, C97_lemma). The condition on the names of local rules is needed: with a rule that refers to <word> the texts ab and a! differ (C97_class)."
  },
  {
   "property": "C98",
   "status": "proved",
   "theorems": [
    "Fmr.C98_calls",
    "Fmr.separate_parse",
    "Fmr.C98_any"
   ],
   "note": "Trees literally equal, since a tree counts tokens from the offset of its parse. Stated for calls on the whole text that return; that they return is C05, C11 and C18. The condition on (any) is needed: with <s> = \"a\" (any) | \"a\" the text a!a is one match (C98_any)."
  },
  {
   "property": "C99",
   "status": "partial",
   "theorems": [
    "Fmr.C99_partial",
    "Fmr.C99_false",
    "Fmr.C99_nothing",
    "Fmr.C99_forever",
    "Fmr.C99_loop",
    "Fmr.wordy_iff"
   ],
   "note": "False of the code (C99_false): Rule.Name is tagged json:\"-\", so a grammar that was read finds nothing in any text (C99_nothing), and if an alternative of a start rule begins with that rule and has a range or an index, number or call in its function, parsing never ends on any text, even with the names put back (C99_forever, C99_loop), since the decoded values equal nothing, not even themselves. C99_partial: with the names put back a grammar without includes is the old one exactly if it has no ranges and no arguments but strings. encoding/json is a contract."
  },
  {
   "property": "C100",
   "status": "partial",
   "theorems": [
    "Fmr.C100_partial",
    "Fmr.C100_false",
    "Fmr.C100_shown"
   ],
   "note": "False of the code, both ways (C100_false): the slots are pointers and %+v follows a pointer only at the top, so addresses are printed instead of slots. Proved exactly what the text tells: the flag, the keys, and for each key the addresses of its slots in order, independently of map order (C100_partial). fmt is a contract."
  },
  {
   "property": "C101",
   "status": "proved",
   "theorems": [
    "Fmr.C101_calls",
    "Fmr.C101_trees",
    "Fmr.C101_longer"
   ],
   "note": "Stated for the four calls at the level of matches and trees, up to differences of tokens that reachable literals do not see; names of reachable rules must not be those of local rules. C101_longer: what was found may be replaced by a longer match."
  },
  {
   "property": "C102",
   "status": "partial",
   "theorems": [
    "Fmr.C102_read",
    "Fmr.C102_partial",
    "Fmr.C102_false"
   ],
   "note": "False: refine names the rule of a literal after its words in ASCII; 前, 千 and 仟 all become g_t_Qian, in the including file and in the number grammar, and the rules of both files are united by name. C102_read: then 前 is parsed as a number, for every map order. C102_partial: it is not where different literals have different transcriptions."
  },
  {
   "property": "C103",
   "status": "proved",
   "theorems": [
    "Fmr.C103_calls",
    "Fmr.alone_parse"
   ],
   "note": "For EarleyParseMaxAll, EarleyParseAny and ExtractAll, up to differences of tokens that reachable literals do not see; names of reachable rules must not be those of local rules. The map orders met in the part alone are those of some parse of the whole text."
  },
  {
   "property": "C104",
   "status": "partial",
   "theorems": [
    "Fmr.C104_exact",
    "Fmr.C104_partial",
    "Fmr.C104_meanings",
    "Fmr.C104_away",
    "Fmr.C104_mixed",
    "Fmr.C104_false"
   ],
   "note": "False: with the regexp a$ the text a!a has two matches (C104_away, C104_false), and if the first a is tagged as a company and the second as a fruit, both are found as both (C104_mixed). C104_exact: a tag is found exactly at the places that have the words of a tagged place; C104_meanings: with all meanings of such places. C104_partial: the claim where all places with the words of a tagged place are tagged. Names that are neither classes of tokens nor rules of the grammar; distinct hashes, as C74."
  },
  {
   "property": "C105",
   "status": "partial",
   "theorems": [
    "Fmr.C105_partial",
    "Fmr.C105_alone_partial",
    "Fmr.C105_order",
    "Fmr.C105_false"
   ],
   "note": "False: only one start rule is reported (C105_false), and which one depends on the order of map iteration, so two runs of Parse on the same text can return trees of different rules (C105_order). C105_partial: a rule that matches the longest piece is reported if no other start rule matches the same piece. C105_alone_partial: what is reported is what its start rule finds alone, and no start rule finds more alone. Conditions as C01 and C02."
  },
  {
   "property": "C106",
   "status": "partial",
   "theorems": [
    "Fmr.C106_exact",
    "Fmr.C106_partial",
    "Fmr.C106_thirds",
    "Fmr.C106_false"
   ],
   "note": "False: div rounds to millionths before mul is called, so a third of six is 1.999998 (C106_false) and a third of 3k is k millionths less than k for every k up to 10000 (C106_thirds). C106_exact: the result is right if and only if b divides 10^6 * a. C106_partial: the claim if it does. For |a| up to 4500000000 and |b| below 2^53, results of ordinary size as in C61."
  },
  {
   "property": "C107",
   "status": "partial",
   "theorems": [
    "Fmr.C107_partial",
    "Fmr.C107_words_partial",
    "Fmr.C107_kept",
    "Fmr.C107_race",
    "Fmr.C107_false"
   ],
   "note": "False: refine asks for a token and then puts it, in two steps. A goroutine that found a token missing may replace it after another one has loaded its grammar and begun to parse; if the lemmas differ, the match is lost in the middle of the parse (C107_race, C107_false). C107_kept: a token stays if nobody has just found it missing. C107_partial: then the parse is undisturbed. C107_words_partial: also if the lemma and norm of a token depend on its text only. parseAt (Model/ParseAt.lean) lets each call of terminalMatch see another state of the registry."
  },
  {
   "property": "C108",
   "status": "partial",
   "theorems": [
    "Fmr.C108_grammar",
    "Fmr.C108_partial",
    "Fmr.C108_before",
    "Fmr.C108_false"
   ],
   "note": "The loaded grammar and index never depend on the registry (C108_grammar). The trees do: the token that a literal with flags is compared with is the one of the first literal of the process that contains the word, and if lemmas depend on the neighbouring words, x is no longer matched by \"(?l)x\" once \"(?l)a x\" was loaded (C108_before, C108_false). C108_partial: the trees of all four calls are the same if the words of the literals with flags have one lemma and norm in all literals, in particular if the grammar has no flags."
  },
  {
   "property": "C109",
   "status": "partial",
   "theorems": [
    "Fmr.C109_parses",
    "Fmr.C109_trees",
    "Fmr.C109_semantic",
    "Fmr.C109_partial",
    "Fmr.C109_false"
   ],
   "note": "The parses (but for the text that they keep) and the trees of all four calls are the same (C109_parses, C109_trees), and so are the meanings of trees whose functions do not take the context @ (C109_semantic). Values differ: positions count from the trimmed text but the bytes are cut out of the text as given, so with a space in front of a the value is the space (C109_false, same cause as C21). C109_partial: white space at the end changes neither meanings nor values of any tree, context included."
  },
  {
   "property": "C110",
   "status": "partial",
   "theorems": [
    "Fmr.C110_context",
    "Fmr.C110_partial",
    "Fmr.C110_distinct",
    "Fmr.C110_order",
    "Fmr.C110_asked",
    "Fmr.C110_false"
   ],
   "note": "The query of the request says exactly the context, for all addresses and contexts (C110_context), so that different contexts are asked at different addresses (C110_distinct); it does not depend on the order of the map (C110_order); C110_asked connects this with the calls. False for the other parameters: one with a semicolon is left out without an error (C110_false: of ?a=1;2 nothing is left). C110_partial: without semicolons all other parameters are kept."
  },
  {
   "property": "C111",
   "status": "partial",
   "theorems": [
    "Fmr.C111_parse",
    "Fmr.C111_first",
    "Fmr.C111_any_partial",
    "Fmr.C111_maxAll_partial",
    "Fmr.C111_partial",
    "Fmr.C111_matches_partial",
    "Fmr.C111_false"
   ],
   "note": "Proved for all grammars if the calls meet the same map orders: Parse and ParseAny return the same list if Parse finds something (C111_parse), the list of ParseAny is a prefix of those of ExtractMaxAll (C111_first) and ExtractAll (C111_any_partial), and the list of ExtractMaxAll is a sublist of that of ExtractAll (C111_maxAll_partial). False if the orders differ (C111_false: Parse finds x and ExtractAll nothing, the loss of C06). C111_matches_partial: the matches agree whatever the orders if optional parts are placed safely."
  },
  {
   "property": "C112",
   "status": "partial",
   "theorems": [
    "Fmr.C112_partial",
    "Fmr.C112_annotated",
    "Fmr.C112_false",
    "Fmr.same_place"
   ],
   "note": "Proved for all grammars and all texts without white space in front (C112_partial); for all texts, references are where they say in the trimmed text (C112_annotated). False for texts with white space in front (C112_false): for ` ab` the literal and the reference of [f] = \"a\" <s> get the same place (same_place). Contract: the trie reports true occurrences."
  },
  {
   "property": "C113",
   "status": "partial",
   "theorems": [
    "Fmr.C113_partial",
    "Fmr.C113_file_partial",
    "Fmr.C113_includes_partial",
    "Fmr.C113_file_includes_partial",
    "Fmr.C113_silent",
    "Fmr.C113_false"
   ],
   "note": "Proved for all byte strings and files: if loading succeeds, the text is UTF-8 without U+FFFD or its first rune cannot be read (C113_partial, C113_file_partial), and so is every file that it includes, however deep (C113_includes_partial, C113_file_includes_partial). In the latter case loading always succeeds, with a grammar without rules (C113_silent), for instance on a grammar in UTF-16 (C113_false)."
  },
  {
   "property": "C114",
   "status": "proved",
   "theorems": [
    "Fmr.C114_frames",
    "Fmr.C114_fmr"
   ],
   "note": "C114_frames: the frames are the same but for positions and the texts kept by the parses, and panics, errors and unfinished runs are the same. C114_fmr: the meanings are the same up to the order in which the map of frames is visited. Premise: MultiMatch, which is external, finds the same words in both texts, each as many times (SameWords), in the same order; in Go the order is that of a map, so runs are compared that resolve it alike."
  },
  {
   "property": "C115",
   "status": "proved",
   "theorems": [
    "Fmr.C115_string",
    "Fmr.C115_file"
   ],
   "note": "What a text says is given by the relation TextSays (include files in order, definitions, regexps), which allows any white space and comments where the syntax does. The results of loading are equal, including the index, the registry and the log of files. Files that are the same in both worlds need not be in the syntax. Premises: the texts can be decoded, and structhash does not fail for an alternative."
  },
  {
   "property": "C116",
   "status": "partial",
   "theorems": [
    "Fmr.C116_calls_partial",
    "Fmr.C116_remove_partial",
    "Fmr.C116_false"
   ],
   "note": "False: including a file with a rule nobody uses, whose literal is y, makes a rule with the literal y! match y (C116_false). Proved for all four calls if both sets of files meet the conditions of C76, in particular that the words of a literal identify it, also among the rules that are not used (C116_calls_partial). If the second set is the first with rules added, the conditions on the larger set suffice, with the one on literals for the smaller set if it has several files (C116_remove_partial). That these conditions are needed for the unused rules in full is not shown."
  },
  {
   "property": "C117",
   "status": "partial",
   "theorems": [
    "Fmr.C117_calls_partial",
    "Fmr.C117_false"
   ],
   "note": "False: y is found with a file that includes the rule for y, but not with one that contains that rule itself (C117_false). Proved for all four calls if the larger set of files meets the conditions of C76, and if in the smaller one, in case it has several files, the words of a literal identify it (C117_calls_partial); the other conditions on the smaller set follow. C66 says this of chart parsing for a given grammar; here it is about the texts of files."
  },
  {
   "property": "C118",
   "status": "partial",
   "theorems": [
    "Fmr.C118_calls_partial",
    "Fmr.C118_false"
   ],
   "note": "False: a rule with the literal y! matches y if a rule with the literal y is included, but not if that rule is pasted in (C118_false). Proved for all four calls if the grammar with includes meets the conditions of C76, in particular that the words of a literal identify it (C118_calls_partial). That the pasted text includes nothing, what its definitions are and which table its regexps make is proved; that it loads, and that structhash tells its alternatives apart, is a premise."
  }
 ]
}