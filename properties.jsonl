{"id": "C01", "title": "A reported match is a genuine derivation", "statement": "Whenever Grammar.EarleyParse (or any of the Parse*/Extract* entry points built on it) reports a final state for start rule S ending at token j, the first j tokens really are derivable from <S> by the rules of the grammar, its includes and the local grammar, where (any{m,n}) stands for m..n arbitrary tokens, (list<x>{m,n}) for m..n consecutive <x>, and an un-ranged (any)/(list<x>) for one or more.", "quantifier": "every set of grammars, every list of start rules, every token sequence, every map iteration order", "why_tests_cant": "There are infinitely many grammars and texts; a test checks a handful of accepted texts and cannot exclude a spurious acceptance.", "anchors": ["earley.go:parse", "earley.go:complete", "earley.go:scan", "earley.go:predict", "earley.go:isCompleted"]}
{"id": "C02", "title": "No derivable match is missed", "statement": "If <S> derives the first j tokens of the text then EarleyParse's chart contains a completed final state for S ending at column j.", "quantifier": "every grammar (left-recursive, cyclic, ambiguous, nullable ...), every token sequence and every j", "why_tests_cant": "Completeness is a statement about all derivations of all grammars; tests only show specific sentences being accepted.", "anchors": ["earley.go:parse", "earley.go:complete", "earley.go:handleEpsilons (commented out call)"]}
{"id": "C03", "title": "Longest match is selected", "statement": "EarleyParse/Parse report at most one final state, it is a completed start-rule state, and no completed start-rule state ends at a later token; they report none exactly when no start rule matches any prefix.", "quantifier": "every grammar, start list and token sequence", "why_tests_cant": "Maximality quantifies over all other matches of an unbounded grammar.", "anchors": ["earley.go:parse (maxFlag)", "api.go:EarleyParse"]}
{"id": "C04", "title": "Exhaustive mode reports every matching prefix", "statement": "In exhaustive mode (EarleyParseAll) the final states returned for one start offset are exactly the completed start-rule states of the chart: every length j for which some start rule derives the first j tokens is present, and they are listed by non-increasing end.", "quantifier": "every grammar, start list and token sequence", "why_tests_cant": "Needs soundness and completeness for all lengths at once.", "anchors": ["earley.go:parse", "api.go:EarleyParseAllWithContext"]}
{"id": "C05", "title": "Parsing always terminates", "statement": "EarleyParse returns for every grammar, including left-recursive, cyclic, nullable and list-of-nullable grammars, and every token list, whatever order Go iterates the rule maps in.", "quantifier": "every grammar whose rule bodies were produced by the grammar parser, every token list, every map iteration order", "why_tests_cant": "Non-termination cannot be observed by a finite test run, and the space of recursive grammars is infinite.", "anchors": ["earley.go:parse", "earley.go:insertToEnd"]}
{"id": "C06", "title": "Results do not depend on map iteration order", "statement": "Running the same parse twice yields the same set of chart states and hence the same set of matches, although Go randomises the iteration order of the rule bodies on every call to predict.", "quantifier": "every grammar, text and every pair of iteration-order schedules", "why_tests_cant": "The scheduler randomness is exponential in the number of predictions; re-running a test samples a few orders.", "anchors": ["earley.go:predict", "types.go:Rule.Body"]}
{"id": "C07", "title": "Chart columns contain no duplicate states", "statement": "After any parse no column of the chart holds two equal states with a dot in a different row (apart from duplicate start rules passed by the caller), each state's End is its column index, and Start<=End.", "quantifier": "every grammar, text, iteration order and every point of the execution", "why_tests_cant": "An invariant over all intermediate states of the algorithm.", "anchors": ["earley.go:insertToEnd", "earley.go:TableState.Equal"]}
{"id": "C08", "title": "Parsing never indexes out of range or dereferences nil", "statement": "While filling the chart, every access columns[state.Start], Rb.Terms[Dot] and every dereference of Rb is in range / non-nil.", "quantifier": "every grammar, text, iteration order, every step of the loop", "why_tests_cant": "Panics on unreached combinations are not found by testing.", "anchors": ["earley.go:getNextTerm", "earley.go:complete", "earley.go:isCompleted"]}
{"id": "C09", "title": "Range bounds of (any{m,n}) and (list<x>{m,n}) are respected", "statement": "A term (any{m,n}) never absorbs fewer than m or more than n tokens, and (list<x>{m,n}) never fewer than m or more than n items, in any reported match or tree, even if other rules use other bounds at the same place.", "quantifier": "every grammar mixing several (any)/(list) terms with different bounds, every text", "why_tests_cant": "The failure needs two differently-bounded terms competing at one position.", "anchors": ["earley.go:complete (meta ignored)", "earley_ast.go:buildTreesHelper (meta ignored)"]}
{"id": "C10", "title": "Every returned tree is a valid derivation tree", "statement": "Every Node returned by GetTrees is a derivation tree: the root expands the start rule, each inner node's children match one of the rule bodies of its nonterminal term by term, siblings are contiguous, the first child starts where the parent starts and the last ends where it ends, each terminal leaf matches its token.", "quantifier": "every grammar whose terminals were split by the grammar loader, every text, every final state, every returned tree", "why_tests_cant": "Tree enumeration is exponential; tests look at a few trees.", "anchors": ["earley_ast.go:buildTrees", "earley_ast.go:buildTreesHelper"]}
{"id": "C11", "title": "GetTrees terminates and never panics", "statement": "GetTrees returns for every final state of every parse - also for cyclic grammars with infinitely many derivations - and no index is out of range.", "quantifier": "every grammar, text, iteration order, final state", "why_tests_cant": "Endless recursion depends on the shape of the whole chart.", "anchors": ["earley_ast.go:buildTreesHelper (st == state break)"]}
{"id": "C12", "title": "Every match has at least one tree", "statement": "For every final state reported by any Parse*/Extract* entry point, GetTrees returns at least one tree.", "quantifier": "every grammar, text, iteration order, final state", "why_tests_cant": "The 'st == state' cut-off could hide the only derivation in some chart order; only an argument over all charts excludes it.", "anchors": ["earley_ast.go:buildTreesHelper", "earley.go:complete"]}
{"id": "C13", "title": "GetTrees returns all parse trees", "statement": "GetTrees 'returns all possible parse results': every acyclic derivation tree of the matched span is among the returned trees.", "quantifier": "every grammar, text, final state, derivation tree", "why_tests_cant": "Missing trees in ambiguous grammars depend on completion order.", "anchors": ["earley_ast.go:GetTrees", "earley_ast.go:buildTreesHelper"]}
{"id": "C14", "title": "GetTrees returns no tree twice", "statement": "The trees returned for one final state are pairwise different.", "quantifier": "every grammar, text, final state", "why_tests_cant": "Quantifies over all pairs of an exponential set of trees.", "anchors": ["earley_ast.go:buildTreesHelper"]}
{"id": "C15", "title": "GetTrees can be called repeatedly", "statement": "Although GetTrees rewrites the Rb field of list states in the chart, calling it again, for the same or any other final state, in any order, returns the same trees as on the untouched chart.", "quantifier": "every chart, every history of GetTrees calls", "why_tests_cant": "Quantifies over call histories on mutated state.", "anchors": ["earley_ast.go:buildTrees (state.Rb = ...)"]}
{"id": "C16", "title": "Text of a tree is the text of its leaves", "statement": "The token span of a returned tree is the concatenation of the spans of its leaves in order: reading terminal and (any) leaves left to right gives exactly the tokens Start+1..End of the root, so NL() of a node is the join of its children's tokens.", "quantifier": "every grammar, text, returned tree and node in it", "why_tests_cant": "Structural induction over arbitrary trees.", "anchors": ["node_methods.go:NL", "earley_ast.go:buildTreesHelper"]}
{"id": "C17", "title": "ParseAny finds the leftmost match", "statement": "EarleyParseAny returns a parse with a final state iff some suffix of the token list has one, and the one it returns starts at the leftmost such token.", "quantifier": "every grammar, start list, token list", "why_tests_cant": "Quantifies over all offsets and texts.", "anchors": ["api.go:EarleyParseAnyWithContext"]}
{"id": "C18", "title": "ExtractMaxAll terminates with greedy non-overlapping matches", "statement": "EarleyParseMaxAll terminates, its matches are non-overlapping, ordered, each is the longest at its offset, and every token not covered by a match is an offset where nothing matches.", "quantifier": "every grammar, start list, token list", "why_tests_cant": "Termination and maximality for all inputs; an empty match makes the loop spin.", "anchors": ["api.go:EarleyParseMaxAllWithContext"]}
{"id": "C19", "title": "ExtractAll finds every match at every offset", "statement": "EarleyParseAll returns, for each token offset in order, the exhaustive parse of that suffix exactly when it has a match; so (offset,end) pairs reported are exactly the spans derivable from a start rule.", "quantifier": "every grammar, start list, token list, all pairs of positions", "why_tests_cant": "Quadratically many spans for each of infinitely many texts.", "anchors": ["api.go:EarleyParseAllWithContext"]}
{"id": "C20", "title": "Error contract of the parse entry points", "statement": "The parse entry points return an error exactly when the text is blank, has no non-space tokens, no start rule was given, or annotation fails; otherwise they return a non-nil parse, and never both.", "quantifier": "every text, start list, annotator behaviour", "why_tests_cant": "All error branch combinations.", "anchors": ["api.go:process", "api.go:earleyParse", "api_easy.go:extract"]}
{"id": "C21", "title": "Pos and OriginalText denote the matched text", "statement": "Node.OriginalText is the part of the text passed by the caller that was matched: from the first byte of the node's first token to the last byte of its last token; Pos never panics.", "quantifier": "every text (including surrounding white space), every tree node (including nodes over zero tokens)", "why_tests_cant": "Off-by-offset errors only show for particular white space / empty nodes.", "anchors": ["node_methods.go:OriginalText", "node_methods.go:Pos", "earley_ast.go:Boundary", "api.go:process (TrimSpace)"]}
{"id": "C22", "title": "Equal is equality", "statement": "Term.Equal, RuleBody.Equal, FMR.Equal and TableState.Equal are equivalence relations that hold exactly for structurally identical values (including nil handling).", "quantifier": "all pairs/triples of values, including values with foreign dynamic types", "why_tests_cant": "Algebraic law over an infinite recursive type.", "anchors": ["types_util.go", "earley.go:TableState.Equal"]}
{"id": "C23", "title": "Terminal matching decision", "statement": "A terminal without flags matches a token iff the texts are equal; with flag l iff lemmas agree; with flag i (and no l) iff norms agree case-insensitively; flags without l and i match nothing; non-terminals and nil never match.", "quantifier": "all terms, tokens, flag strings, and contents of the token registry", "why_tests_cant": "Full decision table over unbounded strings.", "anchors": ["earley_terminal_match.go:terminalMatch"]}
{"id": "C24", "title": "Refinement preserves the language", "statement": "Splitting terminals into token rules (refine) does not change the language: a rule derives a token sequence after refinement iff it did before, reading a literal as the sequence of its non-space tokens matched with the literal's own flags.", "quantifier": "every grammar, every tokenizer, every iteration order, every token sequence", "why_tests_cant": "Language equality over infinite languages.", "anchors": ["grammar_refine.go:refine"]}
{"id": "C25", "title": "Refinement output invariants", "statement": "After refine each rule body consists either only of terminals or contains none, names introduced never clash with user rules or with each other, existing rules keep their bodies up to literal replacement, and refining twice changes nothing; the fresh-name search terminates.", "quantifier": "every grammar, tokenizer and transliteration function", "why_tests_cant": "Quantifies over all grammars and name clashes.", "anchors": ["grammar_refine.go:refine"]}
{"id": "C26", "title": "Literals of different files do not interfere", "statement": "A literal in one grammar file matches only its own text even when other files are included.", "quantifier": "every pair of files/grammars joined by include", "why_tests_cant": "The clash arises from generated names that coincide only for special literals.", "anchors": ["grammar_refine.go:refine (prefix g)", "earley.go:predict (all grammars)", "cfgrammar.go:grammar (includes)"]}
{"id": "C27", "title": "Loading a grammar text terminates", "statement": "GrammarFromString returns (a grammar or an error) for every input text.", "quantifier": "every text: unterminated comments, invalid UTF-8, U+FFFD ...", "why_tests_cant": "Non-termination on unusual input; infinite input space.", "anchors": ["cfgrammar.go", "cfgrammar_comments.go:lineComment", "cfgrammar.go:next", "cfgrammar.go:backup"]}
{"id": "C28", "title": "Grammar text round-trip", "statement": "Writing any well-formed rule set in the documented concrete syntax and loading it yields exactly that rule set: same names, alternatives, terms with flags and ranges, and semantic functions.", "quantifier": "every abstract grammar; every layout of white space", "why_tests_cant": "Round trip over an infinite recursive syntax.", "anchors": ["cfgrammar.go", "cfgrammar_fmr.go", "cfgrammar_special.go", "cfgrammar_terminal.go"]}
{"id": "C29", "title": "String literal escaping is lossless", "statement": "Every string can be written as a terminal or string argument and is read back unchanged using the escapes \\\\ \\n \\t \\\" \\(.", "quantifier": "every string", "why_tests_cant": "All strings, including leading spaces and parentheses.", "anchors": ["cfgrammar_terminal.go:terminal", "cfgrammar_terminal.go:terminalText"]}
{"id": "C30", "title": "Loaded grammars are well-formed", "statement": "In a successfully loaded grammar every alternative has at least one term, every range satisfies min<=max, every semantic function has a non-empty name and at least one argument, names are identifiers, and all argument values have the dynamic type their tag announces.", "quantifier": "every accepted text", "why_tests_cant": "Property of all outputs of a recursive parser.", "anchors": ["cfgrammar.go", "cfgrammar_fmr.go", "cfgrammar_special.go"]}
{"id": "C31", "title": "Numbers in ranges and indices are read exactly", "statement": "A decimal number written in {m,n} or after $ is read as its value.", "quantifier": "every digit string", "why_tests_cant": "Wrap-around only for long digit strings.", "anchors": ["cfgrammar.go:getInt"]}
{"id": "C32", "title": "No alternative is lost", "statement": "Every alternative written for a rule, in one or several definitions of the same name, is present in the loaded rule; alternatives are a set.", "quantifier": "every sequence of definitions and every hash function", "why_tests_cant": "Depends on hash collisions and on the merge order.", "anchors": ["cfgrammar.go:ruleBodies", "cfgrammar.go:grammar"]}
{"id": "C33", "title": "Includes: each file once, cycles terminate, everything visible", "statement": "Loading terminates for every include graph (also cyclic), each included path is read at most once, and the root grammar's includes contain every file reachable by include directives, and its regexps contain those of all included files.", "quantifier": "every finite file system and include graph", "why_tests_cant": "All graphs, cycles and diamonds.", "anchors": ["cfgrammar.go:grammarFromFile", "cfgrammar.go:grammarFromString", "cfgrammar.go:grammar"]}
{"id": "C34", "title": "Regexp tags cover exactly the regexp match", "statement": "Every span added for a grammar regexp starts at the first byte and ends at the last byte of a match of that regexp, and every match that starts and ends on token boundaries yields a span.", "quantifier": "every document, regexp and match list", "why_tests_cant": "All alignments of matches and tokens.", "anchors": ["regexp_tagger.go:regexpTag"]}
{"id": "C35", "title": "Token-class rules match exactly the tokens of the class", "statement": "The built-in rules <word>, <punct>, <symbol>, <letters> derive a single token iff the text contains a token of this class with the same text.", "quantifier": "every annotated document", "why_tests_cant": "All documents.", "anchors": ["local_grammar.go:localGrammar"]}
{"id": "C36", "title": "A tagged span is recognised", "statement": "For every tagged span (regexp or dictionary) of the text, the corresponding rule derives the token sequence of the span.", "quantifier": "every annotated document, including spans that contain white space", "why_tests_cant": "Needs the interplay of token filtering and span bodies for all spans.", "anchors": ["local_grammar.go:localGrammar", "api.go:process (space filter)"]}
{"id": "C37", "title": "Index and trie agree", "statement": "Every literal stored in the trie has an index entry, so the error 'in trie but not in index' never occurs; the index entry of a literal names exactly the rule bodies and frames containing it.", "quantifier": "every grammar with includes and every text", "why_tests_cant": "Consistency of two data structures for all grammars.", "anchors": ["grammar_index.go", "frame_api.go:getCandidates"]}
{"id": "C38", "title": "Candidate rules are the upward closure of matched literals", "statement": "The start rules tried by MatchFrames are exactly the rules from which a rule containing a literal found in the text is reachable through rule references; the work-list loop terminates, also for cyclic rules.", "quantifier": "every grammar, every set of matched literals", "why_tests_cant": "Transitive closure over arbitrary graphs.", "anchors": ["frame_api.go:getCandidates"]}
{"id": "C39", "title": "Frame completeness flag", "statement": "A matched frame is Complete iff every term of the frame has at least one slot.", "quantifier": "every grammar, text, order of matches", "why_tests_cant": "All interleavings of literal and rule matches, and repeated terms.", "anchors": ["frame_api.go:MatchFramesWithContext", "frame_api.go:getCandidates"]}
{"id": "C40", "title": "Frame matching never panics", "statement": "MatchFrames and FrameFMR never panic.", "quantifier": "every grammar including included files that define frames, every text", "why_tests_cant": "Panic only for frames from includes / context arguments / empty matches.", "anchors": ["frame_api.go", "earley_ast.go:Boundary"]}
{"id": "C41", "title": "No candidate rule means no frames, not an error", "statement": "MatchFrames on a text in which no rule literal occurs returns the (possibly empty) literal-only frames without error.", "quantifier": "every grammar and text", "why_tests_cant": "All texts.", "anchors": ["frame_api.go:MatchFramesWithContext", "api.go:earleyParse"]}
{"id": "C42", "title": "Eval and Semantic denote the same expression", "statement": "For every tree, Semantic prints, and Eval evaluates, one and the same function expression obtained from the rule semantics: nf.I is projection, $0 the node's text, $i the i-th child, functions apply to evaluated arguments, and errors propagate.", "quantifier": "every tree, every interpretation of the functions", "why_tests_cant": "Structural induction over trees and expressions.", "anchors": ["earley_eval.go", "earley_fmr.go"]}
{"id": "C43", "title": "Index arguments are range-checked", "statement": "An index argument outside 0..number of children yields an error, never a panic or a wrong child; a mistyped argument yields an error.", "quantifier": "every expression, argument and child list", "why_tests_cant": "All indices.", "anchors": ["earley_eval.go:semEval", "earley_fmr.go:semStr"]}
{"id": "C44", "title": "Semantic output is unambiguous", "statement": "Two different expressions never print to the same Semantic string: text of the input is quoted so it cannot break out of its literal.", "quantifier": "every pair of expressions over arbitrary input text", "why_tests_cant": "Injectivity over infinite sets (injection attacks).", "anchors": ["earley_fmr.go:fmrStr", "earley_fmr.go:semStr"]}
{"id": "C45", "title": "Missing frame slots print null", "statement": "FrameFMR prints null exactly for the slots that were not filled and the semantic of the first tree for the filled ones.", "quantifier": "every frame and slot assignment", "why_tests_cant": "All fill patterns.", "anchors": ["frame_api.go:FrameFMRWithContext", "earley_fmr.go:semStr"]}
{"id": "C46", "title": "Built-in list and entity functions", "statement": "fmr.list returns its arguments in order; fmr.entity returns nil for no or empty type, otherwise a one-entry map from the printed first argument to the remaining arguments.", "quantifier": "every argument list", "why_tests_cant": "All lengths.", "anchors": ["funcs.go"]}
{"id": "C47", "title": "even/odd are parity", "statement": "nf.math.even returns \"true\" iff the argument is (the decimal text of) an even integer, nf.math.odd iff odd; never both.", "quantifier": "every integer / every string", "why_tests_cant": "All integers, all digit strings including leading zeros.", "anchors": ["math_funcs.go:even", "math_funcs.go:odd"]}
{"id": "C48", "title": "TermType text round-trip", "statement": "UnmarshalJSON(MarshalJSON(t)) = t for every valid TermType, distinct types have distinct names, String never indexes out of range for any byte, and invalid values are rejected when read back.", "quantifier": "all 256 byte values; all strings", "why_tests_cant": "Covers slicing of the packed name table for all values.", "anchors": ["termtype_string.go", "termtype_jsonenums.go"]}
{"id": "C49", "title": "Token registry is race free and linearizable", "statement": "Under any interleaving of goroutines calling get and put on the token registry, no two accesses to the map overlap unless both are reads, and each get returns the value of the latest put of that key that was completed before its critical section, or nil.", "quantifier": "every schedule of any number of goroutines", "why_tests_cant": "Interleavings are infinite.", "anchors": ["grammar_tokens.go:cMap"]}
{"id": "C50", "title": "NLP initialises exactly once", "statement": "Under any interleaving of concurrent NLP() calls the pipeline constructor runs at most once and every call that returns normally after a successful initialisation returns that one fully initialised pipeline.", "quantifier": "every schedule of any number of goroutines", "why_tests_cant": "Interleavings are infinite.", "anchors": ["api.go:NLP"]}
{"id": "C51", "title": "Registry keeps a token for every literal token, forever", "statement": "Once a grammar is loaded, the registry holds, for each token of its literals, a token with that same text, whatever other grammars are loaded concurrently (check-then-put races included).", "quantifier": "every schedule of concurrent loads", "why_tests_cant": "Race between get and put in refine.", "anchors": ["grammar_refine.go:refine", "grammar_tokens.go"]}
{"id": "C52", "title": "FMR.String round-trip", "statement": "Printing a semantic function with FMR.String and reading it again with the grammar parser yields the same function.", "quantifier": "every semantic function expression", "why_tests_cant": "Round trip over recursive expressions.", "anchors": ["earley_stringer.go:FMR.String", "cfgrammar_fmr.go:semanticFn"]}
{"id": "C53", "title": "Bracketed output is balanced and faithful", "statement": "Bracketed returns a well-bracketed string whose bracket structure mirrors the tree, independent of brackets inside the matched text.", "quantifier": "every tree", "why_tests_cant": "Structural induction; texts containing brackets.", "anchors": ["node_methods.go:Bracketed"]}
{"id": "C54", "title": "Extract returns the concatenation of trees of all matches", "statement": "Parse, ParseAny, ExtractMaxAll, ExtractAll return exactly the trees of the final states of the underlying parses, in order, and an error iff the underlying call errors.", "quantifier": "every grammar and text", "why_tests_cant": "All result shapes.", "anchors": ["api_easy.go:extract", "api_easy_context.go:extractWithContext"]}
{"id": "C55", "title": "Token registry is write-once and complete", "statement": "Refining a grammar never replaces an entry of the global token registry, leaves every terminal of the refined grammar registered under its text (so that flag matching always finds its token), and adds only tokens of the grammar's own literals under their own text.", "quantifier": "every grammar, tokenizer and previous registry content", "why_tests_cant": "Quantifies over all registry contents and load sequences.", "anchors": ["grammar_refine.go:refine (48-50)", "grammar_tokens.go:get/put", "earley_terminal_match.go:terminalMatch"]}
{"id": "C56", "title": "The parser accepts exactly the documented syntax", "statement": "A grammar text is accepted by the parser iff it is a sequence of rule and frame definitions in the documented syntax, and the loaded grammar is what the text denotes.", "quantifier": "every text", "why_tests_cant": "Both directions of an equivalence over all texts.", "anchors": ["cfgrammar.go", "cfgrammar_comments.go", "cfgrammar_fmr.go", "cfgrammar_regex.go", "cfgrammar_special.go", "cfgrammar_terminal.go"]}
{"id": "C57", "title": "Slots are the derivable spans", "statement": "For a frame with a reference <S>, the slots of that reference returned by MatchFrames have exactly the positions of the token spans of the text that are derivable from S.", "quantifier": "all loaded grammars, all texts, all iteration orders, all fuel", "why_tests_cant": "It is a statement about every span of every text for every grammar; missing and spurious slots only show up for particular combinations of rules, literals and text.", "anchors": ["frame_api.go:MatchFramesWithContext", "frame_api.go:getCandidates"]}
{"id": "C58", "title": "The parse of a text extends the parses of its prefixes", "statement": "Parsing the first n tokens of a text gives exactly the first n+1 columns of the chart of the whole text. So the matches that end there, their order and their trees do not depend on what follows.", "quantifier": "every grammar, every text, every n, every iteration order of the rule maps, both modes", "why_tests_cant": "Relates two runs for every split of every text; look-ahead leaking into a finished column shows only for particular grammars and particular continuations.", "anchors": ["earley.go:parse (140-211)", "earley.go:predict", "earley.go:scan", "earley.go:complete", "earley_ast.go:buildTreesHelper"]}
{"id": "C59", "title": "Tree mirrors the parse tree", "statement": "Tree returns one object per node with its label, original text and position; the children of an object are in order, do not overlap, start where it starts and end where it ends; children are left out exactly for alternatives without function and for nodes with only literals.", "quantifier": "every tree returned by the parse entry points, every text", "why_tests_cant": "A statement about every node of every tree; wrong offsets show only for particular tokenisations.", "anchors": ["node_methods.go:Tree (54-93)", "node_methods.go:Pos", "node_methods.go:OriginalText", "earley_ast.go:Boundary"]}
{"id": "C60", "title": "Integer arithmetic of the built-in functions", "statement": "sum, sub, mul and neg applied to the decimal texts of integers return the decimal text of the result.", "quantifier": "every pair of integers", "why_tests_cant": "The values are held with 64 bits and printed with ten digits, so every small example passes; for which arguments the text is exact is a statement about all of them.", "anchors": ["math_funcs.go:sum (22-24)", "math_funcs.go:sub (26-28)", "math_funcs.go:mul (30-32)", "math_funcs.go:neg (57-63)", "math_funcs.go:calc (89-108)"]}
{"id": "C61", "title": "Decimal arithmetic of the built-in functions", "statement": "sum, sub, mul and neg applied to decimal texts return a decimal text of the exact result.", "quantifier": "every pair of decimal texts with at most 55 digits after the point", "why_tests_cant": "Decimal fractions are rounded to binary on reading and to ten digits on printing; that the two errors cancel needs a bound over all arguments.", "anchors": ["math_funcs.go:sum (22-24)", "math_funcs.go:sub (26-28)", "math_funcs.go:mul (30-32)", "math_funcs.go:neg (57-63)", "math_funcs.go:calc (89-108)"]}
{"id": "C62", "title": "Division", "statement": "div applied to decimal texts returns the quotient rounded to six digits after the point; if an argument is not a number or the divisor is zero it returns the two texts with a slash.", "quantifier": "every pair of texts", "why_tests_cant": "The arguments, the quotient and the printed digits are each rounded; only an error bound over all arguments says where the last digit is right.", "anchors": ["math_funcs.go:div (34-44)"]}
{"id": "C63", "title": "The primality test", "statement": "prime applied to the text of an integer answers true iff it is prime.", "quantifier": "every integer", "why_tests_cant": "Infinitely many numbers; the answer rests on the documented guarantees of the library's test.", "anchors": ["math_funcs.go:prime (81-87)"]}
{"id": "C64", "title": "Optional parts of rules", "statement": "If every possibly empty term is used only directly behind a literal (a literal, or a rule or non-empty list whose texts all end with a literal a fixed number of levels down, up to one level of difference between the uses) and at the beginning of rules that no production uses, or only at the beginning of the alternatives of one rule (and is then no start rule), and no list has possibly empty items, then the exhaustive parse reports every derivable prefix, for every iteration order. A run of any grammar whose chart is closed under completing empty spans also reports every derivable prefix. Dropping any one of the conditions loses a match on some grammar.", "quantifier": "every well-formed grammar, text, start symbols and iteration order", "why_tests_cant": "Matches are lost only for some combinations of position, rule and iteration order; a test grammar that works says nothing about the next one.", "anchors": ["earley.go:parse (140-211)", "earley.go:predict, complete (235-300)"]}
{"id": "C65", "title": "Size of the chart", "statement": "If no list item can be empty, the states created behind i tokens are at most linear in the number of dotted rules times i+1, plus the number of list terms times (i+1)^2; the whole parse creates (and processes, once each) at most quadratically many states in the length of the text, cubically many with lists.", "quantifier": "every well-formed grammar with non-empty list items, text, iteration order", "why_tests_cant": "Cost on some texts says nothing about the worst case over all texts and grammars.", "anchors": ["earley.go:parse (140-211)", "earley.go:insertToEnd (117-138)"]}
{"id": "C66", "title": "Adding rules", "statement": "Adding rules, alternatives or start rules to a grammar never loses a match, and the longest match only gets longer.", "quantifier": "every pair of well-formed grammars where one extends the other, every text and iteration order", "why_tests_cant": "Pairs of grammars are not enumerable; interactions occur between rules that look unrelated.", "anchors": ["earley.go:predict, complete (235-300)", "api.go:EarleyParse"]}
{"id": "C67", "title": "Grammar text as bytes", "statement": "Loading a byte string (with the byte-wise cursor, the widths of runes and the table of positions of the parser) gives the same grammar, fails in the same cases and runs forever in the same cases as parsing its sequence of runes, where invalid bytes are U+FFFD and a string in UTF-8 has its characters as runes; no slice is ever taken outside of the text.", "quantifier": "every byte string, file system of byte strings, registry and world", "why_tests_cant": "The cursor is kept in bytes, the width of the last rune survives failing reads; mistakes appear only for particular sequences of multi-byte runes, invalid bytes and steps back.", "anchors": ["cfgrammar.go:next, backup, peek (92-140)", "cfgrammar.go:grammarFromString, GrammarFromFile (37-86)"]}
{"id": "C68", "title": "Positions in error messages", "statement": "A position in an error message names a rune of the text of the named file that was read, row and column locate this rune uniquely, and the row is the number of its line.", "quantifier": "every byte string, file system and error", "why_tests_cant": "There are infinitely many texts and positions; the table of positions is filled while reading and looked up after steps back.", "anchors": ["cfgrammar.go:next (92-118)", "cfgrammar.go:backup (128-131)", "cfgrammar.go:posInfo"]}
{"id": "C69", "title": "Errors are local", "statement": "If loading a text without U+FFFD fails with a position and not inside an included file, then every text with the same runes up to one rune behind the position fails with the same message: neither the rest of the text nor the order of later rules plays a part.", "quantifier": "every pair of texts with a common beginning", "why_tests_cant": "The claim compares a faulty text with infinitely many continuations.", "anchors": ["cfgrammar.go:grammar (339-419)", "cfgrammar.go:next, backup, peek (92-140)"]}
{"id": "C70", "title": "Printed trees can be read back", "statement": "Print writes one line per node, parents first, indented by depth. Two trees, of the same or of different parses, are printed alike (by Print or by String) exactly if they have the same shape and corresponding nodes agree in term, span, dot, rule body and function text. If alternatives of a rule differ in more than bounds and flags, no two trees of a match are printed alike.", "quantifier": "every grammar, text and pair of trees whose rule names contain no '>' or newline", "why_tests_cant": "The claim compares all pairs of trees of all grammars; quoting, nested braces and indentation have to be unambiguous for every name and literal.", "anchors": ["earley_stringer.go:TableState.String (11-57)", "earley_stringer.go:Node.Print, printLevel (81-95)", "earley_stringer.go:Node.String (97-102)"]}
{"id": "C71", "title": "The printed chart shows every state", "statement": "The text of a chart determines, column by column, the term, span, dot, body and function text of its states, and no two states of a column are printed alike.", "quantifier": "every grammar and text", "why_tests_cant": "Needs all charts; two states may differ in a component that is not printed.", "anchors": ["earley_stringer.go:TableState.String (11-57)", "earley_stringer.go:TableColumn.String, Parse.String (59-79)"]}
{"id": "C72", "title": "TreePrint shows the tree", "statement": "What TreePrint writes determines the shape of the tree and the states at its nodes, if the layout of package treeprint determines what is laid out.", "quantifier": "every pair of trees returned for a grammar and text", "why_tests_cant": "Compares all pairs of trees.", "anchors": ["earley_nodeprint.go:TreePrint (10-17)"]}
{"id": "C73", "title": "Parsing follows the texts of the grammar files", "statement": "Take the productions written in the grammar text and in all files it includes, every literal read as the tokens of its text, together with the productions of the tagged document (token classes, tagged spans, regexp matches). Parse returns, it returns trees iff some start rule derives tokens at the start of the document from these productions, and every tree spells as many tokens as can be derived.", "quantifier": "every set of grammar files in the documented syntax, loaded from a string or from a file, every tagged document, every start list and every map iteration order", "why_tests_cant": "Composes loading, includes, refinement of literals, the local grammar and the parser for all texts at once; each stage preserves the language only under conditions on names, hashes and literals that tests do not enumerate.", "anchors": ["cfgrammar.go:GrammarFromString, GrammarFromFile, grammarFromString, grammarFromFile, grammar", "grammar_refine.go:refine", "local_grammar.go:localGrammar", "api.go:Grammar.Parse", "earley.go:parse"]}
{"id": "C74", "title": "The local grammar is the document's alternatives with their meanings", "statement": "The grammar made for an input text has exactly these alternatives: one per token of class word, punct, symbol or letters, one per tag of a tagged span (the tokens of the span; if the tag has a list of values, with the meaning fmr.list(text, fmr.entity(tag, fmr.list(values)))), and one per regexp match that starts and ends with a token. It cannot be made exactly if one of these alternatives cannot be hashed.", "quantifier": "every tagged document whose spans lie inside it, every set of regexps and hash function", "why_tests_cant": "Alternatives are merged by hash in nested maps; that none is lost or invented and that each keeps its meaning is a statement about all documents.", "anchors": ["local_grammar.go:localGrammar", "regexp_tagger.go:regexpTag"]}
{"id": "C75", "title": "ParseAny, ExtractAll and ExtractMaxAll follow the texts of the grammar files", "statement": "From the texts of the grammar files and the tagged input: ParseAny returns trees iff a start rule matches somewhere, all of them for a longest match at the first token where one begins; ExtractAll returns trees for exactly the matches, grouped by the token where they begin, from left to right; ExtractMaxAll returns trees for segments that do not overlap, each a longest match at its first token, and no match begins at a token outside the segments.", "quantifier": "every grammar text and set of included files that loads, every tagged document, every choice of start rules, every iteration order of the maps", "why_tests_cant": "It relates the text of a grammar to what is found at every position of every input, through loading, refinement, the local grammar, the chart and the tree builder.", "anchors": ["api.go:EarleyParseAnyWithContext", "api.go:EarleyParseMaxAllWithContext", "api.go:EarleyParseAllWithContext", "api_easy_context.go:ExtractMaxAllWithContext", "api_easy_context.go:ExtractAllWithContext"]}
{"id": "C76", "title": "The trees are the trees of what is written", "statement": "Every tree that Parse, ParseAny, ExtractAll or ExtractMaxAll returns is a derivation tree of the alternatives written in the grammar files and given by the tagged document: each node shows the alternative as it is written, with its semantic function, the nodes of an alternative are the trees of its terms in order and without gaps, and a literal has a node of its own with one leaf per token; conversely every such tree is a derivation tree of the grammars in the parser.", "quantifier": "every grammar text and set of included files that loads, every tagged document, every choice of start rules, every iteration order of the maps", "why_tests_cant": "Refinement renames literals and splits them into tokens and the local grammar adds rules, so the trees come from a grammar nobody wrote; that they still are the trees of the written one holds for all grammars only by proof.", "anchors": ["earley_ast.go:GetTrees", "cfgrammar.go:GrammarFromFile", "grammar_refine.go:refine", "local_grammar.go:localGrammar", "api_easy_context.go:ParseWithContext"]}
{"id": "C77", "title": "Frame matching follows the texts of the grammar files", "statement": "From the texts of the grammar files and the tagged input: MatchFrames fails iff the search for the words fails or no word of a rule is found. Otherwise every frame in the result belongs to an alternative written for a frame, has at least one slot and slots only for words and references of the alternative, and is complete iff it has as many filled slots as the alternative has terms; the slots of a word are the places where it is found; the slots of a reference <S> are the spans of the token sequences that S derives, with derivation trees of the written alternatives. FrameFMR prints for each frame the function written after its alternative.", "quantifier": "every grammar text and set of included files that loads, every tagged document, every search for words, every iteration order of the maps", "why_tests_cant": "It relates the text of a grammar to the slots of all frames for every input, through loading, refinement, the index, the fixpoint over rule references, the chart at every position and the tree builder.", "anchors": ["frame_api.go:MatchFramesWithContext", "grammar_index.go:indexRules", "frame_api.go:FrameFMRWithContext", "earley_ast.go:GetTrees"]}
{"id": "C78", "title": "Meanings follow the texts of the grammar files", "statement": "For every tree that Parse, ParseAny, ExtractAll or ExtractMaxAll returns, over the tokens from some token of the document on: the texts of the grammar files and the tagged document give the matched part a meaning by the functions written after the alternatives (nf.I projects, any other function is called with what its arguments say, $0 is the text, $i the meaning of the i-th part, @ a record of the parts, a list is the list of its items, and tokens, literals, (any) and alternatives without function stand for their text), Semantic prints this meaning and Eval gives its value; if the written functions give no meaning, both fail with an error.", "quantifier": "every grammar text and set of included files that loads, every tagged document, every choice of start rules, every implementation of the functions that returns, every iteration order of the maps", "why_tests_cant": "It says what the two evaluators give for every text of a grammar and every input, with literals split and renamed, nested functions, context records and errors in between; tests see single grammars.", "anchors": ["earley_ast.go:GetTrees", "earley_fmr.go:Semantic", "earley_eval.go:Eval", "cfgrammar.go:GrammarFromFile", "local_grammar.go:localGrammar"]}
{"id": "C79", "title": "A grammar loads exactly if all its files are in the documented syntax", "statement": "GrammarFromString (GrammarFromFile) returns a grammar iff the text, and the text of every file that it includes directly or through other files, is a sequence of include directives followed by rule and frame definitions in the documented syntax, every included file can be read, every alternative can be hashed, and every literal of a rule can be split into tokens; otherwise it returns an error. Every grammar that is loaded has its definitions from these texts, so that C73 to C78 say what it matches and means.", "quantifier": "every grammar text, every file system and include graph (also cyclic), every earlier state of the terminal registry", "why_tests_cant": "An equivalence between what a recursive loader with shared state accepts and a declarative syntax, over all texts and include graphs.", "anchors": ["cfgrammar.go:GrammarFromString", "cfgrammar.go:GrammarFromFile", "cfgrammar.go:grammarFromFile", "cfgrammar.go:grammar", "grammar_refine.go:refine"]}
{"id": "C80", "title": "The documented syntax is unambiguous", "statement": "A text has at most one reading: the definitions with their alternatives, terms and functions, the regexps, and the included files are determined by the text, and hence what the included files say is determined by their texts.", "quantifier": "every text of valid UTF-8 without U+FFFD, every classification of characters", "why_tests_cant": "It is about all ways of reading a text, not about the one that the parser takes.", "anchors": ["cfgrammar.go", "cfgrammar_comments.go", "cfgrammar_fmr.go", "cfgrammar_regex.go", "cfgrammar_special.go", "cfgrammar_terminal.go"]}
{"id": "C81", "title": "The shipped grammar for Chinese numbers gives their values", "statement": "With grammars/number.zh.grammar loaded from its file, Parse of a Chinese numeral for n with start rule number returns trees; every returned tree covers the whole text, and Eval of every returned tree gives the decimal digits of n.", "quantifier": "every n below 10^16, every way to write it (with or without the first one before ten, with every variant of each character), every annotator that makes characters tokens, every map iteration order, every sufficient fuel", "why_tests_cant": "There are 10^16 numbers with exponentially many spellings each; the parser keeps every reading of an ambiguous text, and all of them have to agree.", "anchors": ["grammars/number.zh.grammar", "cfgrammar.go:GrammarFromFile", "earley.go:parse", "api.go:Parse", "earley_eval.go:Eval", "math_funcs.go:sum (22-24)", "math_funcs.go:mul (30-32)"]}
{"id": "C82", "title": "handleEpsilons closes a column", "statement": "handleEpsilons on a column of the chart returns. The column keeps its states; afterwards every state that waits for a completed state of the column has been moved on in the column, every rule that a state of the column waits for has been started, and every state of the column covers tokens that the terms before its dot derive.", "quantifier": "all grammars, token sequences, start rules, columns of the chart, and map iteration orders", "why_tests_cant": "A fixed point of a loop that reads the table it extends; the grammars for which it does not stop are those with empty items of unbounded lists, which a test would have to wait for forever.", "anchors": ["earley.go:handleEpsilons (302-316)", "earley.go:complete (277-300)", "earley.go:predict (235-274)", "earley.go:185"]}
{"id": "C83", "title": "The grammar files that come with the library can be loaded and make sense", "statement": "Every grammar file of the repository can be loaded. Its alternatives use only rules that are defined in it or in a file it includes, its own regexps, and the token classes numeric, digits and letters; its semantic functions refer only to terms that their alternative has, and nf.I gets one argument.", "quantifier": "all 17 grammar files, every loader that reads them, every registry, all sufficient bounds", "why_tests_cant": "The tests load three of the files. An unknown rule is not reported by the loader, and an index without a term panics only if a text with this alternative is evaluated.", "anchors": ["grammars/", "examples/", "sf.grammar", "cfgrammar.go:GrammarFromFile (37-47)", "cfgrammar_terminal.go:5-29", "earley_eval.go:Eval"]}
{"id": "C84", "title": "Sums in words are found in a text and evaluated", "statement": "Loaded with the shipped examples/arithmetic/arithmetic.grammar, the parse calls find exactly the expressions of numbers from one to ten, plus, minus, times and negation (in English and Chinese words) that the words of a text contain, as far as each call is meant to; Eval of each tree returned by Parse writes the value of a reading of the words, and every value of a reading belongs to a tree.", "quantifier": "every loader that reads the file, every text whose tokens are its words, all orders of map iteration, every expression whose intermediate results have at most ten digits", "why_tests_cant": "There is no test of the example; the expressions are infinitely many and most of them are ambiguous.", "anchors": ["examples/arithmetic/arithmetic.grammar", "api_easy.go:Parse (4-12)", "math_funcs.go:10-60", "earley_eval.go:Eval", "cfgrammar.go:GrammarFromFile (37-47)"]}
{"id": "C85", "title": "English numerals evaluate to the numbers they name", "statement": "Loaded with the shipped examples/math/grammars/number.en.grammar, Parse of an English numeral for a number n below 10^12 (with or without hyphens and the word and) returns trees, all of them cover the whole text, and Eval of each of them gives the decimal digits of n.", "quantifier": "every n below 10^12, every numeral for it, every loader that reads the file, every text whose tokens are the words of the numeral, all orders of map iteration", "why_tests_cant": "There is no test of the grammar; there are more than 10^12 numerals, and the rules with and, hyphens and five scales overlap.", "anchors": ["examples/math/grammars/number.en.grammar", "api_easy.go:Parse (4-12)", "math_funcs.go:10-60", "earley_eval.go:Eval", "cfgrammar.go:GrammarFromFile (37-47)"]}
{"id": "C86", "title": "The shipped grammars call only functions that exist", "statement": "Every function called in a grammar file of the repository is one of the functions that the library registers, so that Eval of a tree is not rejected for a function that does not exist; in particular, trees of numbers with decimals in words can be evaluated.", "quantifier": "every grammar file of the repository that can be loaded, every function in it; every numeral with decimals in English and Chinese, every text whose tokens are its words, all orders of map iteration", "why_tests_cant": "The loader does not check function names, Parse and Semantic do not call functions, and the tests of the repository evaluate only a few trees; that no tree over a decimal can be evaluated concerns infinitely many texts.", "anchors": ["funcs.go:9-27", "math_funcs.go:10-20", "earley_eval.go:9-60", "examples/math/grammars/number.en.grammar", "grammars/number.zh.grammar"]}
{"id": "C87", "title": "Powers and roots are right", "statement": "nf.math.pow of an integer and a natural number is the power, written with six zeros after the point; with the exponent 0.5 it is the square root, and with the exponent nf.math.div(1,3), as the shipped grammars call it, the cube root, both rounded to six digits after the point.", "quantifier": "all integers as base, all natural numbers as exponent; all natural numbers below 2^53 for roots; every function in place of Exp(y*Log(x))", "why_tests_cant": "Both arguments are unbounded; the loop of math.Pow rounds in every step, so that exactness depends on the number of bits of all intermediate products, and the error of a cube root comes from the text of a third and not from the platform.", "anchors": ["math_funcs.go:46-56", "grammars/math.zh.grammar:39-44", "examples/math/grammars/math.en.grammar:43-48"]}
{"id": "C88", "title": "The example program for arithmetic answers every line", "statement": "For every input, examples/arithmetic/main.go prints for each line, in order, the line, then for each expression in words that it contains (a longest one where it begins, without overlaps, from left to right) the readings that were found with their values, and an empty line; then it ends normally.", "quantifier": "every input whose lines are made of words, any number of lines and words, any other words around the expressions; all orders of map iteration, every JavaScript engine that calculates", "why_tests_cant": "Inputs are unbounded in the number of lines and words; that a last line without newline and a blank line are treated wrongly depends on the place of bytes in the input, and the loop carries the state of the script engine from line to line.", "anchors": ["examples/arithmetic/main.go:22-86", "examples/math/main.go:67-114", "examples/builtin/main.go:68-103", "api.go:99-125"]}
{"id": "C89", "title": "The grammar of examples/builtin reads English numerals as their numbers", "statement": "With examples/builtin/builtin.grammar loaded from its file, Parse of an English numeral for n returns trees, they cover the whole text, and each of them is for an expression with the value n, which Eval writes if n is below 10^10.", "quantifier": "every numeral in English words for every number from 1 to below 10^12 (with or without and, hyphens); every loader, all orders of map iteration, all hash functions without collisions in the grammar", "why_tests_cant": "There are more than 10^12 numerals and the grammar gives many trees for each of them; that all of them are right, or all wrong, depends on the counts before thousand, million and billion and not on single words.", "anchors": ["examples/builtin/builtin.grammar:1-103", "examples/builtin/main.go:68-103", "api.go:50-90", "earley_fmr.go:12-93", "earley_eval.go:9-86"]}
{"id": "C90", "title": "The grammar of examples/builtin for Chinese numbers reads numerals as their numbers", "statement": "With examples/builtin/cn_num.grammar loaded from its file, Parse of a Chinese numeral returns trees, all of them cover the whole text, and Eval of each gives the number with ten significant digits, so all digits below 10^10.", "quantifier": "the numerals, with or without 一 before an initial 十, of every number below 10^16; every loader, all orders of map iteration, all hash functions without collisions in the grammar", "why_tests_cant": "There are 10^16 numbers; which numerals are cut off depends on gaps after 万 at two places and on the first group, and that the value is right needs the same for every prefix that the grammar could read instead.", "anchors": ["examples/builtin/cn_num.grammar:1-54", "api.go:50-90", "earley_eval.go:9-86"]}
{"id": "C91", "title": "The number of trees of a match is bounded by a polynomial in the length of the text", "statement": "For every grammar there is a polynomial such that GetTrees returns, for every text and every final state of its chart, at most as many trees as the polynomial of the number of tokens.", "quantifier": "all grammars, texts, final states and orders of map iteration", "why_tests_cant": "Tests run a few short texts; growth is a statement about texts of every length, and the exact number needs that no tree is lost and none is returned twice.", "anchors": ["earley_ast.go:43-155"]}
{"id": "C92", "title": "The trees of a match do not depend on map iteration order", "statement": "Running the same parse twice yields, for the same start rule and the same end of the match, the same trees up to their order, although Go randomises the iteration order of the rule bodies on every call to predict.", "quantifier": "every grammar without empty derivations, every text, match and pair of iteration-order schedules", "why_tests_cant": "A test sees one random order per run; that a tree is missing in some of them shows up now and then, and never as an error.", "anchors": ["earley.go:predict", "earley_ast.go:86-155", "types.go:Rule"]}
{"id": "C93", "title": "The names of rules do not matter", "statement": "If the rules of a grammar get other names, all different, and rules that the start rules do not reach are dropped or added, the parser makes the same states, matches and trees up to the names, and Semantic and Eval return the same results unless a function takes the context @.", "quantifier": "every grammar and injective renaming that keeps the internal start symbol, every text, every iteration order, every set of registered functions", "why_tests_cant": "A test compares two spellings of one grammar on one text in one random iteration order.", "anchors": ["earley.go:predict", "earley.go:complete", "earley.go:Equal", "earley_ast.go:86-155", "earley_eval.go:Eval", "earley_fmr.go:Semantic", "node_methods.go:54-129"]}
{"id": "C94", "title": "The other example programs answer every complete line", "statement": "For every complete line that is not blank, examples/math/main.go and examples/builtin/main.go print the line without space around it, then, from left to right, the readings of each longest part that the grammar can read, with what the engine gives for each of them in turn (examples/math with -eval: text => value, and nothing on an engine error; without -eval: the texts only, without running the engine; examples/builtin: text = value also on an error), and an empty line; then main returns.", "quantifier": "every input, any number of lines, any grammar whose readings have a meaning; every JavaScript engine with any state and any errors; all orders of map iteration", "why_tests_cant": "The engine is stateful and can fail on any text, so the output of a line depends on all earlier ones; inputs are unbounded in lines and words.", "anchors": ["examples/math/main.go:67-114", "examples/builtin/main.go:68-103", "api.go:99-125"]}
{"id": "C95", "title": "Calls reach the functions of the library by name", "statement": "Call answers exactly the eleven registered names: any other name is an error, and Eval of a node whose meaning is a call of a registered name gives what the function of that name returns for the values of its arguments. So nf.math.even/odd/prime answer their questions (prime below 2^64), sum, sub, mul and neg give the exact integer up to ten digits, div the quotient rounded to six places, pow the exact power below 2^53; and what other properties assume of Call holds.", "quantifier": "every name, all lists of argument values the functions can take, all integers in the stated ranges, every node", "why_tests_cant": "Names are bound to functions in a table filled by two init functions and called by reflection; a swapped entry shows only for some arguments, and the arguments are unbounded.", "anchors": ["funcs.go:17-27", "funcs.go:11-14", "math_funcs.go:10-20", "earley_eval.go:22-46"]}
{"id": "C96", "title": "Rules can be moved between files", "statement": "If two grammars, each a text or file with all it includes, say the same (the same alternatives for every rule and the same regexps, in whatever files, order and repetition), then Parse, ParseAny, ExtractAll and ExtractMaxAll find the same matches with both: at the same tokens, of the same length, for the same start rules, with trees of the same texts.", "quantifier": "all pairs of file trees that load, all texts and annotations, all orders of map iteration", "why_tests_cant": "It relates two runs of loader, refinement and parser over arbitrary include graphs; the names generated for literals depend on all literals of a file, so whether a rule can be moved depends on rules far away.", "anchors": ["cfgrammar.go:37-85", "cfgrammar.go:339-419", "grammar_refine.go:12-77", "earley.go:254-275", "api.go:182-226"]}
{"id": "C97", "title": "Tokens that the grammar does not tell apart are interchangeable", "statement": "Let the tokens of two texts correspond one to one, such that no literal of a rule that can be reached from the start rules matches one of two corresponding tokens and not the other, and let no reachable rule be named like a class of tokens, a tag of either text or a regexp. Then Parse, ParseAny, ExtractMaxAll and ExtractAll give the same trees for both texts. In particular words that no literal matches can be exchanged, and of a token only its text, lemma and lower-case norm matter, not its class, its annotations or its place.", "quantifier": "all grammars, all pairs of texts and annotations of any length, with or without context, all orders of map iteration", "why_tests_cant": "It is a relation between two runs on unbounded texts; the number of words that are unknown to a grammar is infinite.", "anchors": ["earley.go:140-211", "earley.go:213-233", "earley_terminal_match.go:9-33", "local_grammar.go:10-93", "api.go:154-226"]}
{"id": "C98", "title": "A token that the grammar cannot read separates a text", "statement": "Let a text consist of the tokens of one text, a token that no literal of a reachable rule matches, and the tokens of another text (up to what the reachable literals do not see, such as places). If no reachable rule has an (any) or is named like a rule made from the document, and no start rule matches nothing, then ExtractMaxAll and ExtractAll return for the whole the trees of the first part followed by the trees of the second part, Parse returns the trees of the first part, and ParseAny those of the first part or, if there are none, of the second part.", "quantifier": "all grammars, all texts and annotations of any length, all such tokens, all orders of map iteration (those met in the second part are the ones met from some parse of the whole text on)", "why_tests_cant": "It relates three runs on unbounded texts, with an order of map iteration drawn anew for every parse.", "anchors": ["api.go:55-152", "api_easy.go:4-50", "earley.go:140-233", "earley_ast.go:43-155"]}
{"id": "C99", "title": "A grammar survives being written as JSON and read again", "statement": "Grammar, Rule, RuleBody, Term, Arg and FMR carry JSON field tags, and TermType has JSON methods. A loaded grammar that is written with json.Marshal and read with json.Unmarshal parses every text like before.", "quantifier": "all loaded grammars, all texts and annotations, all start rules, all orders of map iteration", "why_tests_cant": "Which grammars survive, and that a grammar that was read finds nothing in any text or never returns on any text, is a statement about unbounded sets of texts and unbounded runs.", "anchors": ["types.go:16-28", "types.go:65-116", "types_util.go:8-132", "earley.go:44-133", "earley.go:235-300"]}
{"id": "C100", "title": "The text of a frame shows its slots", "statement": "(*Frame).String prints whether the frame is complete and its slots: two frames print alike exactly if they have the same flag and the same slots (positions) under the same keys, whatever the order of map iteration.", "quantifier": "all frames with any number of keys and slots, all orders of the map, all places in memory", "why_tests_cant": "It compares all pairs of frames, and the text depends on where the slots are in memory.", "anchors": ["types.go:43-62"]}
{"id": "C101", "title": "Text added at the end changes only what reaches it", "statement": "If a text is continued, so that its tokens are followed by others, then EarleyParse and EarleyParseAny have the same matches and trees as before as long as the match of the longer text does not reach into the added part; the trees ExtractAll found before are found again in the same order; and EarleyParseMaxAll finds the same matches and trees up to the first match that reaches into the added part.", "quantifier": "all grammars, texts and continuations whose tokens agree on the shorter text up to what reachable literals see, all start rules, all orders of map iteration, all fuel", "why_tests_cant": "It relates runs on a text and on all of its continuations; the greedy scan and the map orders could drift apart after any number of steps.", "anchors": ["api.go:50-160", "earley.go:44-133", "earley.go:235-300"]}
{"id": "C102", "title": "Words of an including file do not become words of the included rules", "statement": "With a grammar loaded from grammars/limit.grammar or grammars/time.grammar, which include the grammar of numbers, the text 前 (\"before\", \"the first\"), a literal of the including file but not of the number grammar, is not a number.", "quantifier": "all settings in which the files of the repository are read, all orders of map iteration, all texts with the single word 前, all transcriptions of words to ASCII", "why_tests_cant": "Which literal gets which generated name depends on the order in which Go iterates over maps and on the transcription; a test sees one order and rarely asks for a number where there is none.", "anchors": ["grammar_refine.go:12-77", "grammars/limit.grammar:5-12", "grammars/time.grammar:1-39", "grammars/number.zh.grammar:1-102"]}
{"id": "C103", "title": "What is found is found again when it is parsed alone", "statement": "If EarleyParseMaxAll or EarleyParseAny finds a match in a part of a text, beginning where the part begins and ending within it, then EarleyParse finds the same match with the same trees in the part alone; if the match is the whole part, EarleyParseMaxAll finds in the part this match and nothing else; and the trees ExtractAll finds in a part alone are among those it finds in the whole text, in the same order.", "quantifier": "all grammars, texts and parts of their tokens, up to what reachable literals see, all start rules, all orders of map iteration, all fuel", "why_tests_cant": "It relates runs on a text and on all of its parts; what stands around a match, the offset and the number of earlier parses could all change the result.", "anchors": ["api.go:50-160", "earley.go:44-133", "earley.go:235-300"]}
{"id": "C104", "title": "A tag or a regexp is found only where it is", "statement": "If a tag of the annotator or a regexp of the grammar is found at some tokens of a text, then these tokens are tagged with it: the annotator marked this place, or the regexp matches from the start of the first of them to the end of the last.", "quantifier": "all grammars, documents, tags and regexps (as functions of the text), all places in the text, all start rules and orders of map iteration", "why_tests_cant": "The local grammar keeps the words of a tagged place and forgets the place; a test has to have the same words twice, once where the regexp does not match because of what stands around them.", "anchors": ["local_grammar.go:10-93", "regexp_tagger.go:8-39", "api.go:154-226", "cfgrammar_regex.go:9-36"]}
{"id": "C105", "title": "Start rules do not hide one another", "statement": "EarleyParse with several start rules reports every start rule that matches the longest piece of the text that any of them matches.", "quantifier": "all grammars without empty derivations and with uniform bounds, all lists of start rules, all texts, all orders of map iteration", "why_tests_cant": "With one start rule per test nothing is hidden; with two, the parser stops at the first completed start state of the last column, and which one that is depends on the random order of map iteration.", "anchors": ["earley.go:140-211", "earley.go:235-252", "api.go:154-180"]}
{"id": "C106", "title": "A fraction of a number is exact", "statement": "mul(n, div(a, b)), the call that math.zh.grammar writes for 'n 的 b 分之 a', returns the decimal text of n times a/b whenever that has at most ten significant digits.", "quantifier": "all integers n, a and b with b not zero, with the result of ordinary size", "why_tests_cant": "Halves, quarters and tenths come out exactly; the error appears only for denominators that do not divide a power of ten, and which results are wrong is a statement about all pairs of integers.", "anchors": ["math_funcs.go:11-19", "math_funcs.go:30-44", "math_funcs.go:82-108", "grammars/math.zh.grammar:22-31"]}
{"id": "C107", "title": "A parse is not disturbed by grammars that are loaded meanwhile", "statement": "If every literal with flags of a grammar has its token in the registry when a parse begins, the chart and the matches are those of an undisturbed parse, whatever other goroutines load or parse while it runs.", "quantifier": "all grammars, texts and start rules, all schedules of any number of goroutines, and all states of the registry at each call of terminalMatch", "why_tests_cant": "The result changes only if another goroutine writes a token between two calls of terminalMatch of one parse, after having found it missing before the first grammar was loaded; tests do not control schedules.", "anchors": ["grammar_tokens.go:9-26", "grammar_refine.go:48-50", "earley_terminal_match.go:9-33", "earley.go:140-233"]}
{"id": "C108", "title": "What was loaded before does not matter", "statement": "The grammar that a load gives, and the trees that it finds in a text, depend on the source of the grammar and on the text only, not on which other grammars the program has loaded before or after.", "quantifier": "all sources (strings and files with includes), all registries that loads can leave behind, all texts, contexts, start rules and map orders, and all four calls", "why_tests_cant": "Tests share one process and one registry, so each runs after the loads of some others, in one order; a dependence on the order shows only for words whose lemma differs between two literals.", "anchors": ["grammar_tokens.go:9-26", "grammar_refine.go:12-77", "cfgrammar.go:37-86", "earley_terminal_match.go:9-33"]}
{"id": "C109", "title": "White space around a text changes nothing", "statement": "Two texts that are the same but for white space at their beginnings and ends have the same trees, and each tree has the same meaning and the same value for both.", "quantifier": "all grammars, contexts, start rules, map orders and pairs of texts with the same trimmed text, and all four calls; meanings and values of all trees", "why_tests_cant": "Tests use texts without white space around them; positions count from the trimmed text but the bytes are cut out of the text as given, which shows only in values of matches, not in trees or meanings.", "anchors": ["api.go:182-211", "node_methods.go:14-51", "earley_eval.go:9-108", "earley_fmr.go:12-23"]}
{"id": "C110", "title": "The context reaches the context tagger", "statement": "A text that is parsed with a context is annotated by a tagger that is asked at the address of the flag ctx_tagger, whose query says exactly that context and otherwise all parameters that the address has, with their values in order; different contexts are asked at different addresses.", "quantifier": "all addresses and queries, all contexts (any bytes, also separators, escapes and invalid UTF-8), all orders of the map of parameters", "why_tests_cant": "The tests with a context need a running tagger and use one address without parameters and one context; escapes and separators in contexts, several parameters and map orders are not covered.", "anchors": ["api.go:13-16", "api.go:187-211"]}
{"id": "C111", "title": "The four calls agree", "statement": "If Parse finds something, ParseAny finds the same trees. What ParseAny finds comes first in what ExtractMaxAll finds. What any of the three finds is among what ExtractAll finds.", "quantifier": "all grammars, texts, contexts, start rules and map orders, the calls being separate runs", "why_tests_cant": "Tests check each call against expected values for a few texts, not the calls against one another; map orders differ between runs, and a disagreement shows only for grammars whose result depends on them.", "anchors": ["api.go:50-180", "api_easy.go:4-50", "api_easy_context.go:4-57", "earley.go:140-211"]}
{"id": "C112", "title": "Slots are where they say", "statement": "The position of every slot of a frame is a position in the text that was given: the piece there is the literal, or the text that the tokens of the reference were made from.", "quantifier": "all grammars, texts, contexts, frames and slots", "why_tests_cant": "The positions of literals come from a search of the text as given, those of references from the tokens of the trimmed text. They agree on all texts without white space in front, which are the only ones tried, and the tests print positions without comparing them with the text.", "anchors": ["frame_api.go:47-84", "frame_api.go:87-117", "earley_ast.go:22-32", "api.go:182-209"]}
{"id": "C113", "title": "A text that is loaded can be read", "statement": "If a grammar is loaded from a text or a file, its bytes are UTF-8 and contain no replacement character.", "quantifier": "all byte strings, files, names and include graphs", "why_tests_cant": "Quantifies over all byte strings. Tests load grammars that were written in UTF-8; that a rune which cannot be read stands for the end of the text is harmless or loud everywhere but at one place, which must be found among all.", "anchors": ["cfgrammar.go:37-89", "cfgrammar.go:92-137", "cfgrammar.go:347-411"]}
{"id": "C114", "title": "White space around a text changes no frame but for positions", "statement": "If two texts are the same but for white space around them and the same literals are found in both, MatchFrames gives the same frames for both but for the positions of slots, or fails in the same way; and FrameFMR gives the same meanings, if no function takes the context.", "quantifier": "all grammars, texts, contexts, iteration orders and fuel", "why_tests_cant": "Quantifies over all grammars and texts. Literals are searched in the text as given, references in the trimmed text; a test compares a few frames and cannot show that nothing but positions depends on the difference.", "anchors": ["frame_api.go:13-39", "frame_api.go:47-87", "frame_api.go:89-148", "api.go:182-209"]}
{"id": "C115", "title": "The layout of grammar texts does not matter", "statement": "If two texts have the same include directives, the same definitions and the same regexps, and differ only in white space and comments, and the same holds for every file that can be included, then GrammarFromString and GrammarFromFile give the same grammar, includes, index and token registry for both, or fail in the same way.", "quantifier": "all pairs of texts in the syntax, all files, names, registries, depths, and fuel above the lengths of the texts", "why_tests_cant": "Quantifies over all ways to put white space and comments between the tokens of a grammar, and over all include graphs; a test compares a few layouts of a few grammars.", "anchors": ["cfgrammar.go:37-86", "cfgrammar.go:88-139", "cfgrammar.go:339-419"]}
{"id": "C116", "title": "Rules that are not used do not matter", "statement": "If two grammars, each a text or file with all it includes, agree on a set of rules (the same alternatives and regexps) that contains the start rules and all rules its own rules refer to, then Parse, ParseAny, ExtractAll and ExtractMaxAll find the same matches with both, whatever else the files define.", "quantifier": "all pairs of file trees that load, all closed sets of rules, all texts and annotations, all orders of map iteration", "why_tests_cant": "It relates two runs of loader, refinement and parser where one has arbitrary further rules and files; names generated for literals depend on all literals of a file, so a rule nobody refers to can matter.", "anchors": ["cfgrammar.go:37-85", "cfgrammar.go:339-419", "grammar_refine.go:12-77", "earley.go:254-275", "api.go:182-226"]}
{"id": "C117", "title": "Files that say more find more", "statement": "If a grammar, a text or file with all it includes, has all alternatives and regexps of another one, and more start rules are asked for, then Parse finds a match if it did before, which is not shorter; ParseAny finds one that begins further left, or at the same token and is not shorter; ExtractAll finds every match it found; and ExtractMaxAll finds a match around every token where it found one.", "quantifier": "all pairs of file trees that load where one says more than the other, all texts and annotations, all orders of map iteration", "why_tests_cant": "It relates two runs of loader, refinement and parser for arbitrary extensions of a grammar; generated names and the order of included files change with every rule that is added.", "anchors": ["cfgrammar.go:37-85", "cfgrammar.go:339-419", "grammar_refine.go:12-77", "earley.go:254-275", "api.go:182-226"]}
{"id": "C118", "title": "Includes can be pasted in", "statement": "If the definitions of all files that a grammar includes, directly or not, are written one after the other in front of its own definitions, in any order of the files, and the directives are left out, then Parse, ParseAny, ExtractAll and ExtractMaxAll find the same matches with this text as with the grammar that has includes.", "quantifier": "all grammars with their include graphs, all orders and layouts of the pasted definitions, all texts and annotations, all orders of map iteration", "why_tests_cant": "It relates two runs of loader, refinement and parser over arbitrary include graphs; names for literals are generated per file, so pasting changes names everywhere.", "anchors": ["cfgrammar.go:37-139", "cfgrammar.go:339-419", "grammar_refine.go:12-77", "api.go:182-226"]}
