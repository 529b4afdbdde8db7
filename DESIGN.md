# Formal model of liuzl/fmr in Lean 4 — design

## 1. Layout

| Lean module (under `lean/Verif/`) | Go source modelled |
|---|---|
| `Model/Types.lean` | types.go, types_util.go (Term, RuleBody, FMR, Grammar, `Equal`) |
| `Model/TermType.lean` | termtype_string.go, termtype_jsonenums.go |
| `Model/Earley.lean` | earley.go (states, insert, scan, predict, complete, parse), earley_terminal_match.go |
| `Model/Trees.lean` | earley_ast.go (GetTrees, buildTrees, buildTreesHelper), pure and with the write to the chart |
| `Model/Out.lean` | outcomes of a call: value, error, panic, not finished |
| `Model/Api.lean` | api.go, api_easy.go, api_easy_context.go (drivers), `Boundary`, `Pos`, `OriginalText` |
| `Model/Node.lean` | node_methods.go, earley_eval.go, earley_fmr.go |
| `Model/Quote.lean` | `strconv.Quote` (standard library, modelled because C44, C52, C53 are about its result) |
| `Model/Stringer.lean` | earley_stringer.go (`FMR.String`) |
| `Model/Print.lean` | earley_stringer.go (the other functions), earley_nodeprint.go |
| `Model/Lexer.lean` | cfgrammar*.go, the grammar text parser |
| `Model/Load.lean` | cfgrammar.go, includes and the loader |
| `Model/Bytes.lean` | cfgrammar*.go once more, on bytes and with the positions of errors |
| `Model/Refine.lean` | grammar_refine.go, grammar_tokens.go (sequential) |
| `Model/Index.lean`, `Model/Frames.lean` | grammar_index.go; frame_api.go, `Tag` |
| `Model/Local.lean` | regexp_tagger.go, local_grammar.go |
| `Model/Funcs.lean` | funcs.go, math_funcs.go (even/odd/prime), `fmt.Sscan` into a `*big.Int` |
| `Model/Arith.lean` | math_funcs.go (sum/sub/mul/neg/div), with `big.Float` and float64 as exact arithmetic plus rounding |
| `Model/Pow.lean` | math_funcs.go (pow), with the published `math.Pow` |
| `Model/Call.lean` | funcs.go and math_funcs.go (the table of functions and `Call` by name) |
| `Model/Json.lean` | types.go struct tags: what `json.Unmarshal` makes of what `json.Marshal` wrote |
| `Model/FrameText.lean` | types.go:60-62 (`(*Frame).String`) |
| `Model/Main.lean` | the example programs, examples/arithmetic, examples/builtin and examples/math (main.go) |
| `Model/Conc.lean` | grammar_tokens.go and api.go:NLP as interleaving state machines |
| `Model/ParseAt.lean` | a parse during which other goroutines change the token registry (earley.go:140-211, earley_terminal_match.go:13) |
| `Model/Tagger.lean` | the address of the context tagger (api.go:193-209) with the functions of `net/url` used there |
| `Spec/*.lean` | small specifications, independent of the model's algorithms |
| `Proofs/*.lean` | helper lemmas |
| `Props/*.lean` | the property theorems, with non-vacuity examples beside them |

`tools/claims.py` and `tools/manifest.py` write `MANIFEST.json`. `seeded/LOG.jsonl` records the wrong programs
against which the theorems were tested.

## 2. Modelling conventions

* Go `map` = association list; the list order stands for an iteration order, and all theorems
  quantify over it. Where Go re-randomises on every `range` (the rule bodies in `predict`, the maps of
  frame_api.go), an explicit *order oracle* indexed by the place of the loop is a parameter, constrained only
  to permute.
* Pointers to immutable data are values. Pointer identity matters in one place (`st == state` in
  `buildTreesHelper`): chart states are addressed by (column, row). The one write through a shared pointer
  (`state.Rb` of list states) is modelled in `Model/Trees.lean` a second time with an explicit chart state,
  and C15 proves that the two agree.
* A loop whose termination is not structural takes fuel; `none`/`.div` means "not finished". Termination is
  the theorem "there is a fuel for which it finishes", and results are fuel-monotone.
  Non-termination is "for every fuel, not finished".
* A Go panic (index out of range, nil dereference) is an explicit outcome (`Out.panic`), never a default value,
  in functions where a property talks about it; elsewhere the comment says why it cannot occur and a
  theorem (C08, C11) proves it.
* Error *messages* are not modelled, only that an error is returned; `Model/Bytes.lean` also has the file name and
  position in a message. `Debug` output is not modelled.
* Go strings that are sliced by byte are byte lists; Go strings that are only compared, printed or read rune
  by rune are Lean strings, i.e. assumed to be valid UTF-8. (The grammar text itself may be any byte string:
  C67 relates the bytes to the runes on which the model of the parser works.)

## 3. What is assumed about code outside the repository

Parameters of the model, quantified over in all theorems. Where a theorem needs more than the type, the
assumption is in its statement; these are:

| external | parameter | assumed where |
|---|---|---|
| `ling` tokenizer and annotators | `World.annotate`, `annotateCtx`, `RefineWorld.annot` | spans lie in the document (C20); token offsets ascend and lie in the text (C21, C34) |
| `url.ParseRequestURI`, `ling.NewAPITagger` | `parseURI`, `ask` of `askContext` | none; `parseURI` splits at the first `?` (C110). The functions of `net/url` for queries (`QueryEscape`, `QueryUnescape`, `ParseQuery`, `Set`, `Encode`) are not parameters but written out in `Model/Tagger.lean` after their documented behaviour; the Go library source was not at hand to compare with |
| `hashstructure.Hash` | `hash`, may fail | distinct on the alternatives of the file or document at hand (C32, C35, C36; refuted without) |
| `goutil.MD5` | `LexWorld.md5` | no collision (C33, regexps) |
| `regexp` | `find`, `regexpOK` | — |
| `dict.Cedar` trie | `update`, `multiMatch` | `MultiMatch` reports only keys of the trie (C37, C40, C41), at places where they are in the text (C112) |
| Unicode tables | `LexWorld.isLetter/isDigit/isSpace` | `LexWorld.OK`: classes disjoint, ASCII as expected |
| `strconv.IsPrint` | `isPrint` | a newline is not printable (C70–C72) |
| `(*big.Float).String`, `fmt.Sscan` on floats | `floatStr`, `scanFloat` | C52 for floats only; no quotes, braces, newlines in the text of a number (C70–C72); C44_exact: `NumberText`, proved for the model of `Text('g', 10)` (`numberText_bf`) |
| `treeprint`, `(*ling.Token).String` | parameters | the text of a token has no newline (C71) |
| `big.Float` and float64 arithmetic, reading and printing | modelled in `Model/Arith.lean` as correctly rounded; texts other than plain decimals and decimals with a small positive exponent by `ext` | C60, C61, C62 |
| `(*big.Int).ProbablyPrime` | `PrimeContract`, its documentation | C63 |
| `fmt.Sscan` on `*big.Int` | `scan`, `scanInt`; also modelled (`goScanInt`) | C47, C52 use the model or its proved round trip |
| `json.Marshal` | `NodeWorld.marshal` | C44_exact: the text of a record ends where its first brace is closed (`ObjectText`); refuted if it fails (`C44_lost_context`) |
| `goutil.Join`, `unidecode`, `filepath` | functions | — ; C102 only: `QianAlike`, 前, 千 and 仟 are one word each and are transcribed alike, other literals of the four files otherwise |
| `goutil.Call` (reflection) | `NodeWorld.call`, any outcome; also modelled by the table of functions (`builtinCall`), with `misfit` for arguments the function cannot take | C46: it reaches the two built-ins; C86: a name that is not registered gives an error (`CallsOnly`); both follow from the table (C95) |
| file system | `LoadWorld.read` | finitely many files exist (C27, C33) |
| `sync.RWMutex` | its specification | C49, C51 |
| `sync.Once` | step model of its published code | C50 |
| `Exp(y * Log(x))` inside `math.Pow` | parameter `frac` | C87_cube, C87_accurate, C87_text, C87_int_near: a relative error of at most 2^-40 (`NearPow`); the other theorems of C87: none |
| `otto` (JavaScript engine) | `Js`, with a state; runs end without a panic | C88_partial: after the script it gives the values of expressions with numbers below 10^10 (`JsCalc`); C94_builtin_numerals: the same with `Export` (`JsExports`); the other theorems of C94: none |
| `bufio.Reader.ReadString`, standard input and output | modelled in `Model/Main.lean`; no errors other than the end of the input | C88 |
| `strings.TrimSpace` | `World.trim` | C88_builtin_blank: the empty text stays empty |
| Go memory model | sequential consistency for race-free programs | C49, C50 prove race freedom |
| `encoding/json` on a grammar | `Model/Json.lean` | C99: strings, booleans and maps survive; fields tagged `-` or unexported are zero when read; in an `interface{}` numbers become `float64`, objects `map[string]interface{}`; `*big.Float` is written as a string. Strings are valid UTF-8, numbers below 2^1024. |
| `fmt.Sprintf("%+v")` of a bool and a map of slices of pointers | `Model/FrameText.lean` | C100: maps in the order of their keys, pointers inside as addresses, which have no blanks and brackets |

Not modelled: what HTTP taggers answer (the address they are asked at is, see `Model/Tagger.lean`), logging; of the example programs, flags, `-debug` and `-cpuprofile`. `nil` receivers that
the library never creates (nodes without parse) are not modelled.
Ghost data, not present in Go: `LoadSt.log` (files read, for C33), `Parsed.off` (offset of a parse), the lists of
lock holders in `Model/Conc.lean`.

## 4. Properties: what is modelled and how it is proved

| id | model | method |
|---|---|---|
| C01 | Earley loop + inductive derivation relation `Yields` | chart ⊆ Earley deduction system (`Item`) by loop invariant; `Item` sound by induction. Full statement refuted by C09's witness; proved against the relaxed range reading always, and strictly under uniform bounds |
| C02 | same | `Item` complete for `Yields` (induction on derivations), chart closed under `Item` when the terms that derive the empty sequence are placed safely (`NullSafe`, see C64). Full statement refuted (nullable witness) |
| C03, C04 | `parse` final-state selection | list reasoning on top of C01/C02 |
| C05 | column loop with fuel | well-founded induction on (non-list states missing, non-list rows pending, list rows pending) |
| C06 | order oracle | chart = `Item` as sets under `NullSafe`; refuted in general by a two-order witness |
| C07, C08 | loop invariants | induction over the loop |
| C09 | C01 machinery | witness + theorem under uniform bounds |
| C10, C11, C12, C14, C15, C16 | `buildTrees` on charts | induction on chart rank (column,row); provenance invariant for C12 |
| C13 | same; length of the right spine (`Spec/Spine`) | refuted by witness; theorem for unambiguous charts; if spines agree, a column holds its completed states in the order of their spines (`chart_sorted` in `Proofs/Levels`, an invariant of the loop), so that every derivation tree is laid out on the chart (`TreeOK.layout` in `Proofs/Layout`) |
| C17–C20, C54 | drivers over an abstract annotator | induction over offsets; C18 refuted for empty matches, and decided exactly by the greedy scan of `Spec/Greedy` |
| C21 | Boundary/OriginalText on byte lists | exact behaviour for every node of every tree (`C21_exact`); witnesses for leading blank and empty nodes |
| C22 | `Equal` functions | mutual induction on expressions |
| C23 | decision function | case analysis |
| C24, C25, C55 | refine as a fold | simulation of derivations in both directions |
| C26 | two refined grammars | witness; theorem when equal generated names stand for equal literals |
| C27 | fuelled grammar parser | divergence for all fuel on witnesses; termination on clean inputs |
| C28, C29, C30, C31, C32, C56 | grammar parser + relational syntax | forward reading and inversion for every syntactic category |
| C52 | `FMR.String` + the same syntax | mutual induction on expressions, then C28's reading theorem |
| C33 | loader over abstract file system | measure on file counters |
| C34–C36 | regexpTag, localGrammar | list reasoning, `Yields` |
| C74 | regexpTag, localGrammar, against alternatives listed without them (`DocAlt`) | the maps keep what was put in under distinct hashes; errors by induction over tokens and spans |
| C37–C41, C45, C57 | index/frames | invariants of folds, reachability |
| C42–C44, C53 | Eval/Semantic over an expression spec; for C44_exact what can be seen of an expression (`Spec/Visible`) | structural induction; prefix-code argument for injectivity |
| C46–C48 | functions | direct |
| C58 | chart of a prefix | the column loop never reads later tokens; induction over columns |
| C59 | `Tree` | structural induction; offsets from C21 |
| C60–C62 | rational arithmetic with rounding | error bounds for rounding, then uniqueness of the nearest decimal |
| C63 | function | direct, from the contract |
| C64 | C02 machinery | every state waiting for an empty term is inserted before the empty state is completed: the history of a column (`Born`: which row added which row, in order), states ordered by the depth of the literal they were reached over (`Born.sorted`); six refuting grammars for the parts of the condition |
| C65 | Earley loop | the items of a column lie in an explicit finite set; columns have no duplicates; induction over the loop |
| C66 | C01 and C02 | composition; refuted by two grammars |
| C67, C68 | the parser as programs over `next`/`backup`, run on runes and on bytes | run on runes = `Model/Lexer.lean` function by function; simulation between the runs, with the invariant that every `backup` follows a `next`; `utf8.DecodeRuneInString` is modelled and inverted |
| C69 | as C67 | induction on programs: the position never falls below the rune before the last `next` |
| C70–C72 | texts as rune lists | prefix-code argument for every printed form; indentation and newlines separate the nodes |
| C73 | all of the above, against productions written down without the loader, refinement or local grammar | the loader holds the definitions of each file (C28 along the include graph, C33), refinement keeps the language of all files together (C26), the local grammar gives the productions of the document (C34–C36), the condition on optional parts is carried from the texts to the parser's rules (`HeldBy.nullSafe`), then C54 |
| C75 | the same, with `ParseAny`, `ExtractAll`, `ExtractMaxAll` against result specifications that know nothing of parsing (`Spec/Drivers`) | C17–C19 and C54 with fuel made uniform (`earleyParse*_mono`), then the languages of C73 |
| C76 | trees of symbols that are literals, tokens or other terms, over the alternatives as written (`Spec/TextTrees`) | the grammars in the parser mirror the written ones, up to names of literals that are reserved and one to one (`HeldBy.mirrors`); structural induction on nodes in both directions (`Mirrors.tree`) |
| C77 | words, references and tried rules over the written definitions (`Spec/TextFrames`) | the words and references in the index are those of the files (`IndexedBy`, `HeldBy.textWord`, `HeldBy.candidate`), composed with C41, C57, C73 and C76 |
| C78 | meanings of parts of the document by the written functions, without nodes or trees (`Spec/TextMeaning`) | structural induction on the trees of C76: each has a meaning, which is that of C42 (`tree_means`, `func_says`) |
| C79 | the syntax of `Spec/Syntax` with include directives, and for all files reachable by them (`Spec/Accept`, `Spec/Includes`) | accepted texts by inversion of the parser along the log of files read (`taken_fromFile`); texts in the syntax by induction on the number of files not yet read (`ok_file`), with one result for all large bounds (`EvOk`) |
| C80 | the same syntax | two readings of a text are both what the (deterministic) parser functions read (`Reads.det`), level by level (`Gap.det` … `FileSyn.det`) |
| C81 | Chinese numerals and their values, by recursion on the blocks of four digits, without grammar or parser (`Spec/Numerals`); what is printed for a number (`Spec/Printed`) | the texts and values of each rule of the written grammar by induction on meanings (`CharLang`, `number_sounds`), numerals are read (`number_reads`), composed with C78 and C79; the acceptance of the shipped text is checked part by part in the kernel |
| C82 | a column to which nothing can be added without reading a token (`Spec/Columns`) | the flags of `insert` say whether the column grows (`Flagged`); a round without growth changes nothing, so all rows are closed; growth is bounded by the finitely many items of a column |
| C83 | the syntax of `Spec/Syntax`; known rules and indices of written alternatives (`Spec/Shipped`) | a reader that is sound for the syntax (`Proofs/Reader`) is run on each text in the kernel; composed with C79 and C80. The rejected file by inversion of the syntax (`Proofs/BadFile`) |
| C84 | expressions with all brackets, their values, and which words they bracket (`Spec/Calc`), without grammar or parser | the texts and values of grammars over words (`Proofs/WordLang`), the text and the meaning of the trees of all four calls (`Proofs/WordParse`, from C76 and C78), grammars of one file (`Proofs/OneFile`, from C79); for the refutation the loaded grammar is derived from the definitions (`oneFile_exact`), and the parse is run in the kernel |
| C85 | English numerals and their values, by the words for digits, teens, tens and powers of a thousand (`Spec/English`), without grammar or parser; that every number below 10^12 has one is proved there | each rule with a unit word is characterised (`Scaled`), the unit word divides a text in one way (`split_word`), so all values of a numeral agree (`numeral_sure`); composed with grammars of one file (`Proofs/OneFile`) |
| C86 | the calls in a function (`Calls`) and in an expression (`ExprCalls`), a table of missing functions by file (`Spec/Called`); decimals by their words (`EnDecimal`, `ZhDecimal`) | the calls of a file are computed from its parts and compared with the table in the kernel (`partsCalls_iff`); a second evaluator (`fmrBad`) says whether a tree fails, and a check of the rules (`badDefs`) shows that it fails on every text with the word point |
| C87 | integer powers, real square roots (`Real.sqrt`) and real powers (Mathlib), texts by the numbers that they denote (`Denotes`) | the loop of `math.Pow` as repeated squaring of numbers with 53 bits is exact while all bits fit (`powLoop_exact`, by the odd part of the base: `powLoop_int`); square roots by the integer square root (`sqrtBits_near`); cube roots by log 2 ≥ 1/2; accuracy by intervals (1 ± 2^-52)^k that products, quotients and roundings keep (`Near`, `powLoop_near`); the documented special cases as an inductive relation (`Spec/Pow`) |
| C88 | lines of an input, the expressions among words and the text of an answer (`Spec/Program`), without grammar, parser or loop | programs as state transformers with output (`Act`); the loop is a fold over the lines (`answerLoop_eq`), parts that go through compose (`Does`); the trees of each parse from C84, with the parses that they belong to (`ParseGroups`) |
| C89 | English numerals with the words that count each power of a thousand (`Spec/EnglishParts`, equal to the numerals of `Spec/English`), expressions and their values (`Spec/Calc`) | the rules of the grammar as inductive predicates on words (`Proofs/BuiltinLang`, with the generic `Proofs/WordRules`); induction over the blocks of a numeral bounds all readings (`counted_read`) and gives the least and the right one (`counted_reads`); composed with grammars of one file (`Proofs/OneFile`) |
| C90 | Chinese numerals (`Spec/Numerals`), texts that begin with 十 and a digit or have 零 after 万 (`Spec/NumeralGaps`) | the rules of the grammar as inductive predicates on words with values (`Proofs/CnNumLang`), which are shown to be functions (`cnNum_fun`); a numeral has one of the features or is read (`number_short`), a text with a feature is not read beyond it (`teen_prefix`, `gap_prefix`), so the longest prefix is known (`PrefixMatches.longest`) |
| C91 | derivation trees (`Spec/Trees`) | a graded grammar with two choices per token; all its trees are returned (C13) and none twice (C14, `Laid.shape_inj` in `Proofs/ShapeInj`), and they are in bijection with bit lists |
| C92 | two runs with different order oracles | kernel-checked witness; otherwise both runs return exactly the derivation trees (C13) and none twice (C14) |
| C93 | two grammars and a map of names between them | simulation: every step of the parser and of the tree builder commutes with the renaming, on states that refer to reachable rules only; any order of the one run is the image of an order of the other |
| C94 | the answers from texts and what the engine replies to them one after the other (`Replies`, `MathAnswer`, `PlainAnswer`, `BuiltinAnswer` in `Spec/Answers`), without grammar, trees or loop | the parts of `EarleyParseMaxAll` with the meanings of their trees (`TextMeans`) from C84 and C89; the loops are run exactly, state by state (`mathTrees_run`, `builtinTrees_run`), and a text that can be read as a whole is its only part (`parts_whole`) |
| C95 | the registered names; parity, primality, integers, rounded quotients | table lookup, and the results of C47, C60–C63, C87 for each entry |
| C96 | two sets of files with the same alternatives and regexps (`SameText`, `Spec/Moved`) | C76 for both; the grammar of the texts and all its conditions are the same; matches of a greedy or exhaustive scan are determined by the language; refuted without `LiteralsApart` by running loader and parser in the kernel |
| C97 | two runs over tokens that the reachable literals do not tell apart (`Spec/Alike`) | simulation: all states refer to reachable rules and literals only, so both runs build the same chart; then the loops of the four calls; the names of the local grammar by induction over its construction |
| C98 | three runs: a text and the two parts on either side of a token (`Spec/Separate`) | no row scans the token, so the next column is empty and all later ones are; the chart before it is that of the first part (C58); loops of the four calls by induction, with the runs on the second part shifted; C97 for the places of tokens and the local grammars |
| C99 | the data after `json.Marshal` and `json.Unmarshal` (`Model/Json`), parsed by the model of the parser | invariant of items for "nothing is found" (no state is named like a start rule); for "never ends" an invariant of the row loop (a state that waits for the rule is always ahead), as a decoded body equals no body; exactness by unfolding |
| C100 | `Frame.string` over printed addresses (`Model/FrameText`) | the text can be read back: induction over lists in brackets for elements that can be told from what follows; sorting by distinct keys forgets the order |
| C101 | two runs: a text and a continuation of it (`Proofs/Extend`) | the chart of the shorter text is a prefix of the other chart (C58); the loops of the four calls run in lockstep, by induction, until a match reaches into the added part; the order oracles are asked at the same calls |
| C102 | the shipped files as loaded (C83), the names that `refine` chooses (`Proofs/RefineNames`, `Proofs/ShippedLoad`) | an invariant of the loop of `refine`: every name is the plain name of its literal or that with a number, and the plain name is given to the first; so in each file some literal has the shared name; a derivation through both files; for the rest induction over the derivations of the rules of numbers |
| C103 | two runs: a text and a part of its tokens (`Props/Alone`) | every match of the loops is that of a parse of the tokens from its offset on; what follows is cut off as in C101, and the offset, the number of the parse and the other tokens are changed as in C98 |
| C104 | regexpTag, localGrammar, against the tagged places of the document (`Spec/Tagged`) | the alternatives of a tag are those of the document (C74), also next to the rules of the grammar; they are plain words, so what they derive is decided by words |
| C105 | final states with several start rules and with each alone | composition of C01, C02 and C03; witness with two orders |
| C106 | mathMul after mathDiv | composition of C61 and C62; a text with six digits after the point is a whole number of millionths, and two such numbers closer than one millionth are equal |
| C107 | parse where each call of terminalMatch sees a state of the registry | invariant of the concurrent runs: a goroutine that is about to write has seen the key missing and done nothing since; the chart depends on terminalMatch only through the literals (C97) |
| C108 | load twice with different registries, then parse | relational induction over the loader (outcomes of the same kind, equal but for the registry); every literal of a loaded grammar has a token, and it is a word of some literal |
| C109 | parse two texts with the same trimmed text | relational proof over the four parse loops (equal but for the text kept), then structural induction over trees and functions: `Semantic` reads tokens only, `Eval` reads bytes inside of the common beginning |
| C110 | query of the context tagger: read, set, write | escaping and reading are inverse (induction over bytes), association list invariants, uniqueness of sorted permutations |
| C111 | the four calls side by side | induction over pairs of driver loops: parses with and without the flag for the longest match have the same chart; C06 for different orders |
| C112 | slots as pieces of the text | the slots of `matchFrames_spec`; a piece of a prefix of a text is a piece of the text |
| C113 | bytes that are not UTF-8 | invariant of all parser programs (`Prog.run`): the position stays in front of the rune that cannot be read, and the last rune read is in front of it; transfer to bytes by C67 |
| C114 | frames without positions | simulation through the four nested loops of `MatchFrames` (`foldOut_both`) with a map that erases positions; the parses by C109; meanings by the view of a node that `Semantic` depends on. That `MultiMatch` finds the same words in both texts is a premise |
| C115 | what a grammar text says, without layout | simulation of the loop over directives (`directives_says`) with the same include function; the definitions give one and the same grammar whatever their layout (`reads_rulesLoop`), over the regexps of the includes (`setAll_setAll`: only the table that assignments make counts); induction on the depth of includes for the files |
| C116 | two sets of files that agree on a closed set of rules (`SameUsed`, `Spec/Unused`) | C76 for both; derivations and trees of the texts from a rule in the set stay in the set (`derive_used`, `TextTree.used`), so the language and the trees are the same; the rest is as in C96 (`callsFind_same`); refuted without conditions on the unused rules by running loader and parser in the kernel |
| C117 | a set of files that has all alternatives and regexps of another (`MoreText`, `Spec/SayMore`) | C76 for both; the conditions on the smaller set, but for `LiteralsApart`, follow from those on the larger (`WholeSafe.less`, `WholeFit.less`); derivations carry over (`derive_more`); the four kinds of matches are compared by what they say of the language only (`callsFind_more`); refuted without `LiteralsApart` for the smaller set by running loader and parser in the kernel |
| C118 | a text with the definitions of all included files (`Pastes`, `Spec/Paste`) | texts of definitions can be joined, over any table of regexps (`paste_defs`); a text of definitions has no directive (`Pastes.alone`); the table of regexps has exactly the entries that are written, since names do not conflict (`setAll_table`); so both say the same, and C96 applies; refuted without the condition on literals by running loader and parser in the kernel |
| C49–C51 | interleaving transition systems | inductive invariants over all schedules |

## 5. Findings: statements that are false of the code

Each has a theorem with a concrete witness; the claim keeps a `_partial` theorem with the missing condition.

| id | what goes wrong | witness |
|---|---|---|
| C01, C09 | `complete` matches `(any{m,n})` and `(list<x>{m,n})` of different bounds, so bounds of one rule are applied to another | `C01_false`, `C09_false` |
| C02, C06 | a nullable rule used twice in a column is completed only for the states present at that time: matches are lost, depending on map order | `C02_false`, `C06_false` |
| C13 | a tree is lost when a node is completed a second time after its parent | `C13_false` |
| C18 | a start rule that matches the empty sequence makes `EarleyParseMaxAll` loop forever | `C18_false` |
| C21 | byte offsets of the trimmed text are applied to the untrimmed one; `Pos` panics on empty nodes at the ends | `C21_false`, `C21_pos_panics` |
| C22 | `Equal` is not reflexive on foreign argument types | `C22_false` |
| C24 | literals with equal text and different flags share one rule; generated names can capture references to undefined rules | `C24_false`, `C24_capture_false` |
| C26 | literals of different files can get the same generated name | `C26_false` |
| C27 | a line comment without newline at the end of the text, or U+FFFD, makes the loader loop forever | `C27_false`, `C27_false_unknown` |
| C29 | a literal cannot start with a blank, nor contain U+FFFD | `C29_false` |
| C30 | the empty literal becomes an empty alternative | `C30_false` |
| C31 | numbers wrap around at 2^63 | `C31_false`, `C31_exact` |
| C32, C35 | hash collisions drop alternatives | `C32_false`, `C35_false` |
| C36 | a span with a blank inside is not recognised | `C36_false` |
| C74 | two alternatives of a rule with the same hash: one is lost | `C74_false` |
| C38, C57 | `(list<x>)` references are not in the index; rules without literals are never tried | `C38_false`, `C57_false` |
| C39 | a frame with a repeated term is never complete; a literal with flags counts as filled | `C39_false`, `C39_false_flags` |
| C40 | panics: frames from included files, empty derivations, `@` in a frame's function | `C40_false` … |
| C41 | no candidate rule is an error | `C41_false` |
| C42 | `Semantic` uses the normalised text, `Eval` the original one | `C42_false` |
| C44 | 3 and 3.0 print alike; so do 1 and 1 + 2^-40, since numbers are printed with ten digits; `f(@)` prints as `f()` if `json.Marshal` fails, since its error is dropped | `C44_false`, `C44_digits`, `C44_lost_context` |
| C45 | literal slots print null although filled | `C45_false` |
| C47 | text after a number is ignored, leading zeros mean octal | `C47_false`, `C47_leading_zero` |
| C50 (true) | but after a panicking initialisation later calls return nil or a partial pipeline | `C50_after_panic` |
| C52 | context arguments, unknown escapes, leading blanks or parentheses, integral floats do not survive | `C52_false` … |
| C53 | labels are not quoted, so a literal with brackets breaks the structure | `C53_false` |
| C59 | `Tree` panics for nodes over no token at the ends of the token list; elsewhere such a node is placed before the next token, outside its parent | `C59_false`, `C59_layout_false` |
| C60 | results above ten digits are rounded and printed with an exponent; zero can have a sign | `C60_false`, `C60_rounded` |
| C61 | 9999999999.1 - 9999999999 = 0.09999999963 | `C61_cancel`, `C61_false` |
| C62 | 10^15/3 = 333333333333333.312500; 0/-5 = -0.000000 | `C62_large`, `C62_signed_zero` |
| C66 | one more alternative can make the parser miss a match it found before (optional parts) | `C66_false` |
| C68 | a newline at the beginning of the grammar text is not counted in the rows of error messages | `C68_false` |
| C68 | the argument `-.` of a function gives an error message without a position | `C68_number` |
| C71 | `(any{1,1})` and `(any{1,2})` are different states that are printed alike | `C71_false` |
| C72 | `TreePrint` prints the root and its children only | `C72_false` |
| C73 | `<s>=<a><b>"z"; <a>=""; <b>="";` does not match `z`: both empty literals become one rule, completed before `<b>` waits for it | `C73_false` |
| C75 | the same grammar: `ParseAny`, `ExtractAll` and `ExtractMaxAll` find nothing in `z` | `C75_false` |
| C76 | `<s>=(any{1,1})"x"\|(any{1,2})"yy";` on `a b x`: the tree returned has two words for `(any{1,1})` | `C76_false` |
| C77 | `<s>="a"; [f]=<n><s>; <n>=(any{1,1});` on `ab`: `<n>` derives both tokens and gets no slot | `C77_false` |
| C78 | the grammar of C76: the tree over `a b x` is printed and evaluated, but what is written gives `a b x` no meaning | `C78_false` |
| C79 | `/*` U+FFFD `*/`: a text in the syntax that is rejected | `C79_false` |
| C81 | the shipped number.zh.grammar: 一百亿 evaluates to `1e+10`; 一百二 has two meanings, 120 and 102 | `C81_false`, `C81_ambiguous` |
| C82 | `handleEpsilons` does not return for `<s> = (list<o>)` with an empty `<o>`; its call, commented out, would not make the parser complete | `C82_false`, `C82_not_enough` |
| C83 | the shipped examples/builtin/any.grammar cannot be loaded: its literal `"("` is taken for the start of flags | `C83_rejected`, `C83_false` |
| C84 | the shipped arithmetic.grammar is ambiguous and readings are lost: nine minus two times three minus one has five values, `Parse` returns four trees | `C84_false` |
| C85 | the shipped number.en.grammar: ten billion evaluates to `1e+10`; hundred thousand and zero is a number | `C85_false`, `C85_loose` |
| C86 | 13 of the 16 shipped grammars that load call functions that the library does not have; with those for numbers, every number with decimals (one point five, 一点五) is parsed and none of its trees can be evaluated | `C86_false`, `C86_missing`, `C86_english`, `C86_chinese` |
| C87 | `pow` is not exact beyond 53 bits (3^40); the cube root of every cube from 8 on comes out too small, since a third is passed as the text `0.333333`; cube roots of negative numbers are `NaN` | `C87_false`, `C87_large`, `C87_cube`, `C87_cube_negative` |
| C88 | a last line without newline is ignored by all three example programs; a blank line ends examples/arithmetic and examples/builtin with an error | `C88_false`, `C88_lost`, `C88_blank`, `C88_builtin_blank` |
| C89 | the shipped examples/builtin/builtin.grammar adds what it should multiply: one hundred fifty thousand is 50100 in every tree, and twenty one thousand is also 1020 | `C89_false`, `C89_wrong`, `C89_two` |
| C90 | the shipped examples/builtin/cn_num.grammar cuts numerals off without an error: 十五 is 10, 一万零五 is 10000; 零 is not a number | `C90_false`, `C90_wrong`, `C90_zero` |
| C91 | GetTrees builds all trees of an ambiguous match at once: exactly 2^n for n tokens with a grammar of four rules | `C91_exponential`, `C91_false` |
| C92 | the number of trees differs from run to run of the same program: which completed states come before their parents depends on the order in which Go iterates over the map of rule bodies | `C92_false` |
| C93 | Tree and Bracketed take every rule whose name begins with `l_t_` or `g_t_` for a literal and leave out what is below it, also if the grammar's author chose the name | `C93_prefix`, `C93_prefix_tree` |
| C96 | moving a rule to an included file can change what is matched: literals that differ in punctuation only are told apart within a file but not between files | `C96_false` |
| C99 | `Rule.Name` is tagged `json:"-"` (types.go:66), so a grammar read from JSON matches nothing. Ranges, numbers, indexes and calls are read as values of types that `Equal` does not know (types_util.go:8-132), so such an alternative does not equal itself; if it is left-recursive the parser adds it to the first column again and again and never returns (C99_forever). |
| C100 | `(*Frame).String` prints the addresses of the slots instead of the slots (types.go:61). |
| C102 | With a grammar loaded from grammars/limit.grammar or grammars/time.grammar, 前 ("the first", "before") is a number: `refine` names the rules of literals after their words in ASCII, unidecode gives "Qian" for 前, 千 and 仟, and the rules `g_t_Qian` of the file and of the included grammar of numbers are united by name (grammar_refine.go:12-77; whichever of 千 and 仟 comes first in map order, each is an alternative of `cn_e3`). Proved for every map order by `C102_read`. In the same file `<day>` is given the function `nf.datetime.month` (grammars/time.grammar:7-8), seen while reading and not stated as a property. |
| C104 | The local grammar keeps the words of a tagged place and forgets the place (local_grammar.go:45-82): with the regexp `a$` the first `a` of `a!a` is a match, and tags with the same words exchange their values. | `C104_away`, `C104_mixed`, `C104_false` |
| C105 | `parse` returns at the first completed start state of the last column that has one (earley.go:202-205): of several start rules that match the longest piece one is reported, and which one depends on the order of map iteration. | `C105_order`, `C105_false` |
| C106 | `div` writes its quotient with `%f`, that is in millionths, and `mul` reads that text: a fraction of a number is wrong unless the denominator divides 10^6 times the numerator. A third of six is 1.999998. | `C106_exact`, `C106_thirds`, `C106_false` |
| C107 | `refine` calls `gTokens.get` and then `gTokens.put` (grammar_refine.go:48-50), and the lock is free in between: a token that a loaded grammar uses can be replaced by one with another lemma while the grammar parses. | `C107_race`, `C107_false` |
| C108 | The tokens that literals with flags are compared with are kept per word for the whole process, and the first literal that contains the word decides (grammar_refine.go:48-50): whether `"(?l)x"` matches `x` depends on the grammars loaded before. | `C108_before`, `C108_false` |
| C109 | White space in front of a text changes what `Eval` gives: the value of ` a` by `<s> = "a"` is the space (same cause as C21). White space at the end is harmless, and trees and meanings are never affected. | `space_values`, `C109_false` |
| C110 | The error of reading the query of the flag `ctx_tagger` is ignored (api.go:200): parameters with a semicolon, or with a `%` that is no escape, are left out of the request. | `semi_lost`, `C110_false` |
| C111 | A text that `Parse` finds a match in may be one in which `ExtractAll` finds nothing, if map iteration has another order (the loss of C06). | `ord_answers`, `C111_false` |
| C112 | Positions of literals of a frame count from the text as given, those of references from the trimmed text. In ` ab`, matched by `[f] = "a" <s>` with `<s> = "b"`, both slots are at bytes 1 to 2. | `same_place`, `C112_false` |
| C113 | A text or file that starts with a byte that is not UTF-8, or with U+FFFD, is loaded without an error as a grammar without rules, whatever follows; a grammar saved as UTF-16 is an example. Such bytes anywhere else are never accepted. | `C113_silent`, `C113_false` |
| C56 | the text U+FFFD is accepted, though not in the syntax | `C56_false` |
| C116 | including a file whose rules are not used can change what a rule matches: with `<b>="y";` included, `<a>="y!";` matches `y` | `C116_false` |
| C117 | a grammar that says the same or more can lose a match: `<a>="y!";` matches `y` if `<b>="y";` is included, but not if it is in the same file | `C117_false` |
| C118 | pasting the definitions of an included file in place of the directive can change what is matched: `<a>="y!";` matches `y` if `<b>="y";` is included, but not if it is pasted in | `C118_false` |

## 6. Trusted base

* The Lean 4.33 kernel. No `native_decide`, no `bv_decide`, no `sorry`, no axioms of our own; concrete witnesses are
  checked with `decide +kernel` or `rfl`, i.e. by kernel reduction.
* Axioms. `#print axioms` on every theorem of the manifest gives a subset of `propext`, `Classical.choice`,
  `Quot.sound`. Those that need less than all three are:
  * none: `C33_regexps`, `C46_list`;
  * `propext` only: `C22_foreign`, `C22_false`, `C42_function`, `C46_entity`, `C50_after_panic`, `C108_grammar`;
  * `propext`, `Quot.sound`: `C101_trees`, `C110_order`, `finals_have_address`, `C21_partial`, `C21_empty_node`, `derives_iff_sources`, `C25_mono`,
    `C31_partial`, `C31_exact`, `C34_regexp_spans`, `C37_index`, `C37_build`, `C37_no_error`, `C38_partial`, `C38_no_lists`,
    `C42_function_panics`, `C46_entity_call`, `C46_entity_nil`, `C58_chart`, `C50_once`, `C50_waits`, `C50_race_free`, `C50_progress`, `C68_positioned`,
    `C68_positioned_file`;
  * all others: all three.
* The copies of the grammar files in `Model/Shipped.lean` (C81) and `Model/ShippedMore.lean` (C83–C86, C89, C90), character by character.
* The reading of the Go code recorded in the comment of each definition, and of the library code named in section 3.
* The specifications under `Spec/`, and the statements in `Props/`.
