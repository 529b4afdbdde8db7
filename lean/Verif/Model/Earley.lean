import Verif.Model.Types

/-!
# Model of earley.go and earley_terminal_match.go
-/

namespace Fmr

/-- Token classes of the external package `ling` used by this repository
(local_grammar.go:21-30, grammar_refine.go:38-41, api.go:213). `otherTok` is any other class. -/
inductive TokType where
  | space | word | punct | symbol | letters | otherTok
  deriving DecidableEq, Repr

/-- `ling.Token`, the fields used by this repository (external package `ling`).
`Annotations[ling.Lemma]` and `Annotations[ling.Norm]` are `lemma_` and `norm`. -/
structure Token where
  text : String
  type : TokType := .word
  lemma_ : String := ""
  norm : String := ""
  startByte : Nat := 0
  endByte : Nat := 0
  i : Nat := 0
  deriving DecidableEq, Repr

/-- earley.go:11 `GammaRule`. -/
def gammaRule : String := "ɣ"

/-- `strings.Contains(flags, c)` for a one-character needle (earley_terminal_match.go:21,25). -/
def hasFlag (flags : String) (c : Char) : Bool := flags.toList.contains c

/-- earley_terminal_match.go:9-33 `terminalMatch` for non-nil term and token.
`gtok` is `gTokens.get` (grammar_tokens.go:14-18), `lower` is `strings.ToLower`.
`flags, _ := term.Meta.(string)` yields `""` for a non-string Meta. -/
def terminalMatch (lower : String → String) (gtok : String → Option Token)
    (term : Term) (token : Token) : Bool :=
  if term.type ≠ .terminal then false
  else
    match term.meta, gtok term.value with
    | .nil, _ => term.value == token.text
    | _, none => term.value == token.text
    | m, some t =>
      let flags := match m with | .flags s => s | _ => ""
      if hasFlag flags 'l' then t.lemma_ == token.lemma_
      else if hasFlag flags 'i' then lower t.norm == lower token.norm
      else false

/-- earley_terminal_match.go:10 nil handling of `terminalMatch`. -/
def terminalMatchPtr (lower : String → String) (gtok : String → Option Token) :
    Option Term → Option Token → Bool
  | some term, some token => terminalMatch lower gtok term token
  | _, _ => false

/-- earley.go:19-25 `TableState`. `End` is called `stop`. `Rb` may be nil. -/
structure TState where
  term : Term
  rb : Option RuleBody
  start : Nat
  stop : Nat
  dot : Nat

/-- earley.go:44-59 `(*TableState).Equal` for non-nil arguments. -/
def TState.equal (s ts : TState) : Bool :=
  if s.start ≠ ts.start || s.stop ≠ ts.stop || s.dot ≠ ts.dot ||
      !(RuleBody.equalPtr s.rb ts.rb) then false
  else s.term.equal ts.term

/-- earley.go:44-53 nil handling of `(*TableState).Equal`. -/
def TState.equalPtr : Option TState → Option TState → Bool
  | none, none => true
  | some s, some t => s.equal t
  | _, _ => false

/-- earley.go:61-69 `metaEmpty`. (An empty `map[string]int` is never built, see `Meta`.) -/
def TState.metaEmpty (s : TState) : Bool :=
  match s.term.meta with
  | .nil => true
  | _ => false

/-- `len(s.Rb.Terms)`; earley.go:85 dereferences `s.Rb`. For nil `Rb` Go panics; the value 0 used
here is never consulted in a parse (theorem `C08_parse_never_faults`). -/
def TState.bodyTerms (s : TState) : List Term :=
  match s.rb with
  | some rb => rb.terms
  | none => []

/-- earley.go:71-87 `isCompleted`. -/
def TState.isCompleted (s : TState) : Bool :=
  match s.term.type with
  | .any | .list =>
    if !s.metaEmpty then
      match s.term.meta with
      | .range min max => decide (min ≤ (s.dot : Int)) && decide ((s.dot : Int) ≤ max)
      | _ => false
    else decide (s.dot > 0)
  | _ => decide (s.dot ≥ s.bodyTerms.length)

/-- the test `!s.metaEmpty() && meta is map && s.Dot >= meta["max"]` of earley.go:92-95, 99-102. -/
def TState.maxReached (s : TState) : Bool :=
  match s.term.meta with
  | .range _ max => decide (max ≤ (s.dot : Int))
  | _ => false

/-- earley.go:89-111 `getNextTerm`; `none` is nil. -/
def TState.getNextTerm (s : TState) : Option Term :=
  match s.term.type with
  | .any => if s.maxReached then none else some s.term
  | .list =>
    if s.maxReached then none
    else some { value := s.term.value, type := .nonterminal, «meta» := s.term.meta }
  | _ => if s.isCompleted then none else s.bodyTerms[s.dot]?

/-- earley.go:118-121, the normalisation at the start of `insertToEnd`: sets `End` to the column
index and, for `Any`, `Dot` to `End - Start` (Nat subtraction; Start ≤ End by C07). -/
def TState.placed (idx : Nat) (st : TState) : TState :=
  let st := { st with stop := idx }
  if st.term.type = .any then { st with dot := st.stop - st.start } else st

/-- earley.go:117-133 `insertToEnd`: the new column states and the returned state.
`idx` is `col.index`. The returned pointer is a fresh one iff the third component is true. -/
def insertToEnd (idx : Nat) (states : List TState) (st : TState) (end_ : Bool) :
    List TState × TState × Bool :=
  let st := st.placed idx
  match states.findIdx? (fun s => s.equal st) with
  | some i =>
    match states[i]? with
    | some s => if end_ then (states.eraseIdx i ++ [s], s, false) else (states, s, false)
    | none => (states, st, false)   -- impossible: findIdx? is in range
  | none => (states ++ [st], st, true)

/-- earley.go:113-115 `insert`, new column states only. -/
def insert (idx : Nat) (states : List TState) (st : TState) : List TState :=
  (insertToEnd idx states st false).1

/-- The data a `Parse` (earley.go:35-41) works on, plus the environment the Go code reaches through
globals. `ord c r k l` is the order in which Go iterates the body map (whose entries are listed in
`l`) of grammar number `k` in the `predict` call issued while processing row `r` of column `c`. -/
structure Env where
  grammars : List Grammar
  tokens : List Token
  starts : List String
  tmatch : Term → Token → Bool
  ord : Nat → Nat → Nat → List RuleBody → List RuleBody

/-- map lookup (Go `m[k]` with ok flag) on an association list. -/
def lookupRule (g : Grammar) (name : String) : Option Rule := g.rules.lookup name

/-- earley.go:243-244 the state inserted by `predict` for one production. -/
def predicted (name : String) (prod : RuleBody) (idx : Nat) : TState :=
  { term := { value := name, type := .nonterminal, «meta» := .nil }, rb := some prod,
    start := idx, stop := 0, dot := 0 }

/-- earley.go:235-252 the package function `predict` for one grammar; `bodies` reorders. -/
def predictG (g : Grammar) (order : List RuleBody → List RuleBody) (idx : Nat)
    (states : List TState) (term : Term) : List TState :=
  match lookupRule g term.value with
  | none => states
  | some r =>
    (order r.bodies).foldl (fun acc prod => insert idx acc (predicted r.name prod idx)) states

/-- loop of earley.go:261-263 over `p.grammars`, numbering the grammars from `k`. -/
def predictAll (order : Nat → List RuleBody → List RuleBody) (idx : Nat) (term : Term) :
    Nat → List Grammar → List TState → List TState
  | _, [], states => states
  | k, g :: gs, states =>
    predictAll order idx term (k+1) gs (predictG g (order k) idx states term)

/-- earley.go:254-274 method `predict` (new column states). -/
def predict (env : Env) (idx row : Nat) (states : List TState) (term : Term) : List TState :=
  match term.type with
  | .nonterminal => predictAll (env.ord idx row) idx term 0 env.grammars states
  | .any | .list =>
    insert idx states { term := term, rb := none, start := idx, stop := 0, dot := 0 }
  | _ => states

/-- earley.go:287-288 the matching condition in `complete`. -/
def completes (next : Term) (state : TState) : Bool :=
  (next.type == .any && state.term.type == .any) ||
  (next.type == state.term.type && next.value == state.term.value)

/-- earley.go:289-290 the advanced state built by `complete`. -/
def advanced (st : TState) (next : Term) : TState :=
  { term := { value := st.term.value, type := st.term.type, «meta» := next.meta },
    rb := st.rb, start := st.start, stop := 0, dot := st.dot + 1 }

/-- earley.go:282-298 body of the loop in `complete`. -/
def completeStep (idx : Nat) (state : TState) (acc : List TState) (st : TState) : List TState :=
  match st.getNextTerm with
  | none => acc
  | some next => if completes next state then insert idx acc (advanced st next) else acc

/-- earley.go:277-300 `complete`. `snapshot` is `p.columns[state.Start].states` as evaluated once by
Go's `range`, so states appended meanwhile are not visited. -/
def complete (idx : Nat) (snapshot states : List TState) (state : TState) : List TState :=
  snapshot.foldl (completeStep idx state) states

/-- earley.go:213-233 `scan` into the column with index `idx` whose token is `token`. -/
def scan (tmatch : Term → Token → Bool) (idx : Nat) (token : Token) (states : List TState)
    (st : TState) (term : Term) : List TState :=
  if term.type = .any then
    insert idx states
      { term := { value := "any", type := .any, «meta» := term.meta }, rb := st.rb,
        start := st.start, stop := 0, dot := st.dot + 1 }
  else if tmatch term token then
    insert idx states
      { term := st.term, rb := st.rb, start := st.start, stop := 0, dot := st.dot + 1 }
  else states

/-- earley.go:157-181, one iteration of the row loop for row `st` (number `row`) of column
`done.length`. `done` are the finished columns, `cur` the current one, `next` the following one.
`tok` is the token of column `i+1`, `none` if there is no such column (the test `i+1 < len(p.columns)`
of 167, 175). `p.columns[state.Start]` is `cur` if `Start` is the current index, else a finished
column. -/
def processRow (env : Env) (done : List (List TState)) (tok : Option Token) (row : Nat)
    (st : TState) (cur next : List TState) : List TState × List TState :=
  let i := done.length
  let cur1 :=
    if st.isCompleted then
      complete i (if st.start = i then cur else done.getD st.start []) cur st
    else cur
  match st.getNextTerm with
  | none => (cur1, next)
  | some term =>
    if st.term.type = .any then
      match tok with
      | some t => (cur1, scan env.tmatch (i+1) t next st term)
      | none => (cur1, next)
    else
      match term.type with
      | .nonterminal | .any | .list => (predict env i row cur1 term, next)
      | .terminal =>
        match tok with
        | some t => (cur1, scan env.tmatch (i+1) t next st term)
        | none => (cur1, next)
      | .eof => (cur1, next)

/-- earley.go:156-181 the row loop `for j := 0; j < len(col.states); j++` with fuel. -/
def runCol (env : Env) (done : List (List TState)) (tok : Option Token) :
    Nat → Nat → List TState → List TState → Option (List TState × List TState)
  | 0, _, _, _ => none
  | fuel+1, row, cur, next =>
    match cur[row]? with
    | none => some (cur, next)
    | some st =>
      let r := processRow env done tok row st cur next
      runCol env done tok fuel (row+1) r.1 r.2

/-- earley.go:152-186 the column loop. `toks` are the tokens of the columns after the current one;
result: all columns. -/
def runCols (env : Env) (fuel : Nat) :
    List Token → List (List TState) → List TState → Option (List (List TState))
  | [], done, cur =>
    match runCol env done none fuel 0 cur [] with
    | none => none
    | some (cur', _) => some (done ++ [cur'])
  | t :: ts, done, cur =>
    match runCol env done (some t) fuel 0 cur [] with
    | none => none
    | some (cur', next) => runCols env fuel ts (done ++ [cur']) next

/-- earley.go:145-149 the initial state for one start rule. -/
def gammaState (start : String) : TState :=
  { term := { value := gammaRule, type := .nonterminal, «meta» := .nil },
    rb := some { terms := [{ value := start, type := .nonterminal, «meta» := .nil }],
                 f := some (.mk "nf.I" [.mk "index" (.int 1)]) },
    start := 0, stop := 0, dot := 0 }

/-- earley.go:144-186 the chart computed by `parse`. -/
def chartOf (env : Env) (fuel : Nat) : Option (List (List TState)) :=
  runCols env fuel env.tokens [] (env.starts.map gammaState)

/-- earley.go:200 condition for a final state. -/
def TState.isFinal (s : TState) : Bool := s.term.value == gammaRule && s.isCompleted

/-- earley.go:197-209 collection of final states, last column first. -/
def finalsAll (chart : List (List TState)) : List TState :=
  chart.reverse.flatMap (fun col => col.filter TState.isFinal)

/-- earley.go:202-205: with `maxFlag` return as soon as one final state is found. -/
def finalsOf (maxFlag : Bool) (chart : List (List TState)) : List TState :=
  if maxFlag then (finalsAll chart).take 1 else finalsAll chart

/-- Result of a parse: the `columns` and `finalStates` fields of `Parse` (earley.go:35-41).
A nil `finalStates` is the empty list. -/
structure ParseResult where
  chart : List (List TState)
  finals : List TState

/-- earley.go:140-211 `(*Parse).parse`. With no start rules nothing is done (141-143). -/
def parse (env : Env) (maxFlag : Bool) (fuel : Nat) : Option ParseResult :=
  if env.starts = [] then
    some { chart := List.replicate (env.tokens.length + 1) [], finals := [] }
  else
    match chartOf env fuel with
    | none => none
    | some chart => some { chart := chart, finals := finalsOf maxFlag chart }

end Fmr
