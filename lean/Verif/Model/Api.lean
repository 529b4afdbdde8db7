import Verif.Model.Trees
import Verif.Model.Local

/-!
# Model of api.go (drivers), api_easy.go, api_easy_context.go and of `Boundary`, `Pos`, `OriginalText`
-/

namespace Fmr

/-- The world outside this repository, as far as the drivers use it.
* `trim`        : `strings.TrimSpace`
* `annotate`    : `NLP().Annotate` on a new document with the given text, `none` an error
* `ctxTagger`   : the flag of api.go:15
* `annotateCtx` : api.go:196-208, URL parsing, tagger construction and `AnnotatePro`; `none` an error
* `hash`, `find`: see `Model/Local.lean`
* `lower`, `registry` : see `terminalMatch`
* `ord n`       : the map iteration order (see `Env`) of the `n`-th parse of a driver call -/
structure World where
  trim : Bytes → Bytes
  annotate : Bytes → Option Doc
  ctxTagger : String
  annotateCtx : String → Bytes → Option Doc
  hash : RuleBody → Option Nat
  find : String → Bytes → Option (List (Nat × Nat))
  lower : String → String
  registry : String → Option Token
  ord : Nat → Nat → Nat → Nat → List RuleBody → List RuleBody

/-- types.go:16-28 `Grammar` together with its `includes` (27). -/
structure Gram where
  main : Grammar
  includes : List Grammar

/-- earley.go:35-41 `Parse` after parsing: the text and tokens it was made from, its grammars and
start rules (in `env`), its columns and final states. `off` is the offset of its first token in the
token list of the driver call (not stored in Go; kept to state properties). -/
structure Parsed where
  text : Bytes
  env : Env
  res : ParseResult
  off : Nat

/-- api.go:187-209 annotation of the trimmed text, with or without context. -/
def annotateText (w : World) (context : String) (text : Bytes) : Option Doc :=
  if context = "" then w.annotate text
  else if w.ctxTagger = "" then none
  else w.annotateCtx context text

/-- api.go:182-226 `process`: the tokens without spaces and the local grammar. -/
def process (w : World) (g : Gram) (context : String) (text : Bytes) :
    Out (List Token × Option Grammar) :=
  let text := w.trim text
  if text = [] then .err
  else
    match annotateText w context text with
    | none => .err
    | some d =>
      let ret := d.tokens.filter (fun t => t.type ≠ .space)
      if ret = [] then .err
      else do
        let l ← localGrammar w.hash w.find g.main.regexps d
        pure (ret, l)

/-- api.go:163-169 the environment of a parse; `call` numbers the parses of a driver call. -/
def envFor (w : World) (g : Gram) (l : Option Grammar) (tokens : List Token) (starts : List String)
    (call : Nat) : Env :=
  { grammars := [g.main] ++ g.includes ++ (match l with | some l => [l] | none => []),
    tokens := tokens, starts := starts,
    tmatch := terminalMatch w.lower w.registry, ord := w.ord call }

/-- api.go:154-180 `earleyParse` on the tokens from `off` on. -/
def earleyParse (w : World) (g : Gram) (fuel : Nat) (maxFlag : Bool) (text : Bytes)
    (tokens : List Token) (l : Option Grammar) (starts : List String) (call off : Nat) : Out Parsed :=
  if starts.length = 0 then .err
  else if tokens.length = 0 then .err
  else
    let env := envFor w g l tokens starts call
    match parse env maxFlag fuel with
    | none => .div
    | some r => .ok { text := text, env := env, res := r, off := off }

/-- api.go:55-62 `EarleyParseWithContext`; 50-52 `EarleyParse` is context "". -/
def earleyParseCtx (w : World) (g : Gram) (fuel : Nat) (context : String) (text : Bytes)
    (starts : List String) : Out Parsed := do
  let (tokens, l) ← process w g context text
  earleyParse w g fuel true text tokens l starts 0 0

/-- api.go:79-89 the loop of `EarleyParseAnyWithContext`; `p` is the variable `p`. -/
def parseAnyLoop (w : World) (g : Gram) (fuel : Nat) (text : Bytes) (l : Option Grammar)
    (starts : List String) : List Token → Nat → Option Parsed → Out (Option Parsed)
  | [], _, p => .ok p
  | t :: ts, i, _ => do
    let p ← earleyParse w g fuel true text (t :: ts) l starts i i
    if p.res.finals ≠ [] then pure (some p)
    else parseAnyLoop w g fuel text l starts ts (i+1) (some p)

/-- api.go:72-90 `EarleyParseAnyWithContext`. `ok none` is a nil parse with a nil error. -/
def earleyParseAny (w : World) (g : Gram) (fuel : Nat) (context : String) (text : Bytes)
    (starts : List String) : Out (Option Parsed) := do
  let (tokens, l) ← process w g context text
  parseAnyLoop w g fuel text l starts tokens 0 none

/-- api.go:113-118 the largest `End` of the final states, at least 0. -/
def maxEnd (finals : List TState) : Nat :=
  finals.foldl (fun m s => if s.stop > m then s.stop else m) 0

/-- api.go:105-124 the loop of `EarleyParseMaxAllWithContext` at token `i`, with loop fuel `n`
(`call` numbers the iterations). -/
def maxAllLoop (w : World) (g : Gram) (fuel : Nat) (text : Bytes) (tokens : List Token)
    (l : Option Grammar) (starts : List String) : Nat → Nat → Nat → Out (List Parsed)
  | 0, _, _ => .div
  | n+1, call, i =>
    if i < tokens.length then do
      let p ← earleyParse w g fuel true text (tokens.drop i) l starts call i
      if p.res.finals ≠ [] then do
        let rest ← maxAllLoop w g fuel text tokens l starts n (call+1) (i + maxEnd p.res.finals)
        pure (p :: rest)
      else maxAllLoop w g fuel text tokens l starts n (call+1) (i+1)
    else .ok []

/-- api.go:99-125 `EarleyParseMaxAllWithContext`. -/
def earleyParseMaxAll (w : World) (g : Gram) (fuel : Nat) (context : String) (text : Bytes)
    (starts : List String) : Out (List Parsed) := do
  let (tokens, l) ← process w g context text
  maxAllLoop w g fuel text tokens l starts fuel 0 0

/-- api.go:140-151 the loop of `EarleyParseAllWithContext`. -/
def parseAllLoop (w : World) (g : Gram) (fuel : Nat) (text : Bytes) (l : Option Grammar)
    (starts : List String) : List Token → Nat → Out (List Parsed)
  | [], _ => .ok []
  | t :: ts, i => do
    let p ← earleyParse w g fuel false text (t :: ts) l starts i i
    let rest ← parseAllLoop w g fuel text l starts ts (i+1)
    pure (if p.res.finals ≠ [] then p :: rest else rest)

/-- api.go:134-152 `EarleyParseAllWithContext`. -/
def earleyParseAll (w : World) (g : Gram) (fuel : Nat) (context : String) (text : Bytes)
    (starts : List String) : Out (List Parsed) := do
  let (tokens, l) ← process w g context text
  parseAllLoop w g fuel text l starts tokens 0

/-- earley.go:197-209 the final states as pointers, i.e. addresses in the chart, in the order of
`finalsAll`. -/
def finalPtrsAll (chart : List (List TState)) : List (Nat × Nat) :=
  chart.zipIdx.reverse.flatMap (fun p =>
    (p.1.zipIdx.filter (fun q => q.1.isFinal)).map (fun q => (p.2, q.2)))

def finalPtrs (maxFlag : Bool) (chart : List (List TState)) : List (Nat × Nat) :=
  if maxFlag then (finalPtrsAll chart).take 1 else finalPtrsAll chart

/-- api_easy.go:44-48 the trees of one parse. A fault of `GetTrees` is not distinguished from
exhausted fuel here; C11 excludes it. -/
def treesOf (fuel : Nat) (maxFlag : Bool) (p : Parsed) : Out (List Node) :=
  if p.env.starts = [] then .ok []
  else outFlat (fun a => Out.ofFuel (getTrees p.res.chart fuel a.1 a.2)) (finalPtrs maxFlag p.res.chart)

/-- api_easy.go:37-50 `extract` and api_easy_context.go:43-57 `extractWithContext` after the call of
`f`. -/
def extract (fuel : Nat) (maxFlag : Bool) (ps : Out (List Parsed)) : Out (List Node) := do
  let ps ← ps
  outFlat (treesOf fuel maxFlag) ps

/-- api_easy.go:4-12 `Parse`, api_easy_context.go:4-14 `ParseWithContext`. -/
def apiParse (w : World) (g : Gram) (fuel : Nat) (context : String) (text : Bytes)
    (starts : List String) : Out (List Node) :=
  extract fuel true (do
    let p ← earleyParseCtx w g fuel context text starts
    pure [p])

/-- api_easy.go:15-24 `ParseAny`, api_easy_context.go:17-27 `ParseAnyWithContext`.
(A nil parse would panic in `extract`; it is unreachable, see C20.) -/
def apiParseAny (w : World) (g : Gram) (fuel : Nat) (context : String) (text : Bytes)
    (starts : List String) : Out (List Node) :=
  extract fuel true (do
    let p ← earleyParseAny w g fuel context text starts
    match p with
    | some p => pure [p]
    | none => .panic)

/-- api_easy.go:27-30 `ExtractMaxAll`, api_easy_context.go:30-34. -/
def apiExtractMaxAll (w : World) (g : Gram) (fuel : Nat) (context : String) (text : Bytes)
    (starts : List String) : Out (List Node) :=
  extract fuel true (earleyParseMaxAll w g fuel context text starts)

/-- api_easy.go:33-35 `ExtractAll`, api_easy_context.go:37-41. -/
def apiExtractAll (w : World) (g : Gram) (fuel : Nat) (context : String) (text : Bytes)
    (starts : List String) : Out (List Node) :=
  extract fuel false (earleyParseAll w g fuel context text starts)

/-! ## positions -/

/-- types.go:43-46 `Pos`. -/
structure Pos where
  startByte : Nat
  endByte : Nat
  deriving DecidableEq, Repr

/-- `p.columns[k].token` dereferenced: api.go:170-174 column 0 has a nil token, column k+1 the k-th
token; `panic` for an index out of range or a nil dereference. -/
def columnToken (tokens : List Token) : Nat → Out Token
  | 0 => .panic
  | k+1 => Out.ofIndex tokens[k]?

/-- earley_ast.go:22-32 `Boundary` of a non-nil state. -/
def boundary (tokens : List Token) (s : TState) : Out Pos := do
  let a ← columnToken tokens (s.start + 1)
  let b ← columnToken tokens s.stop
  let start := a.startByte
  let stop := b.endByte
  pure { startByte := start, endByte := if stop < start then start else stop }

/-- Go `text[lo:hi]` on bytes; out of range panics. -/
def sliceBytes (text : Bytes) (lo hi : Nat) : Out Bytes :=
  if lo ≤ hi ∧ hi ≤ text.length then .ok ((text.take hi).drop lo) else .panic

/-- node_methods.go:12-14 `Pos`. -/
def Parsed.pos (p : Parsed) (n : Node) : Out Pos := boundary p.env.tokens n.value

/-- node_methods.go:39-42 `OriginalText`. -/
def Parsed.originalText (p : Parsed) (n : Node) : Out Bytes := do
  let pos ← p.pos n
  sliceBytes p.text pos.startByte pos.endByte

end Fmr
