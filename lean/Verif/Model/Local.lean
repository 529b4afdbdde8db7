import Verif.Model.Earley
import Verif.Model.Out

/-!
# Model of regexp_tagger.go and local_grammar.go

Go strings that are sliced by byte offset are lists of bytes.
-/

namespace Fmr

abbrev Bytes := List UInt8

/-- What `span.Annotations["value"].(map[string]interface{})[k]` may hold (local_grammar.go:61-65):
a `[]interface{}` (its elements) or anything else. -/
inductive SpanVals where
  | items (l : List Val)
  | scalar

/-- `span.Annotations["value"]` (local_grammar.go:46-52): absent/nil, of a foreign type, or a map
(listed in some iteration order). -/
inductive SpanAnn where
  | absent
  | foreign
  | map (m : List (String × SpanVals))

/-- `ling.Span`: token range and annotation; `text` is what `span.String()` returns (external). -/
structure Span where
  start : Int
  stop : Int
  ann : SpanAnn
  text : String := ""

/-- `ling.Document`: text, tokens (including spaces) and spans (external package `ling`). -/
structure Doc where
  text : Bytes
  tokens : List Token
  spans : List Span

/-- regexp_tagger.go:22-31 the loop over tokens for one match; start and end are -1 at first and the
last token that fits wins. -/
def matchBounds (tokens : List Token) (m : Nat × Nat) : Int × Int :=
  tokens.foldl (fun acc token =>
    (if token.startByte = m.1 then (token.i : Int) else acc.1,
     if token.endByte = m.2 then (token.i : Int) + 1 else acc.2)) (-1, -1)

/-- regexp_tagger.go:19-37 the spans added for one match of regexp `typ`. -/
def matchSpan (tokens : List Token) (typ : String) (m : Nat × Nat) : List Span :=
  let se := matchBounds tokens m
  if se.1 = -1 ∨ se.2 = -1 then []
  else [{ start := se.1, stop := se.2, ann := .map [(typ, .scalar)] }]

/-- regexp_tagger.go:8-39 `regexpTag` for a non-nil document: the spans appended to it.
`find s text` is `re.FindAllStringIndex(text, -1)` for the compiled `s`, `none` if `s` does not
compile. The regexps are listed in iteration order.
`span.String()` of such a span is not used (its values are no `[]interface{}`), so `text` is left "". -/
def regexpSpans (find : String → Bytes → Option (List (Nat × Nat))) (regexps : List (String × String))
    (d : Doc) : List Span :=
  if d.tokens = [] ∨ regexps = [] then []
  else regexps.flatMap (fun (typ, s) =>
    match find s d.text with
    | none => []
    | some ms => ms.flatMap (matchSpan d.tokens typ))

/-- regexp_tagger.go:8-39 the document after `regexpTag`. -/
def regexpTag (find : String → Bytes → Option (List (Nat × Nat))) (regexps : List (String × String))
    (d : Doc) : Doc :=
  { d with spans := d.spans ++ regexpSpans find regexps d }

/-- Go map write `m[k] = v` on an association list (position of an existing key is kept). -/
def mapSet {κ ν : Type} [BEq κ] (m : List (κ × ν)) (k : κ) (v : ν) : List (κ × ν) :=
  match m with
  | [] => [(k, v)]
  | (k', v') :: m => if k' == k then (k', v) :: m else (k', v') :: mapSet m k v

/-- local_grammar.go:38-42 and 77-81: add body `rb` with hash `h` to rule `k`. -/
def addBody (rules : List (String × Rule)) (k : String) (h : Nat) (rb : RuleBody) :
    List (String × Rule) :=
  match rules.lookup k with
  | some r => mapSet rules k { r with body := mapSet r.body h rb }
  | none => mapSet rules k { name := k, body := [(h, rb)] }

/-- local_grammar.go:20-30 the name of the token class rule; "" for other classes. -/
def className : TokType → String
  | .word => "word"
  | .punct => "punct"
  | .symbol => "symbol"
  | .letters => "letters"
  | _ => ""

/-- local_grammar.go:19-44 the loop over tokens. `token.String()` is the token's text (external).
`hash` is `hashstructure.Hash`, `none` an error. -/
def localTokens (hash : RuleBody → Option Nat) : List Token → List (String × Rule) →
    Out (List (String × Rule))
  | [], rules => .ok rules
  | token :: ts, rules =>
    let k := className token.type
    if k ≠ "" then
      let rb : RuleBody := { terms := [{ value := token.text, type := .terminal }], f := none }
      match hash rb with
      | none => .err
      | some h => localTokens hash ts (addBody rules k h rb)
    else localTokens hash ts rules

/-- local_grammar.go:54-58 the terms of a span, one per token including spaces; a token index out of
range panics. -/
def spanTerms (d : Doc) (start : Int) : Nat → Out (List Term)
  | 0 => .ok []
  | n+1 =>
    if start < 0 then .panic
    else
      match d.tokens[start.toNat]? with
      | none => .panic
      | some t => do
        let rest ← spanTerms d (start + 1) n
        pure ({ value := t.text, type := .terminal } :: rest)

/-- local_grammar.go:60-72 the semantic function of a span's rule. -/
def spanFmr (sp : Span) (k : String) : SpanVals → Option FMR
  | .scalar => none
  | .items vs =>
    some (.mk "fmr.list" [.mk "string" (.str sp.text),
      .mk "func" (.fmr (.mk "fmr.entity" [.mk "string" (.str k),
        .mk "func" (.fmr (.mk "fmr.list" (vs.map (.mk "string"))))]))])

/-- local_grammar.go:59-82 the loop over the span's annotations. -/
def spanRules (hash : RuleBody → Option Nat) (sp : Span) (terms : List Term) :
    List (String × SpanVals) → List (String × Rule) → Out (List (String × Rule))
  | [], rules => .ok rules
  | (k, vs) :: m, rules =>
    let rb : RuleBody := { terms := terms, f := spanFmr sp k vs }
    match hash rb with
    | none => .err
    | some h => spanRules hash sp terms m (addBody rules k h rb)

/-- local_grammar.go:45-83 the loop over spans. -/
def localSpans (hash : RuleBody → Option Nat) (d : Doc) : List Span → List (String × Rule) →
    Out (List (String × Rule))
  | [], rules => .ok rules
  | sp :: sps, rules =>
    match sp.ann with
    | .absent => localSpans hash d sps rules
    | .foreign => localSpans hash d sps rules
    | .map m => do
      let terms ← spanTerms d sp.start (sp.stop - sp.start).toNat
      let rules ← spanRules hash sp terms m rules
      localSpans hash d sps rules

/-- local_grammar.go:10-93 `localGrammar` of a non-nil document; `none` is a nil grammar. -/
def localGrammar (hash : RuleBody → Option Nat) (find : String → Bytes → Option (List (Nat × Nat)))
    (regexps : List (String × String)) (d : Doc) : Out (Option Grammar) :=
  let d := regexpTag find regexps d
  if d.spans.length = 0 ∧ d.tokens.length = 0 then .ok none
  else do
    let r1 ← localTokens hash d.tokens []
    let r2 ← localSpans hash d d.spans r1
    pure (if r2.length = 0 then none else some { name := "local", rules := r2 })

end Fmr
