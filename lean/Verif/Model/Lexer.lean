import Verif.Model.Local

/-!
# Model of the grammar text parser: cfgrammar.go, cfgrammar_comments.go, cfgrammar_fmr.go,
cfgrammar_regex.go, cfgrammar_special.go, cfgrammar_terminal.go

The input, a Go byte string, is modelled as the list of its runes; every invalid byte is the rune U+FFFD
(as in Go's own conversion to runes). `utf8.DecodeRuneInString` returns `RuneError` = U+FFFD both for invalid
bytes and for U+FFFD itself, and `next` does not move past either (cfgrammar.go:98-100), so nothing behind
such a position is ever looked at. Positions count runes instead of bytes: `width` is 1 exactly when Go's
width is the byte length of the rune before the position.

The row/column bookkeeping (`current`, `info`) only appears in error messages and is left out; errors carry no
text. `eof` is `none`. All loops take fuel.
-/

namespace Fmr

/-- External code used by the parser:
* `isLetter`, `isDigit`, `isSpace` : `unicode.IsLetter`, `IsDigit`, `IsSpace`
* `hash`      : `hashstructure.Hash` of a rule body, `none` an error
* `regexpOK`  : `goutil.Regexp` succeeds
* `md5`       : the first 16 characters of `goutil.MD5`
* `scanInt`   : `fmt.Sscan` of the text into a `*big.Int`, `none` an error
* `scanFloat` : `fmt.Sscan` of the text into a `*big.Float`, `none` an error -/
structure LexWorld where
  isLetter : Char → Bool
  isDigit : Char → Bool
  isSpace : Char → Bool
  hash : RuleBody → Option Nat
  regexpOK : String → Bool
  md5 : String → String
  scanInt : String → Option Int
  scanFloat : String → Option Rat

/-- cfgrammar.go:15-23 the fields `pos` and `width` of `parser`, and the map `Regexps` of the grammar being
built (written by cfgrammar_regex.go:34). -/
structure PSt where
  pos : Nat
  width : Nat
  regexps : List (String × String) := []
  deriving DecidableEq, Repr

/-- A step of the parser. -/
def P (α : Type) : Type := PSt → Out (α × PSt)

def P.bind {α β : Type} (x : P α) (f : α → P β) : P β := fun s =>
  match x s with
  | .ok (a, s') => f a s'
  | .err => .err
  | .panic => .panic
  | .div => .div

instance : Monad P where
  pure a := fun s => .ok (a, s)
  bind := P.bind

def P.fail {α : Type} : P α := fun _ => .err
def P.div {α : Type} : P α := fun _ => .div

/-- The unknown rune that stops the parser: `utf8.RuneError`. -/
def runeError : Char := Char.ofNat 0xFFFD

section
variable (w : LexWorld) (inp : List Char)

/-- cfgrammar.go:92-118 `next`. -/
def next : P (Option Char) := fun s =>
  match inp[s.pos]? with
  | none => .ok (none, { s with width := 0 })
  | some r => if r = runeError then .ok (none, s)
    else .ok (some r, { s with pos := s.pos + 1, width := 1 })

/-- cfgrammar.go:128-131 `backup`. -/
def backup : P Unit := fun s => .ok ((), { s with pos := s.pos - s.width })

/-- cfgrammar.go:120-126 `eat`. -/
def eat (expected : Char) : P Unit := do
  let r ← next inp
  if r ≠ some expected then P.fail
  else pure ()

/-- cfgrammar.go:133-137 `peek`. -/
def peek : P (Option Char) := do
  let r ← next inp
  backup
  pure r

/-- `p(r)` for a Unicode table, false for eof -/
def inClass (p : Char → Bool) : Option Char → Bool
  | some r => p r
  | none => false

/-- cfgrammar.go:139-146 `ws`; the returned string is never used. -/
def ws : Nat → P Unit
  | 0 => P.div
  | fuel + 1 => do
    let r ← next inp
    if inClass w.isSpace r then ws fuel
    else backup

/-- cfgrammar.go:148-163 the loop of `text`. -/
def textLoop : Nat → Bool → P (List Char)
  | 0, _ => P.div
  | fuel + 1, first => do
    let r ← next inp
    match r with
    | some ch =>
      if w.isLetter ch ∨ ch = '_' ∨ (w.isDigit ch ∧ first = false) then do
        let rest ← textLoop fuel false
        pure (ch :: rest)
      else do
        backup
        pure []
    | none => do
      backup
      pure []

/-- cfgrammar.go:148-168 `text`. -/
def text (fuel : Nat) : P String := do
  let ret ← textLoop w inp fuel true
  if ret.length = 0 then P.fail
  else pure (String.ofList ret)

/-- cfgrammar.go:170-179 `token`. -/
def token (fuel : Nat) (b e : Char) : P String := do
  eat inp b
  let name ← text w inp fuel
  eat inp e
  pure name

/-- cfgrammar.go:181-183 `nonterminal`. -/
def nonterminal (fuel : Nat) : P String := token w inp fuel '<' '>'

/-- cfgrammar.go:185-187 `frame`. -/
def frame (fuel : Nat) : P String := token w inp fuel '[' ']'

/-- cfgrammar_terminal.go:44-55 the rune denoted by an escape -/
def unescape : Char → Option Char
  | '\\' => some '\\'
  | 'n' => some '\n'
  | 't' => some '\t'
  | '"' => some '"'
  | '(' => some '('
  | _ => none

/-- cfgrammar_terminal.go:31-64 `terminalText`; `esc` is `prev == '\\'` (`prev` is used for nothing else). -/
def terminalText : Nat → Bool → P (List Char)
  | 0, _ => P.div
  | fuel + 1, esc => do
    let r ← next inp
    match r with
    | none => P.fail
    | some ch =>
      if ch = '"' ∧ esc = false then do
        backup
        pure []
      else if esc then
        match unescape ch with
        | none => P.fail
        | some x => do
          let rest ← terminalText fuel false
          pure (x :: rest)
      else if ch = '\\' then terminalText fuel true
      else do
        let rest ← terminalText fuel false
        pure (ch :: rest)

/-- cfgrammar_terminal.go:11-23 the optional flags of `terminal` -/
def terminalFlags (fuel : Nat) : P String := do
  let r ← peek inp
  if r = some '(' then do
    let _ ← next inp
    ws w inp fuel
    eat inp '?'
    ws w inp fuel
    let flags ← text w inp fuel
    eat inp ')'
    pure flags
  else pure ""

/-- cfgrammar_terminal.go:5-29 `terminal`: flags and text. The unchecked `p.eat('(')` (12) is a `next`. -/
def terminal (fuel : Nat) : P (String × String) := do
  eat inp '"'
  ws w inp fuel
  let flags ← terminalFlags w inp fuel
  let t ← terminalText inp fuel false
  eat inp '"'
  pure (flags, String.ofList t)

/-- Go's `int` arithmetic: the value modulo 2^64 as a signed number -/
def wrap64 (i : Int) : Int := i.bmod (2 ^ 64)

/-- `strconv.ParseUint(string(r), 10, 32)` for one rune: an ASCII digit -/
def parseDigit (ch : Char) : Option Nat :=
  if '0' ≤ ch ∧ ch ≤ '9' then some (ch.toNat - '0'.toNat) else none

/-- cfgrammar.go:218-227 the loop of `getInt`. -/
def getIntLoop : Nat → Int → P Int
  | 0, _ => P.div
  | fuel + 1, idx => do
    let r ← next inp
    match r with
    | some ch =>
      if w.isDigit ch then
        match parseDigit ch with
        | none => P.fail
        | some n => getIntLoop fuel (if idx = -1 then (n : Int) else wrap64 (idx * 10 + n))
      else pure idx
    | none => pure idx

/-- cfgrammar.go:214-234 `getInt`. -/
def getInt (fuel : Nat) : P Int := do
  let idx ← getIntLoop w inp fuel (-1)
  if idx = -1 then P.fail
  else do
    backup
    pure idx

/-- cfgrammar_comments.go:40-47 the loop of `lineComment`: it leaves only at a newline. -/
def lineLoop : Nat → P Unit
  | 0 => P.div
  | fuel + 1 => do
    let r ← next inp
    if r = some '\n' then pure ()
    else lineLoop fuel

/-- cfgrammar_comments.go:36-49 `lineComment`. -/
def lineComment (fuel : Nat) : P Unit := do
  eat inp '/'
  lineLoop inp fuel

/-- cfgrammar_comments.go:56-68 the loop of `multiLineComment`; `star` is `prev == '*'`. -/
def multiLoop : Nat → Bool → P Unit
  | 0, _ => P.div
  | fuel + 1, star => do
    let r ← next inp
    match r with
    | none => P.fail
    | some ch =>
      if star ∧ ch = '/' then pure ()
      else multiLoop fuel (ch = '*')

/-- cfgrammar_comments.go:51-70 `multiLineComment`. -/
def multiLineComment (fuel : Nat) : P Unit := do
  eat inp '*'
  multiLoop inp fuel false

/-- cfgrammar_comments.go:21-34 `comment`; true iff the returned text is not empty (a comment's text starts
with two runes). -/
def comment (fuel : Nat) : P Bool := do
  let r ← next inp
  if r ≠ some '/' then do
    backup
    pure false
  else do
    let r ← peek inp
    if r = some '/' then do
      lineComment inp fuel
      pure true
    else if r = some '*' then do
      multiLineComment inp fuel
      pure true
    else P.fail

/-- cfgrammar_comments.go:9-18 the loop of `comments`. -/
def commentsLoop (fuel0 : Nat) : Nat → P Unit
  | 0 => P.div
  | fuel + 1 => do
    ws w inp fuel0
    let c ← comment inp fuel0
    if c then commentsLoop fuel0 fuel
    else pure ()

/-- cfgrammar_comments.go:7-19 `comments`; the deferred `ws` is last. -/
def comments (fuel : Nat) : P Unit := do
  commentsLoop w inp fuel fuel
  ws w inp fuel

/-- cfgrammar_special.go:26-57 `specialMeta`; `none` is the nil map. The unchecked `p.eat('{')` is a `next`. -/
def specialMeta (fuel : Nat) : P (Option (Int × Int)) := do
  ws w inp fuel
  let r ← peek inp
  if r = some '{' then do
    let _ ← next inp
    ws w inp fuel
    let min ← getInt w inp fuel
    ws w inp fuel
    eat inp ','
    ws w inp fuel
    let max ← getInt w inp fuel
    if max < min then P.fail
    else do
      ws w inp fuel
      eat inp '}'
      ws w inp fuel
      pure (some (min, max))
  else do
    ws w inp fuel
    pure none

/-- the `Meta` of a special term -/
def rangeMeta : Option (Int × Int) → Meta
  | none => .nil
  | some (a, b) => .range a b

/-- cfgrammar_special.go:59-75 `list`. -/
def listTerm (fuel : Nat) : P Term := do
  let name ← nonterminal w inp fuel
  let m ← specialMeta w inp fuel
  eat inp ')'
  pure { value := name, type := .list, «meta» := rangeMeta m }

/-- cfgrammar_special.go:77-89 `any`. -/
def anyTerm (fuel : Nat) : P Term := do
  let m ← specialMeta w inp fuel
  eat inp ')'
  pure { value := "any", type := .any, «meta» := rangeMeta m }

/-- cfgrammar_special.go:5-24 `special`. -/
def special (fuel : Nat) : P Term := do
  eat inp '('
  ws w inp fuel
  let name ← text w inp fuel
  ws w inp fuel
  if name = "any" then anyTerm w inp fuel
  else if name = "list" then listTerm w inp fuel
  else P.fail

/-- cfgrammar_regex.go:15-25 the loop of `regex`. -/
def regexLoop : Nat → P (List Char)
  | 0 => P.div
  | fuel + 1 => do
    let r ← next inp
    match r with
    | none => P.fail
    | some ch =>
      if ch = '`' then pure []
      else do
        let rest ← regexLoop fuel
        pure (ch :: rest)

/-- cfgrammar_regex.go:34 `g.Regexps[h] = s`. -/
def putRegexp (h s : String) : P Unit := fun st =>
  .ok ((), { st with regexps := mapSet st.regexps h s })

/-- cfgrammar_regex.go:9-36 `regex`. -/
def regex (fuel : Nat) : P Term := do
  eat inp '`'
  ws w inp fuel
  let ret ← regexLoop inp fuel
  if ret.length = 0 then P.fail
  else
    let s := String.ofList ret
    if w.regexpOK s then do
      let h := w.md5 s
      putRegexp h s
      pure { value := h, type := .nonterminal }
    else P.fail

/-- cfgrammar.go:189-212 `term`. -/
def term (fuel : Nat) : P Term := do
  let r ← peek inp
  if r = some '<' then do
    let name ← nonterminal w inp fuel
    pure { value := name, type := .nonterminal }
  else if r = some '"' then do
    let ft ← terminal w inp fuel
    if ft.1 = "" then pure { value := ft.2, type := .terminal }
    else pure { value := ft.2, type := .terminal, «meta» := .flags ft.1 }
  else if r = some '(' then special w inp fuel
  else if r = some '`' then regex w inp fuel
  else P.fail

/-- cfgrammar_fmr.go:22-42 the loop of `funcName`; `dot` is `prev == '.'`. -/
def funcNameLoop : Nat → Bool → Bool → P (List Char)
  | 0, _, _ => P.div
  | fuel + 1, first, dot => do
    let r ← next inp
    match r with
    | some ch =>
      if w.isLetter ch ∨ ch = '_' ∨ (w.isDigit ch ∧ first = false) ∨
          (ch = '.' ∧ dot = false ∧ first = false) then do
        let rest ← funcNameLoop fuel false (ch = '.')
        pure (ch :: rest)
      else do
        backup
        pure []
    | none => do
      backup
      pure []

/-- cfgrammar_fmr.go:22-48 `funcName`. -/
def funcName (fuel : Nat) : P String := do
  let ret ← funcNameLoop w inp fuel true false
  if ret.length = 0 then P.fail
  else do
    ws w inp fuel
    pure (String.ofList ret)

/-- cfgrammar_fmr.go:106-112 `contextArg`. -/
def contextArg : P Arg := do
  eat inp '@'
  pure (.mk "context" (.str "@"))

/-- cfgrammar_fmr.go:114-124 `idxArg`. -/
def idxArg (fuel : Nat) : P Arg := do
  eat inp '$'
  let idx ← getInt w inp fuel
  pure (.mk "index" (.int idx))

/-- cfgrammar_fmr.go:126-133 `strArg`. -/
def strArg (fuel : Nat) : P Arg := do
  let ft ← terminal w inp fuel
  pure (.mk "string" (.str ft.2))

/-- cfgrammar_fmr.go:136-150 the loop of `numArg`: the runes and `hasDot`. -/
def numLoop : Nat → Bool → P (List Char × Bool)
  | 0, _ => P.div
  | fuel + 1, hasDot => do
    let r ← next inp
    match r with
    | some ch =>
      if w.isDigit ch then do
        let x ← numLoop fuel hasDot
        pure (ch :: x.1, x.2)
      else if ch = '.' then
        if hasDot then P.fail
        else do
          let x ← numLoop fuel true
          pure (ch :: x.1, x.2)
      else pure ([], hasDot)
    | none => pure ([], hasDot)

/-- cfgrammar_fmr.go:135-170 `numArg`. -/
def numArg (fuel : Nat) (neg : Bool) : P Arg := do
  let x ← numLoop w inp fuel false
  if x.1.length = 0 then P.fail
  else do
    backup
    let ret := if neg then '-' :: x.1 else x.1
    if x.2 then
      match w.scanFloat (String.ofList ret) with
      | none => P.fail
      | some n => pure (.mk "float" (.bigFloat n))
    else
      match w.scanInt (String.ofList ret) with
      | none => P.fail
      | some n => pure (.mk "int" (.bigInt n))

/-- cfgrammar_fmr.go:58-86 the choice of an argument by the next rune `r`; `sem` is `semanticFn`, `fArg`
(172-179) is the default case. -/
def funcArg (fuel0 : Nat) (sem : P FMR) (r : Option Char) : P Arg :=
  if r = some '@' then contextArg inp
  else if r = some '$' then idxArg w inp fuel0
  else if r = some '"' then strArg w inp fuel0
  else if inClass w.isDigit r then numArg w inp fuel0 false
  else if r = some '-' then do
    eat inp '-'
    numArg w inp fuel0 true
  else do
    let f ← sem
    pure (.mk "func" (.fmr f))

mutual
/-- cfgrammar_fmr.go:9-20 `semanticFn`, with the first step of `funcArgs` (51-53). -/
def semanticFn (fuel0 : Nat) : Nat → P FMR
  | 0 => P.div
  | fuel + 1 => do
    ws w inp fuel0
    let fn ← funcName w inp fuel0
    eat inp '('
    let args ← funcArgsLoop fuel0 fuel
    ws w inp fuel0
    pure (.mk fn args)
/-- cfgrammar_fmr.go:56-102 the loop of `funcArgs`. -/
def funcArgsLoop (fuel0 : Nat) : Nat → P (List Arg)
  | 0 => P.div
  | fuel + 1 => do
    ws w inp fuel0
    let r ← peek inp
    let arg ← funcArg w inp fuel0 (semanticFn fuel0 fuel) r
    if r = some ',' then do
      let rest ← funcArgsLoop fuel0 fuel
      pure (arg :: rest)
    else do
      ws w inp fuel0
      let r ← next inp
      if r = some ',' then do
        let rest ← funcArgsLoop fuel0 fuel
        pure (arg :: rest)
      else if r = some ')' then pure [arg]
      else P.fail
end

/-- `strings.ContainsRune(s, r)`, false for eof -/
def containsRune (s : List Char) : Option Char → Bool
  | some r => s.contains r
  | none => false

/-- cfgrammar.go:245-259 the loop of `ruleBody`: the further terms. -/
def ruleBodyLoop (fuel0 : Nat) : Nat → P (List Term)
  | 0 => P.div
  | fuel + 1 => do
    comments w inp fuel0
    let r ← peek inp
    if containsRune ['<', '"', '(', '`'] r then do
      let t ← term w inp fuel0
      comments w inp fuel0
      let rest ← ruleBodyLoop fuel0 fuel
      pure (t :: rest)
    else pure []

/-- cfgrammar.go:260-272 the optional semantic function of a body. -/
def ruleBodyFn (fuel : Nat) : P (Option FMR) := do
  let r ← peek inp
  if r = some '{' then do
    let _ ← next inp
    let f ← semanticFn w inp fuel fuel
    eat inp '}'
    comments w inp fuel
    pure (some f)
  else pure none

/-- cfgrammar.go:236-274 `ruleBody`. -/
def ruleBody (fuel : Nat) : P RuleBody := do
  let t ← term w inp fuel
  comments w inp fuel
  let ts ← ruleBodyLoop w inp fuel fuel
  let f ← ruleBodyFn w inp fuel
  pure { terms := t :: ts, f := f }

/-- `hashstructure.Hash(r, nil)` and its error check (cfgrammar.go:281-284, 297-299) -/
def hashBody (r : RuleBody) : P Nat :=
  match w.hash r with
  | none => P.fail
  | some h => pure h

/-- cfgrammar.go:286-301 the loop of `ruleBodies`. -/
def ruleBodiesLoop (fuel0 : Nat) : Nat → List (Nat × RuleBody) → P (List (Nat × RuleBody))
  | 0, _ => P.div
  | fuel + 1, rules => do
    let r ← peek inp
    if r ≠ some '|' then pure rules
    else do
      let _ ← next inp
      comments w inp fuel0
      let rb ← ruleBody w inp fuel0
      let h ← hashBody w rb
      ruleBodiesLoop fuel0 fuel (mapSet rules h rb)

/-- cfgrammar.go:276-303 `ruleBodies`. -/
def ruleBodies (fuel : Nat) : P (List (Nat × RuleBody)) := do
  let rb ← ruleBody w inp fuel
  let h ← hashBody w rb
  ruleBodiesLoop w inp fuel fuel [(h, rb)]

/-- cfgrammar.go:306-318 the name of a rule. -/
def ruleName (fuel : Nat) (c : Option Char) : P String :=
  if c = some '<' then nonterminal w inp fuel
  else if c = some '[' then frame w inp fuel
  else P.fail

/-- cfgrammar.go:305-337 `rule`; `c` is `<` or `[`. -/
def rule (fuel : Nat) (c : Option Char) : P Rule := do
  let name ← ruleName w inp fuel c
  comments w inp fuel
  eat inp '='
  comments w inp fuel
  let body ← ruleBodies w inp fuel
  eat inp ';'
  pure { name := name, body := body }

/-- cfgrammar.go:397-407 a rule is added to a rule map; bodies of an existing rule are merged by key. -/
def addRule (rules : List (String × Rule)) (r : Rule) : List (String × Rule) :=
  match rules.lookup r.name with
  | some r0 => mapSet rules r.name
      { r0 with body := r.body.foldl (fun b e => mapSet b e.1 e.2) r0.body }
  | none => mapSet rules r.name r

/-- cfgrammar.go:383-408 the loop over rules: `Rules` and `Frames`. -/
def rulesLoop (fuel0 : Nat) : Nat → List (String × Rule) × List (String × Rule) →
    P (List (String × Rule) × List (String × Rule))
  | 0, _ => P.div
  | fuel + 1, g => do
    comments w inp fuel0
    let c ← peek inp
    if containsRune ['<', '['] c then do
      let r ← rule w inp fuel0 c
      rulesLoop fuel0 fuel (if c = some '[' then (g.1, addRule g.2 r) else (addRule g.1 r, g.2))
    else pure g

/-- cfgrammar.go:347-367 the text of one `#include` directive: the name of the file; `none` if there is no
further directive. -/
def directive (fuel : Nat) : P (Option String) := do
  comments w inp fuel
  let r ← peek inp
  if r ≠ some '#' then pure none
  else do
    let _ ← next inp
    ws w inp fuel
    let name ← text w inp fuel
    if name ≠ "include" then P.fail
    else do
      ws w inp fuel
      let ft ← terminal w inp fuel
      pure (some ft.2)

/-- cfgrammar.go:383-411 the part of `grammar` after the directives. -/
def grammarRules (fuel : Nat) (name : String) : P Grammar := do
  let g ← rulesLoop w inp fuel fuel ([], [])
  let r ← next inp
  if r ≠ none then P.fail
  else fun s => .ok ({ name := name, rules := g.1, frames := g.2, regexps := s.regexps }, s)

end

end Fmr
