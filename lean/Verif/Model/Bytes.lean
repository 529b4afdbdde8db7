import Verif.Model.Load

/-!
# The grammar text parser on bytes, with the positions of its error messages

`Model/Lexer.lean` reads a list of runes, counts positions in runes and leaves out the row and column that
appear in error messages. This file models what Go really does: the input is a byte string, `next` decodes
UTF-8, positions and widths count bytes, and `current` and `info` are kept (cfgrammar.go:15-137).

The parser functions are written once more, as programs over the four things they do to the parser state:
`next`, `backup`, writing and reading the map `Regexps`. `Prog.run` interprets a program on runes and
`Prog.runB` on bytes. (`Proofs/Bytes.lean` proves that `Prog.run` of each program is the function of the same name
of `Model/Lexer.lean`, and C67 that the two interpretations agree.)

Of an error message only the part `p.posInfo()` is modelled: the name of the file and `p.current`.
-/

namespace Fmr

/-- The second byte of an encoding that starts with `n` is in this range: `acceptRanges` of Go's
unicode/utf8/utf8.go. -/
def acceptLo (n : Nat) : Nat := if n = 0xE0 then 0xA0 else if n = 0xF0 then 0x90 else 0x80
def acceptHi (n : Nat) : Nat := if n = 0xED then 0x9F else if n = 0xF4 then 0x8F else 0xBF

/-- `utf8.DecodeRuneInString` (Go, unicode/utf8/utf8.go): the first rune and its width; `(RuneError, 1)` for an
invalid encoding. -/
def decodeRune : Bytes → Char × Nat
  | [] => (runeError, 0)
  | b0 :: rest =>
    let n := b0.toNat
    if n < 0x80 then (Char.ofNat n, 1)
    else if 0xC2 ≤ n ∧ n ≤ 0xF4 then
      match rest with
      | [] => (runeError, 1)
      | b1 :: rest =>
        if acceptLo n ≤ b1.toNat ∧ b1.toNat ≤ acceptHi n then
          if n ≤ 0xDF then (Char.ofNat (n % 32 * 64 + b1.toNat % 64), 2)
          else
            match rest with
            | [] => (runeError, 1)
            | b2 :: rest =>
              if 0x80 ≤ b2.toNat ∧ b2.toNat ≤ 0xBF then
                if n ≤ 0xEF then (Char.ofNat (n % 16 * 4096 + b1.toNat % 64 * 64 + b2.toNat % 64), 3)
                else
                  match rest with
                  | [] => (runeError, 1)
                  | b3 :: _ =>
                    if 0x80 ≤ b3.toNat ∧ b3.toNat ≤ 0xBF then
                      (Char.ofNat (n % 8 * 262144 + b1.toNat % 64 * 4096 + b2.toNat % 64 * 64 + b3.toNat % 64), 4)
                    else (runeError, 1)
              else (runeError, 1)
        else (runeError, 1)
    else (runeError, 1)

/-- cfgrammar.go:25-28 `position`. -/
structure Position where
  row : Nat
  col : Nat
  r : Char
  deriving DecidableEq, Repr

/-- cfgrammar.go:15-23 the changing fields of `parser`, and the map `Regexps` of the grammar being built. `info`
is a map, `current` may be nil. -/
structure BSt where
  pos : Nat := 0
  width : Nat := 0
  current : Option Position := none
  info : List (Nat × Position) := []
  regexps : List (String × String) := []
  deriving DecidableEq, Repr

/-- Outcome of a call, where an error has the file name and position of its message (`p.posInfo()`); `none` for
the errors whose message has no position. -/
inductive BOut (α : Type) where
  | ok (a : α)
  | err (at_ : Option (String × Option Position))
  | panic
  | div
  deriving DecidableEq, Repr

/-- A program over the state of the parser. -/
inductive Prog (α : Type) where
  /-- return a value -/
  | ret (a : α)
  /-- cfgrammar.go:92-118 `p.next()` -/
  | next (k : Option Char → Prog α)
  /-- cfgrammar.go:128-131 `p.backup()` -/
  | backup (k : Prog α)
  /-- cfgrammar_regex.go:34 `g.Regexps[h] = s` -/
  | put (h s : String) (k : Prog α)
  /-- `g.Regexps` is read -/
  | get (k : List (String × String) → Prog α)
  /-- an error is returned; `pos` tells whether its message contains `p.posInfo()` -/
  | fail (pos : Bool)
  /-- the fuel is used up -/
  | div

namespace Prog

def bind {α β : Type} : Prog α → (α → Prog β) → Prog β
  | ret a, f => f a
  | next k, f => next fun r => (k r).bind f
  | backup k, f => backup (k.bind f)
  | put h s k, f => put h s (k.bind f)
  | get k, f => get fun m => (k m).bind f
  | fail b, _ => fail b
  | div, _ => div

instance : Monad Prog where
  pure := ret
  bind := Prog.bind

/-- The program on a list of runes: the primitives of `Model/Lexer.lean`. -/
def run {α : Type} (inp : List Char) : Prog α → P α
  | ret a => pure a
  | next k => Fmr.next inp >>= fun r => (k r).run inp
  | backup k => Fmr.backup >>= fun _ => k.run inp
  | put h s k => Fmr.putRegexp h s >>= fun _ => k.run inp
  | get k => fun s => (k s.regexps).run inp s
  | fail _ => P.fail
  | div => P.div

/-- cfgrammar.go:92-118 `next`. -/
def bnext (b : Bytes) (s : BSt) : Option Char × BSt :=
  if b.length ≤ s.pos then (none, { s with width := 0 })
  else
    let d := decodeRune (b.drop s.pos)
    if d.1 = runeError then (none, s)
    else
      let pos := s.pos + d.2
      match s.info.lookup pos with
      | some p => (some d.1, { s with pos := pos, width := d.2, current := some p })
      | none =>
        let p : Position :=
          match s.current with
          | none => ⟨1, d.2, d.1⟩
          | some c => if d.1 = '\n' then ⟨c.row + 1, d.2, d.1⟩ else ⟨c.row, c.col + d.2, d.1⟩
        (some d.1, { s with pos := pos, width := d.2, current := some p, info := mapSet s.info pos p })

/-- The program on a byte string, for a parser of the file `name`. `backup` (cfgrammar.go:128-131) to a negative
position would make the slice in `next` panic; here it panics at once. -/
def runB {α : Type} (name : String) (b : Bytes) : Prog α → BSt → BOut (α × BSt)
  | ret a, s => .ok (a, s)
  | next k, s => (k (bnext b s).1).runB name b (bnext b s).2
  | backup k, s =>
    if s.pos < s.width then .panic
    else k.runB name b { s with pos := s.pos - s.width, current := s.info.lookup (s.pos - s.width) }
  | put h r k, s => k.runB name b { s with regexps := mapSet s.regexps h r }
  | get k, s => (k s.regexps).runB name b s
  | fail pos, s => .err (if pos then some (name, s.current) else none)
  | div, _ => .div

/-- cfgrammar.go:92-118 a call of `next` -/
def rd : Prog (Option Char) := .next .ret

/-- cfgrammar.go:128-131 a call of `backup` -/
def un : Prog Unit := .backup (.ret ())

section
variable (w : LexWorld)

/-- cfgrammar.go:120-126 `eat`. -/
def eat (expected : Char) : Prog Unit := do
  let r ← rd
  if r ≠ some expected then Prog.fail true
  else pure ()

/-- cfgrammar.go:133-137 `peek`. -/
def peek : Prog (Option Char) := do
  let r ← rd
  un
  pure r

/-- cfgrammar.go:139-146 `ws`; the returned string is never used. -/
def ws : Nat → Prog Unit
  | 0 => Prog.div
  | fuel + 1 => do
    let r ← rd
    if inClass w.isSpace r then ws fuel
    else un

/-- cfgrammar.go:148-163 the loop of `text`. -/
def textLoop : Nat → Bool → Prog (List Char)
  | 0, _ => Prog.div
  | fuel + 1, first => do
    let r ← rd
    match r with
    | some ch =>
      if w.isLetter ch ∨ ch = '_' ∨ (w.isDigit ch ∧ first = false) then do
        let rest ← textLoop fuel false
        pure (ch :: rest)
      else do
        un
        pure []
    | none => do
      un
      pure []

/-- cfgrammar.go:148-168 `text`. -/
def text (fuel : Nat) : Prog String := do
  let ret ← textLoop w fuel true
  if ret.length = 0 then Prog.fail true
  else pure (String.ofList ret)

/-- cfgrammar.go:170-179 `token`. -/
def token (fuel : Nat) (b e : Char) : Prog String := do
  eat b
  let name ← text w fuel
  eat e
  pure name

/-- cfgrammar.go:181-183 `nonterminal`. -/
def nonterminal (fuel : Nat) : Prog String := token w fuel '<' '>'

/-- cfgrammar.go:185-187 `frame`. -/
def frame (fuel : Nat) : Prog String := token w fuel '[' ']'

/-- cfgrammar_terminal.go:31-64 `terminalText`; `esc` is `prev == '\\'` (`prev` is used for nothing else). -/
def terminalText : Nat → Bool → Prog (List Char)
  | 0, _ => Prog.div
  | fuel + 1, esc => do
    let r ← rd
    match r with
    | none => Prog.fail true
    | some ch =>
      if ch = '"' ∧ esc = false then do
        un
        pure []
      else if esc then
        match unescape ch with
        | none => Prog.fail true
        | some x => do
          let rest ← terminalText fuel false
          pure (x :: rest)
      else if ch = '\\' then terminalText fuel true
      else do
        let rest ← terminalText fuel false
        pure (ch :: rest)

/-- cfgrammar_terminal.go:11-23 the optional flags of `terminal` -/
def terminalFlags (fuel : Nat) : Prog String := do
  let r ← peek
  if r = some '(' then do
    let _ ← rd
    ws w fuel
    eat '?'
    ws w fuel
    let flags ← text w fuel
    eat ')'
    pure flags
  else pure ""

/-- cfgrammar_terminal.go:5-29 `terminal`: flags and text. The unchecked `p.eat('(')` (12) is a `next`. -/
def terminal (fuel : Nat) : Prog (String × String) := do
  eat '"'
  ws w fuel
  let flags ← terminalFlags w fuel
  let t ← terminalText fuel false
  eat '"'
  pure (flags, String.ofList t)

/-- cfgrammar.go:218-227 the loop of `getInt`. -/
def getIntLoop : Nat → Int → Prog Int
  | 0, _ => Prog.div
  | fuel + 1, idx => do
    let r ← rd
    match r with
    | some ch =>
      if w.isDigit ch then
        match parseDigit ch with
        | none => Prog.fail false
        | some n => getIntLoop fuel (if idx = -1 then (n : Int) else wrap64 (idx * 10 + n))
      else pure idx
    | none => pure idx

/-- cfgrammar.go:214-234 `getInt`. -/
def getInt (fuel : Nat) : Prog Int := do
  let idx ← getIntLoop w fuel (-1)
  if idx = -1 then Prog.fail true
  else do
    un
    pure idx

/-- cfgrammar_comments.go:40-47 the loop of `lineComment`: it leaves only at a newline. -/
def lineLoop : Nat → Prog Unit
  | 0 => Prog.div
  | fuel + 1 => do
    let r ← rd
    if r = some '\n' then pure ()
    else lineLoop fuel

/-- cfgrammar_comments.go:36-49 `lineComment`. -/
def lineComment (fuel : Nat) : Prog Unit := do
  eat '/'
  lineLoop fuel

/-- cfgrammar_comments.go:56-68 the loop of `multiLineComment`; `star` is `prev == '*'`. -/
def multiLoop : Nat → Bool → Prog Unit
  | 0, _ => Prog.div
  | fuel + 1, star => do
    let r ← rd
    match r with
    | none => Prog.fail true
    | some ch =>
      if star ∧ ch = '/' then pure ()
      else multiLoop fuel (ch = '*')

/-- cfgrammar_comments.go:51-70 `multiLineComment`. -/
def multiLineComment (fuel : Nat) : Prog Unit := do
  eat '*'
  multiLoop fuel false

/-- cfgrammar_comments.go:21-34 `comment`; true iff the returned text is not empty (a comment's text starts
with two runes). -/
def comment (fuel : Nat) : Prog Bool := do
  let r ← rd
  if r ≠ some '/' then do
    un
    pure false
  else do
    let r ← peek
    if r = some '/' then do
      lineComment fuel
      pure true
    else if r = some '*' then do
      multiLineComment fuel
      pure true
    else Prog.fail true

/-- cfgrammar_comments.go:9-18 the loop of `comments`. -/
def commentsLoop (fuel0 : Nat) : Nat → Prog Unit
  | 0 => Prog.div
  | fuel + 1 => do
    ws w fuel0
    let c ← comment fuel0
    if c then commentsLoop fuel0 fuel
    else pure ()

/-- cfgrammar_comments.go:7-19 `comments`; the deferred `ws` is last. -/
def comments (fuel : Nat) : Prog Unit := do
  commentsLoop w fuel fuel
  ws w fuel

/-- cfgrammar_special.go:26-57 `specialMeta`; `none` is the nil map. The unchecked `p.eat('{')` is a `next`. -/
def specialMeta (fuel : Nat) : Prog (Option (Int × Int)) := do
  ws w fuel
  let r ← peek
  if r = some '{' then do
    let _ ← rd
    ws w fuel
    let min ← getInt w fuel
    ws w fuel
    eat ','
    ws w fuel
    let max ← getInt w fuel
    if max < min then Prog.fail true
    else do
      ws w fuel
      eat '}'
      ws w fuel
      pure (some (min, max))
  else do
    ws w fuel
    pure none

/-- cfgrammar_special.go:59-75 `list`. -/
def listTerm (fuel : Nat) : Prog Term := do
  let name ← nonterminal w fuel
  let m ← specialMeta w fuel
  eat ')'
  pure { value := name, type := .list, «meta» := rangeMeta m }

/-- cfgrammar_special.go:77-89 `any`. -/
def anyTerm (fuel : Nat) : Prog Term := do
  let m ← specialMeta w fuel
  eat ')'
  pure { value := "any", type := .any, «meta» := rangeMeta m }

/-- cfgrammar_special.go:5-24 `special`. -/
def special (fuel : Nat) : Prog Term := do
  eat '('
  ws w fuel
  let name ← text w fuel
  ws w fuel
  if name = "any" then anyTerm w fuel
  else if name = "list" then listTerm w fuel
  else Prog.fail true

/-- cfgrammar_regex.go:15-25 the loop of `regex`. -/
def regexLoop : Nat → Prog (List Char)
  | 0 => Prog.div
  | fuel + 1 => do
    let r ← rd
    match r with
    | none => Prog.fail true
    | some ch =>
      if ch = '`' then pure []
      else do
        let rest ← regexLoop fuel
        pure (ch :: rest)

/-- cfgrammar_regex.go:9-36 `regex`. -/
def regex (fuel : Nat) : Prog Term := do
  eat '`'
  ws w fuel
  let ret ← regexLoop fuel
  if ret.length = 0 then Prog.fail true
  else
    let s := String.ofList ret
    if w.regexpOK s then do
      let h := w.md5 s
      Prog.put h s (Prog.ret ())
      pure { value := h, type := .nonterminal }
    else Prog.fail true

/-- cfgrammar.go:189-212 `term`. -/
def term (fuel : Nat) : Prog Term := do
  let r ← peek
  if r = some '<' then do
    let name ← nonterminal w fuel
    pure { value := name, type := .nonterminal }
  else if r = some '"' then do
    let ft ← terminal w fuel
    if ft.1 = "" then pure { value := ft.2, type := .terminal }
    else pure { value := ft.2, type := .terminal, «meta» := .flags ft.1 }
  else if r = some '(' then special w fuel
  else if r = some '`' then regex w fuel
  else Prog.fail true

/-- cfgrammar_fmr.go:22-42 the loop of `funcName`; `dot` is `prev == '.'`. -/
def funcNameLoop : Nat → Bool → Bool → Prog (List Char)
  | 0, _, _ => Prog.div
  | fuel + 1, first, dot => do
    let r ← rd
    match r with
    | some ch =>
      if w.isLetter ch ∨ ch = '_' ∨ (w.isDigit ch ∧ first = false) ∨
          (ch = '.' ∧ dot = false ∧ first = false) then do
        let rest ← funcNameLoop fuel false (ch = '.')
        pure (ch :: rest)
      else do
        un
        pure []
    | none => do
      un
      pure []

/-- cfgrammar_fmr.go:22-48 `funcName`. -/
def funcName (fuel : Nat) : Prog String := do
  let ret ← funcNameLoop w fuel true false
  if ret.length = 0 then Prog.fail true
  else do
    ws w fuel
    pure (String.ofList ret)

/-- cfgrammar_fmr.go:106-112 `contextArg`. -/
def contextArg : Prog Arg := do
  eat '@'
  pure (.mk "context" (.str "@"))

/-- cfgrammar_fmr.go:114-124 `idxArg`. -/
def idxArg (fuel : Nat) : Prog Arg := do
  eat '$'
  let idx ← getInt w fuel
  pure (.mk "index" (.int idx))

/-- cfgrammar_fmr.go:126-133 `strArg`. -/
def strArg (fuel : Nat) : Prog Arg := do
  let ft ← terminal w fuel
  pure (.mk "string" (.str ft.2))

/-- cfgrammar_fmr.go:136-150 the loop of `numArg`: the runes and `hasDot`. -/
def numLoop : Nat → Bool → Prog (List Char × Bool)
  | 0, _ => Prog.div
  | fuel + 1, hasDot => do
    let r ← rd
    match r with
    | some ch =>
      if w.isDigit ch then do
        let x ← numLoop fuel hasDot
        pure (ch :: x.1, x.2)
      else if ch = '.' then
        if hasDot then Prog.fail true
        else do
          let x ← numLoop fuel true
          pure (ch :: x.1, x.2)
      else pure ([], hasDot)
    | none => pure ([], hasDot)

/-- cfgrammar_fmr.go:135-170 `numArg`. -/
def numArg (fuel : Nat) (neg : Bool) : Prog Arg := do
  let x ← numLoop w fuel false
  if x.1.length = 0 then Prog.fail true
  else do
    un
    let ret := if neg then '-' :: x.1 else x.1
    if x.2 then
      match w.scanFloat (String.ofList ret) with
      | none => Prog.fail false
      | some n => pure (.mk "float" (.bigFloat n))
    else
      match w.scanInt (String.ofList ret) with
      | none => Prog.fail false
      | some n => pure (.mk "int" (.bigInt n))

/-- cfgrammar_fmr.go:58-86 the choice of an argument by the next rune `r`; `sem` is `semanticFn`, `fArg`
(172-179) is the default case. -/
def funcArg (fuel0 : Nat) (sem : Prog FMR) (r : Option Char) : Prog Arg :=
  if r = some '@' then contextArg
  else if r = some '$' then idxArg w fuel0
  else if r = some '"' then strArg w fuel0
  else if inClass w.isDigit r then numArg w fuel0 false
  else if r = some '-' then do
    eat '-'
    numArg w fuel0 true
  else do
    let f ← sem
    pure (.mk "func" (.fmr f))

mutual
/-- cfgrammar_fmr.go:9-20 `semanticFn`, with the first step of `funcArgs` (51-53). -/
def semanticFn (fuel0 : Nat) : Nat → Prog FMR
  | 0 => Prog.div
  | fuel + 1 => do
    ws w fuel0
    let fn ← funcName w fuel0
    eat '('
    let args ← funcArgsLoop fuel0 fuel
    ws w fuel0
    pure (.mk fn args)
/-- cfgrammar_fmr.go:56-102 the loop of `funcArgs`. -/
def funcArgsLoop (fuel0 : Nat) : Nat → Prog (List Arg)
  | 0 => Prog.div
  | fuel + 1 => do
    ws w fuel0
    let r ← peek
    let arg ← funcArg w fuel0 (semanticFn fuel0 fuel) r
    if r = some ',' then do
      let rest ← funcArgsLoop fuel0 fuel
      pure (arg :: rest)
    else do
      ws w fuel0
      let r ← rd
      if r = some ',' then do
        let rest ← funcArgsLoop fuel0 fuel
        pure (arg :: rest)
      else if r = some ')' then pure [arg]
      else Prog.fail true
end

/-- cfgrammar.go:245-259 the loop of `ruleBody`: the further terms. -/
def ruleBodyLoop (fuel0 : Nat) : Nat → Prog (List Term)
  | 0 => Prog.div
  | fuel + 1 => do
    comments w fuel0
    let r ← peek
    if containsRune ['<', '"', '(', '`'] r then do
      let t ← term w fuel0
      comments w fuel0
      let rest ← ruleBodyLoop fuel0 fuel
      pure (t :: rest)
    else pure []

/-- cfgrammar.go:260-272 the optional semantic function of a body. -/
def ruleBodyFn (fuel : Nat) : Prog (Option FMR) := do
  let r ← peek
  if r = some '{' then do
    let _ ← rd
    let f ← semanticFn w fuel fuel
    eat '}'
    comments w fuel
    pure (some f)
  else pure none

/-- cfgrammar.go:236-274 `ruleBody`. -/
def ruleBody (fuel : Nat) : Prog RuleBody := do
  let t ← term w fuel
  comments w fuel
  let ts ← ruleBodyLoop w fuel fuel
  let f ← ruleBodyFn w fuel
  pure { terms := t :: ts, f := f }

/-- `hashstructure.Hash(r, nil)` and its error check (cfgrammar.go:281-284, 297-299) -/
def hashBody (r : RuleBody) : Prog Nat :=
  match w.hash r with
  | none => Prog.fail false
  | some h => pure h

/-- cfgrammar.go:286-301 the loop of `ruleBodies`. -/
def ruleBodiesLoop (fuel0 : Nat) : Nat → List (Nat × RuleBody) → Prog (List (Nat × RuleBody))
  | 0, _ => Prog.div
  | fuel + 1, rules => do
    let r ← peek
    if r ≠ some '|' then pure rules
    else do
      let _ ← rd
      comments w fuel0
      let rb ← ruleBody w fuel0
      let h ← hashBody w rb
      ruleBodiesLoop fuel0 fuel (mapSet rules h rb)

/-- cfgrammar.go:276-303 `ruleBodies`. -/
def ruleBodies (fuel : Nat) : Prog (List (Nat × RuleBody)) := do
  let rb ← ruleBody w fuel
  let h ← hashBody w rb
  ruleBodiesLoop w fuel fuel [(h, rb)]

/-- cfgrammar.go:306-318 the name of a rule. -/
def ruleName (fuel : Nat) (c : Option Char) : Prog String :=
  if c = some '<' then nonterminal w fuel
  else if c = some '[' then frame w fuel
  else Prog.fail true

/-- cfgrammar.go:305-337 `rule`; `c` is `<` or `[`. -/
def rule (fuel : Nat) (c : Option Char) : Prog Rule := do
  let name ← ruleName w fuel c
  comments w fuel
  eat '='
  comments w fuel
  let body ← ruleBodies w fuel
  eat ';'
  pure { name := name, body := body }

/-- cfgrammar.go:383-408 the loop over rules: `Rules` and `Frames`. -/
def rulesLoop (fuel0 : Nat) : Nat → List (String × Rule) × List (String × Rule) →
    Prog (List (String × Rule) × List (String × Rule))
  | 0, _ => Prog.div
  | fuel + 1, g => do
    comments w fuel0
    let c ← peek
    if containsRune ['<', '['] c then do
      let r ← rule w fuel0 c
      rulesLoop fuel0 fuel (if c = some '[' then (g.1, addRule g.2 r) else (addRule g.1 r, g.2))
    else pure g

/-- cfgrammar.go:347-367 the text of one `#include` directive: the name of the file; `none` if there is no
further directive. -/
def directive (fuel : Nat) : Prog (Option String) := do
  comments w fuel
  let r ← peek
  if r ≠ some '#' then pure none
  else do
    let _ ← rd
    ws w fuel
    let name ← text w fuel
    if name ≠ "include" then Prog.fail true
    else do
      ws w fuel
      let ft ← terminal w fuel
      pure (some ft.2)

/-- cfgrammar.go:383-411 the part of `grammar` after the directives. -/
def grammarRules (fuel : Nat) (name : String) : Prog Grammar := do
  let g ← rulesLoop w fuel fuel ([], [])
  let r ← rd
  if r ≠ none then Prog.fail true
  else Prog.get fun m => pure { name := name, rules := g.1, frames := g.2, regexps := m }

end

end Prog

/-! ## The loader on bytes -/

def BOut.bind {α β : Type} : BOut α → (α → BOut β) → BOut β
  | .ok a, f => f a
  | .err e, _ => .err e
  | .panic, _ => .panic
  | .div, _ => .div

instance : Monad BOut where
  pure := .ok
  bind := BOut.bind

/-- a call whose errors have no position -/
def BOut.lift {α : Type} : Out α → BOut α
  | .ok a => .ok a
  | .err => .err none
  | .panic => .panic
  | .div => .div

/-- cfgrammar.go:346-382 the loop over `#include` directives, as `directives` of `Model/Load.lean`. -/
def bdirectives (w : LoadWorld) (inc : String → LoadSt → BOut (Option Loaded × LoadSt)) (inp : Bytes)
    (name dir : String) (fuel0 : Nat) :
    Nat → List Grammar → LoadSt → BSt → BOut ((List Grammar × LoadSt) × BSt)
  | 0, _, _, _ => .div
  | fuel + 1, gs, st, ps =>
    match (Prog.directive w.lex fuel0).runB name inp ps with
    | .err e => .err e
    | .panic => .panic
    | .div => .div
    | .ok (none, ps) => .ok ((gs, st), ps)
    | .ok (some ifile, ps) =>
      let path := w.join dir ifile
      match inc path (st.incr path) with
      | .err e => .err e
      | .panic => .panic
      | .div => .div
      | .ok (none, st) => bdirectives w inc inp name dir fuel0 fuel gs st ps
      | .ok (some ig, st) =>
        bdirectives w inc inp name dir fuel0 fuel (gs ++ [ig.gram.main] ++ ig.gram.includes) st
          { ps with regexps := ig.gram.main.regexps.foldl (fun m e => mapSet m e.1 e.2) ps.regexps }

/-- cfgrammar.go:339-419 `grammar`. -/
def bgrammarText (w : LoadWorld) (inc : String → LoadSt → BOut (Option Loaded × LoadSt)) (fuel : Nat)
    (inp : Bytes) (name dir : String) (st : LoadSt) : BOut (Loaded × LoadSt) := do
  let d ← bdirectives w inc inp name dir fuel fuel [] st {}
  let g ← (Prog.grammarRules w.lex fuel name).runB name inp d.2
  let gram : Gram := { main := g.1, includes := d.1.1 }
  let gi ← .lift (buildIndex w.idx gram)
  let r ← .lift (refine w.ref "g" fuel d.1.2.reg g.1)
  pure ({ gram := { main := r.2, includes := d.1.1 }, index := gi }, { d.1.2 with reg := r.1 })

/-- cfgrammar.go:69-86 `grammarFromString`. -/
def bfromString (w : LoadWorld) (inc : String → LoadSt → BOut (Option Loaded × LoadSt)) (fuel : Nat)
    (d : Bytes) (name dir : String) (st : LoadSt) : BOut (Option Loaded × LoadSt) :=
  if 2 ≤ st.count name then .ok (none, st)
  else do
    let r ← bgrammarText w inc fuel d name dir st
    pure (some r.1, r.2.incr name)

/-- cfgrammar.go:49-62 `grammarFromFile`. `read` is `ioutil.ReadFile`; the field `read` of the world is not used. -/
def bfromFile (w : LoadWorld) (read : String → Option Bytes) (fuel : Nat) :
    Nat → String → LoadSt → BOut (Option Loaded × LoadSt)
  | 0, _, _ => .div
  | depth + 1, ifile, st =>
    if 2 ≤ st.count ifile then .ok (none, st)
    else
      match read ifile with
      | none => .err none
      | some b =>
        match w.dir ifile with
        | none => .err none
        | some dir =>
          bfromString w (bfromFile w read fuel depth) fuel b ifile dir { st with log := st.log ++ [ifile] }

/-- cfgrammar.go:65-67 `GrammarFromString`. -/
def bloadString (w : LoadWorld) (read : String → Option Bytes) (fuel depth : Nat) (d : Bytes) (name : String)
    (reg : Registry) : BOut (Option Loaded × LoadSt) :=
  bfromString w (bfromFile w read fuel depth) fuel d name "." { reg := reg }

/-- cfgrammar.go:37-47 `GrammarFromFile`. -/
def bloadFile (w : LoadWorld) (read : String → Option Bytes) (fuel depth : Nat) (file : String) (reg : Registry) :
    BOut (Option Loaded × LoadSt) :=
  match read file with
  | none => .err none
  | some b =>
    match w.dir file with
    | none => .err none
    | some dir =>
      bfromString w (bfromFile w read fuel depth) fuel b file dir { files := [(file, 1)], reg := reg }

end Fmr
