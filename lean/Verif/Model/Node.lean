import Verif.Model.Api
import Verif.Model.Quote

/-!
# Model of node_methods.go, earley_eval.go and earley_fmr.go

All nodes of a tree returned by `GetTrees` point to the same non-nil parse (earley_ast.go:57,98,107), so the
parse is a parameter; the branches for a nil `p` (earley_eval.go:11-13, earley_fmr.go:15-17,
node_methods.go:59-61,100-102) are dead for such nodes and are not modelled. The only other node made by the
library, `&Node{}` in frame_api.go:33, appears as `Self.blank`.
A nil `*Arg` (earley_eval.go:51-53, earley_fmr.go:50-52) is never built and not modelled.
-/

namespace Fmr

/-- `interface{}` values of `Eval`: what this repository produces (`ctx` is the map of
earley_eval.go:92-104) and anything else a registered function may return. -/
inductive Value where
  | nil
  | str (s : Bytes)
  | list (l : List Value)
  | map (m : List (String × Value))
  | ctx (text : Bytes) (pos : Pos) (nodes : List (String × Value)) (type : Option String)
  | other (tag : Nat)

/-- External code used here:
* `isPrint`  : `strconv.IsPrint`
* `decode`   : UTF-8 decoding of a Go string, as done by `range`
* `join`     : `goutil.Join`
* `floatStr` : `(*big.Float).String`
* `call`     : `Call` (funcs.go:17-27), the registered functions called by reflection
* `marshal`  : `json.Marshal`, "" for an error (earley_fmr.go:110-111) -/
structure NodeWorld where
  isPrint : Char → Bool
  decode : Bytes → List GoRune
  join : List String → String
  floatStr : Rat → String
  call : String → List Value → Out Value
  marshal : Value → String

/-- the bytes of a Go string -/
def utf8 (s : String) : Bytes := s.toUTF8.data.toList

/-- `strconv.Quote` of a string given by its bytes -/
def NodeWorld.quoteBytes (w : NodeWorld) (b : Bytes) : String :=
  String.ofList (quoteRunes w.isPrint (w.decode b))

/-- a loop collecting the results of its body -/
def mapOut {α β : Type} (f : α → Out β) : List α → Out (List β)
  | [] => .ok []
  | a :: l => do
    let x ← f a
    let y ← mapOut f l
    pure (x :: y)

/-- node_methods.go:45-51 `NL`. -/
def nodeNL (w : NodeWorld) (p : Parsed) (v : TState) : Out String := do
  let toks ← mapOut (fun k => columnToken p.env.tokens (v.start + 1 + k)) (List.range (v.stop - v.start))
  pure (w.join (toks.map (·.text)))

/-- node_methods.go:17-25 `Term` for a non-nil `Value`. -/
def nodeTerm (v : TState) : Out Term :=
  if v.term.value = gammaRule then
    match v.rb with
    | none => .panic
    | some rb => Out.ofIndex rb.terms[0]?
  else .ok v.term

/-- node_methods.go:28-36 `F` for a non-nil `Value`. The outer `none` is a nil result. -/
def nodeF (n : Node) : Out (Option FMR) :=
  match n.value.rb with
  | none => .ok none
  | some rb =>
    if rb.terms = [] then .ok none
    else if n.value.term.value = gammaRule then
      match n.children with
      | [] => .panic
      | c :: _ =>
        match c.value.rb with
        | none => .panic
        | some rb => .ok rb.f
    else .ok rb.f

/-- What `semStr` and `semEval` use of the receiver `n`. -/
structure Self where
  term : Out Term
  orig : Out Bytes
  pos : Out Pos
  nl : Out String

/-- the receiver `&Node{}` (frame_api.go:33): every method dereferences a nil pointer -/
def Self.blank : Self := { term := .panic, orig := .panic, pos := .panic, nl := .panic }

/-- What `semStr` and `semEval` use of a child: the results of its methods. The methods have no effects, so
having the results at hand is the same as calling them when needed. A nil child is `none`. -/
structure Kid where
  term : Out Term
  orig : Out Bytes
  eval : Out Value
  sem : Out String

/-- earley_eval.go:86-89, earley_fmr.go:95-98 the value of a child in the context: its text if `Eval` fails. -/
def Kid.ctxVal (k : Kid) : Out Value :=
  match k.eval with
  | .err => do
    let o ← k.orig
    pure (.str o)
  | x => x

/-- earley_eval.go:84-91, earley_fmr.go:93-100 the loop over the children for a context argument. -/
def ctxNodes : List (Option Kid) → Out (List (String × Value))
  | [] => .ok []
  | none :: _ => .panic
  | some k :: ks => do
    let ni ← k.ctxVal
    let t ← k.term
    let rest ← ctxNodes ks
    pure ((t.value, ni) :: rest)

/-- earley_eval.go:83-100, earley_fmr.go:92-109 the value of a context argument. -/
def ctxValue (self : Self) (kids : List (Option Kid)) : Out Value := do
  let nodes ← ctxNodes kids
  let text ← self.orig
  let pos ← self.pos
  let t ← self.term
  pure (.ctx text pos nodes (if t.type ≠ .terminal then some t.value else none))

/-- earley_fmr.go:74-91 an index argument. -/
def indexStr (kids : List (Option Kid)) (nl : String) (i : Int) : Out String :=
  if i < 0 ∨ i > kids.length then .err
  else if i = 0 then .ok nl
  else
    match kids[(i - 1).toNat]? with
    | none => .panic
    | some none => .ok "null"
    | some (some k) => k.sem

mutual
/-- earley_fmr.go:25-46 `fmrStr` for a non-nil `f` (a nil one gives "", 26-28). -/
def fmrStr (w : NodeWorld) (self : Self) (kids : List (Option Kid)) (nl : String) : FMR → Out String
  | .mk fn args =>
    if fn = "nf.I" then
      match args with
      | [a] => semStr w self kids nl a
      | _ => .err
    else do
      let ss ← semStrs w self kids nl args
      pure (fn ++ "(" ++ ", ".intercalate ss ++ ")")
/-- earley_fmr.go:39-45 the loop over the arguments. -/
def semStrs (w : NodeWorld) (self : Self) (kids : List (Option Kid)) (nl : String) :
    List Arg → Out (List String)
  | [] => .ok []
  | a :: as => do
    let s ← semStr w self kids nl a
    let ss ← semStrs w self kids nl as
    pure (s :: ss)
/-- earley_fmr.go:49-116 `semStr`. -/
def semStr (w : NodeWorld) (self : Self) (kids : List (Option Kid)) (nl : String) : Arg → Out String
  | .mk t v => semVal w self kids nl t v
/-- earley_fmr.go:53-115 the switch, by the dynamic type of the value. -/
def semVal (w : NodeWorld) (self : Self) (kids : List (Option Kid)) (nl : String) (t : String) :
    Val → Out String
  | .str s =>
    if t = "string" then .ok (quoteStr w.isPrint s)
    else if t = "context" then ctxStr w self kids
    else .err
  | .bigInt i =>
    if t = "int" then .ok (toString i)
    else if t = "context" then ctxStr w self kids
    else .err
  | .bigFloat q =>
    if t = "float" then .ok (w.floatStr q)
    else if t = "context" then ctxStr w self kids
    else .err
  | .int i =>
    if t = "index" then indexStr kids nl i
    else if t = "context" then ctxStr w self kids
    else .err
  | .fmr f =>
    if t = "func" then fmrStr w self kids nl f
    else if t = "context" then ctxStr w self kids
    else .err
  | .nilFmr =>
    if t = "func" then .ok ""
    else if t = "context" then ctxStr w self kids
    else .err
  | .other _ => if t = "context" then ctxStr w self kids else .err
/-- earley_fmr.go:92-111 case "context". -/
def ctxStr (w : NodeWorld) (self : Self) (kids : List (Option Kid)) : Out String := do
  let v ← ctxValue self kids
  pure (w.marshal v)
end

/-- earley_eval.go:66-81 an index argument. -/
def indexEval (self : Self) (kids : List (Option Kid)) (i : Int) : Out Value :=
  if i < 0 ∨ i > kids.length then .err
  else if i = 0 then do
    let s ← self.nl
    pure (.str (utf8 s))
  else
    match kids[(i - 1).toNat]? with
    | none => .panic
    | some none => .panic
    | some (some k) => k.eval

mutual
/-- earley_eval.go:19-45 `fmrEval` for a non-nil `f` (a nil one gives the empty string, 20-22). -/
def fmrEval (w : NodeWorld) (self : Self) (kids : List (Option Kid)) : FMR → Out Value
  | .mk fn args =>
    if fn = "nf.I" then
      match args with
      | [a] => semEval w self kids a
      | _ => .err
    else do
      let vs ← semEvals w self kids args
      w.call fn vs
/-- earley_eval.go:34-41 the loop over the arguments. -/
def semEvals (w : NodeWorld) (self : Self) (kids : List (Option Kid)) : List Arg → Out (List Value)
  | [] => .ok []
  | a :: as => do
    let s ← semEval w self kids a
    let ss ← semEvals w self kids as
    pure (s :: ss)
/-- earley_eval.go:48-109 `semEval`. -/
def semEval (w : NodeWorld) (self : Self) (kids : List (Option Kid)) : Arg → Out Value
  | .mk t v => evalVal w self kids t v
/-- earley_eval.go:52-108 the switch, by the dynamic type of the value. -/
def evalVal (w : NodeWorld) (self : Self) (kids : List (Option Kid)) (t : String) : Val → Out Value
  | .str s =>
    if t = "string" then .ok (.str (utf8 s))
    else if t = "context" then ctxValue self kids
    else .err
  | .bigInt i =>
    if t = "int" then .ok (.str (utf8 (toString i)))
    else if t = "context" then ctxValue self kids
    else .err
  | .bigFloat q =>
    if t = "float" then .ok (.str (utf8 (w.floatStr q)))
    else if t = "context" then ctxValue self kids
    else .err
  | .int i =>
    if t = "index" then indexEval self kids i
    else if t = "context" then ctxValue self kids
    else .err
  | .fmr f =>
    if t = "func" then fmrEval w self kids f
    else if t = "context" then ctxValue self kids
    else .err
  | .nilFmr =>
    if t = "func" then .ok (.str [])
    else if t = "context" then ctxValue self kids
    else .err
  | .other _ => if t = "context" then ctxValue self kids else .err
end

/-- earley_fmr.go:12-23 `Semantic`, given what the children yield. -/
def semanticWith (w : NodeWorld) (self : Self) (rb : Option RuleBody) (kids : List (Option Kid)) :
    Out String := do
  let nl ← self.nl
  let nl := quoteStr w.isPrint nl
  match rb with
  | none => .ok nl
  | some rb =>
    match rb.f with
    | none => .ok nl
    | some f => fmrStr w self kids nl f

/-- earley_eval.go:9-17 `Eval`, given what the children yield. -/
def evalWith (w : NodeWorld) (self : Self) (rb : Option RuleBody) (kids : List (Option Kid)) : Out Value :=
  match rb with
  | none => do
    let o ← self.orig
    pure (.str o)
  | some rb =>
    match rb.f with
    | none => do
      let o ← self.orig
      pure (.str o)
    | some f => fmrEval w self kids f

/-- the methods of a node of parse `p` -/
def nodeSelf (w : NodeWorld) (p : Parsed) (v : TState) : Self :=
  { term := nodeTerm v, orig := p.originalText (.mk v []), pos := p.pos (.mk v []), nl := nodeNL w p v }

mutual
/-- the results of the methods of a node -/
def Node.kid (w : NodeWorld) (p : Parsed) : Node → Kid
  | .mk v cs =>
    { term := nodeTerm v, orig := p.originalText (.mk v []),
      eval := evalWith w (nodeSelf w p v) v.rb (kidsOf w p cs),
      sem := semanticWith w (nodeSelf w p v) v.rb (kidsOf w p cs) }
def kidsOf (w : NodeWorld) (p : Parsed) : List Node → List (Option Kid)
  | [] => []
  | c :: cs => some (c.kid w p) :: kidsOf w p cs
end

/-- earley_fmr.go:12-23 `Semantic`. -/
def Node.semantic (w : NodeWorld) (p : Parsed) (n : Node) : Out String := (n.kid w p).sem

/-- earley_eval.go:9-17 `Eval`. -/
def Node.eval (w : NodeWorld) (p : Parsed) (n : Node) : Out Value := (n.kid w p).eval

/-- `strings.HasPrefix`. -/
def hasPrefix (s pre : String) : Bool := pre.toList.isPrefixOf s.toList

/-- node_methods.go:72-83, 106-117 the test whether all children are terminals or literal rules. -/
def allTerminal : List Node → Bool
  | [] => true
  | c :: cs =>
    if c.value.term.type = .terminal then allTerminal cs
    else if hasPrefix c.value.term.value "g_t_" || hasPrefix c.value.term.value "l_t_" then allTerminal cs
    else false

mutual
/-- node_methods.go:96-129 `Bracketed`. -/
def Node.bracketed (w : NodeWorld) (p : Parsed) : Node → Out String
  | .mk v cs =>
    if v.term.value = gammaRule then
      match cs with
      | [] => .panic
      | c :: _ => c.bracketed w p
    else do
      let t ← nodeTerm v
      if allTerminal cs then do
        let o ← p.originalText (.mk v [])
        pure ("[" ++ t.value ++ " " ++ w.quoteBytes o ++ "]")
      else do
        let subs ← bracketedL w p cs
        pure ("[" ++ t.value ++ " " ++ " ".intercalate subs ++ "]")
/-- node_methods.go:123-126 the loop over the children. -/
def bracketedL (w : NodeWorld) (p : Parsed) : List Node → Out (List String)
  | [] => .ok []
  | c :: cs => do
    let s ← c.bracketed w p
    let ss ← bracketedL w p cs
    pure (s :: ss)
end

/-- the map returned by `Tree` -/
inductive TreeVal where
  | mk (type : String) (text : Bytes) (pos : Pos) (nodes : Option (List TreeVal))

/-- node_methods.go:67 `n.Value.Rb == nil || n.Value.Rb.F == nil`. -/
def TState.noFunc (v : TState) : Bool :=
  match v.rb with
  | none => true
  | some rb => rb.f.isNone

mutual
/-- node_methods.go:54-93 `Tree`. -/
def Node.tree (p : Parsed) : Node → Out TreeVal
  | .mk v cs =>
    if v.term.value = gammaRule then
      match cs with
      | [] => .panic
      | c :: _ => c.tree p
    else do
      let t ← nodeTerm v
      let o ← p.originalText (.mk v [])
      let pos ← p.pos (.mk v [])
      if v.noFunc || allTerminal cs then
        pure (.mk t.value o pos none)
      else do
        let subs ← treeL p cs
        pure (.mk t.value o pos (some subs))
/-- node_methods.go:88-91 the loop over the children. -/
def treeL (p : Parsed) : List Node → Out (List TreeVal)
  | [] => .ok []
  | c :: cs => do
    let s ← c.tree p
    let ss ← treeL p cs
    pure (s :: ss)
end

end Fmr
