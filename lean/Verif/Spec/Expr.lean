import Verif.Model.Node
import Mathlib.Data.List.Forall2

/-!
# Specification: the function expression denoted by a tree

Used for C42 and C43. What a tree means is a relation read off the rule semantics; `Eval` occurs only in the
meaning of `@`, which hands the values of the children to a function.
-/

namespace Fmr

/-- Function expressions. A `leaf` is a node without semantics; it has a normalized and an original text.
`ctx` is the context record `@`; `empty` is a nil function, which no grammar text denotes. -/
inductive Expr where
  | str (s : String)
  | int (i : Int)
  | float (q : Rat)
  | leaf (nl : String) (orig : Bytes)
  | ctx (v : Value)
  | empty
  | call (fn : String) (args : List Expr)

/-- the normalized text of a node -/
def NLOf (w : NodeWorld) (p : Parsed) (n : Node) (s : String) : Prop :=
  ∃ toks : List Token, toks.length = n.value.stop - n.value.start ∧
    (∀ k, k < n.value.stop - n.value.start → p.env.tokens[n.value.start + k]? = toks[k]?) ∧
    s = w.join (toks.map (·.text))

/-- the value a child contributes to the context: its denotation or, failing that, its text -/
def CtxKid (w : NodeWorld) (p : Parsed) (c : Node) (e : String × Value) : Prop :=
  (∃ t, nodeTerm c.value = .ok t ∧ e.1 = t.value) ∧
  (c.eval w p = .ok e.2 ∨ c.eval w p = .err ∧ ∃ o, p.originalText c = .ok o ∧ e.2 = .str o)

/-- the context record of a node: text, position, label unless it is a literal, and the children in order -/
inductive CtxOf (w : NodeWorld) (p : Parsed) (n : Node) : Value → Prop
  | mk {text : Bytes} {pos : Pos} {nodes : List (String × Value)} {t : Term} {ty : Option String} :
      p.originalText n = .ok text → p.pos n = .ok pos → nodeTerm n.value = .ok t →
      List.Forall₂ (CtxKid w p) n.children nodes →
      (t.type = .terminal ∧ ty = none ∨ t.type ≠ .terminal ∧ ty = some t.value) →
      CtxOf w p n (.ctx text pos nodes ty)

mutual
/-- the expression denoted by a node -/
inductive Means (w : NodeWorld) (p : Parsed) : Node → Expr → Prop
  | leaf {n : Node} {nl : String} {o : Bytes} : (∀ rb, n.value.rb = some rb → rb.f = none) →
      NLOf w p n nl → p.originalText n = .ok o → Means w p n (.leaf nl o)
  | rule {n : Node} {rb : RuleBody} {f : FMR} {nl : String} {e : Expr} : n.value.rb = some rb →
      rb.f = some f → NLOf w p n nl → FmrMeans w p n f e → Means w p n e
/-- a function at node `n`: `nf.I` is projection -/
inductive FmrMeans (w : NodeWorld) (p : Parsed) : Node → FMR → Expr → Prop
  | proj {n : Node} {a : Arg} {e : Expr} : ArgMeans w p n a e → FmrMeans w p n (.mk "nf.I" [a]) e
  | call {n : Node} {fn : String} {args : List Arg} {es : List Expr} : fn ≠ "nf.I" →
      ArgsMean w p n args es → FmrMeans w p n (.mk fn args) (.call fn es)
inductive ArgsMean (w : NodeWorld) (p : Parsed) : Node → List Arg → List Expr → Prop
  | nil {n : Node} : ArgsMean w p n [] []
  | cons {n : Node} {a : Arg} {as : List Arg} {e : Expr} {es : List Expr} : ArgMeans w p n a e →
      ArgsMean w p n as es → ArgsMean w p n (a :: as) (e :: es)
/-- an argument: `$0` is the text of the node, `$i` its i-th child -/
inductive ArgMeans (w : NodeWorld) (p : Parsed) : Node → Arg → Expr → Prop
  | string {n : Node} {s : String} : ArgMeans w p n (.mk "string" (.str s)) (.str s)
  | int {n : Node} {i : Int} : ArgMeans w p n (.mk "int" (.bigInt i)) (.int i)
  | float {n : Node} {q : Rat} : ArgMeans w p n (.mk "float" (.bigFloat q)) (.float q)
  | self {n : Node} {nl : String} : NLOf w p n nl → ArgMeans w p n (.mk "index" (.int 0)) (.str nl)
  | child {n c : Node} {k : Nat} {e : Expr} : n.children[k]? = some c → Means w p c e →
      ArgMeans w p n (.mk "index" (.int (k + 1))) e
  | func {n : Node} {f : FMR} {e : Expr} : FmrMeans w p n f e → ArgMeans w p n (.mk "func" (.fmr f)) e
  | nilFunc {n : Node} : ArgMeans w p n (.mk "func" .nilFmr) .empty
  | context {n : Node} {x : Val} {v : Value} : CtxOf w p n v → ArgMeans w p n (.mk "context" x) (.ctx v)
end

mutual
/-- the text of an expression -/
def Expr.print (w : NodeWorld) : Expr → String
  | .str s => quoteStr w.isPrint s
  | .int i => toString i
  | .float q => w.floatStr q
  | .leaf nl _ => quoteStr w.isPrint nl
  | .ctx v => w.marshal v
  | .empty => ""
  | .call fn es => fn ++ "(" ++ ", ".intercalate (printAll w es) ++ ")"
def printAll (w : NodeWorld) : List Expr → List String
  | [] => []
  | e :: es => e.print w :: printAll w es
end

mutual
/-- the value of an expression: arguments from left to right, then the function; the first failure is the
result -/
def Expr.value (w : NodeWorld) : Expr → Out Value
  | .str s => .ok (.str (utf8 s))
  | .int i => .ok (.str (utf8 (toString i)))
  | .float q => .ok (.str (utf8 (w.floatStr q)))
  | .leaf _ o => .ok (.str o)
  | .ctx v => .ok v
  | .empty => .ok (.str [])
  | .call fn es => do
    let vs ← values w es
    w.call fn vs
def values (w : NodeWorld) : List Expr → Out (List Value)
  | [] => .ok []
  | e :: es => do
    let v ← e.value w
    let vs ← values w es
    pure (v :: vs)
end

mutual
/-- the expression a reader of the printed text sees: a leaf is a string literal -/
def Expr.asPrinted : Expr → Expr
  | .leaf nl _ => .str nl
  | .call fn es => .call fn (asPrintedAll es)
  | e => e
def asPrintedAll : List Expr → List Expr
  | [] => []
  | e :: es => e.asPrinted :: asPrintedAll es
end

/-- names of functions that can be told from the punctuation around them -/
def FnOK (fn : String) : Prop :=
  (∀ c ∈ fn.toList, c ≠ '(' ∧ c ≠ ',' ∧ c ≠ ')') ∧ fn.toList.head? ≠ some '"'

mutual
/-- expressions without floating point numbers, contexts and nil functions -/
def Expr.Plain : Expr → Prop
  | .str _ => True
  | .int _ => True
  | .leaf _ _ => True
  | .call fn es => FnOK fn ∧ AllPlain es
  | _ => False
def AllPlain : List Expr → Prop
  | [] => True
  | e :: es => e.Plain ∧ AllPlain es
end

end Fmr
