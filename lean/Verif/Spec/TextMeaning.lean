import Verif.Spec.Expr
import Verif.Spec.TextTrees

/-!
# Specification: meanings of what is written

The meaning of a part of a document, by the functions that are written after the alternatives of the grammar files.
There are no nodes and no trees here: the meaning of a part is put together from the meanings of its parts.
-/

namespace Fmr

/-- What is known about a part of the document: the name it goes by, its text, and its meaning if it has one. -/
structure Phrase where
  label : String
  orig : Bytes
  meaning : Option Expr

/-- What a part contributes to a context record: its value or, failing that, its text. -/
def Phrase.value (w : NodeWorld) (ph : Phrase) : Value :=
  match ph.meaning with
  | none => .str ph.orig
  | some e =>
    match e.value w with
    | .ok v => v
    | _ => .str ph.orig

/-- `@`, whatever value comes with it -/
def recordSays (record : Value) (t : String) : Option Expr := if t = "context" then some (.ctx record) else none

/-- `$i`: the text, or the i-th part -/
def indexSays (nl : String) (parts : List (Option Expr)) (i : Int) : Option Expr :=
  if i = 0 then some (.str nl) else if 0 < i then (parts[(i - 1).toNat]?).join else none

section
variable (nl : String) (record : Value) (parts : List (Option Expr))

mutual
/-- What a function says about a text `nl` with the context `record` and the meanings of its `parts`: `nf.I` is
projection, any other function is called with what its arguments say. -/
def funcSays : FMR → Option Expr
  | .mk fn args =>
    if fn = "nf.I" then
      match args with
      | [a] => argSays a
      | _ => none
    else (argsSay args).map (.call fn)
def argsSay : List Arg → Option (List Expr)
  | [] => some []
  | a :: as => (argSays a).bind fun e => (argsSay as).map (e :: ·)
/-- An argument: a constant, `$0` for the text, `$i` for the i-th part, a function, or `@` for the context. -/
def argSays : Arg → Option Expr
  | .mk t v => valSays t v
def valSays (t : String) : Val → Option Expr
  | .str s => if t = "string" then some (.str s) else recordSays record t
  | .bigInt i => if t = "int" then some (.int i) else recordSays record t
  | .bigFloat q => if t = "float" then some (.float q) else recordSays record t
  | .int i => if t = "index" then indexSays nl parts i else recordSays record t
  | .fmr f => if t = "func" then funcSays f else recordSays record t
  | .nilFmr => if t = "func" then some .empty else recordSays record t
  | .other _ => recordSays record t
end

end

/-- all of them, if there are no gaps -/
def allOf : List (Option Expr) → Option (List Expr)
  | [] => some []
  | m :: ms => m.bind fun e => (allOf ms).map (e :: ·)

/-- The place and the bytes of the tokens `a` to `b` of a text: from the beginning of the first to the end of the last
token. A part without tokens is placed before the next token, and has to be between two tokens. -/
inductive SpanText (text : Bytes) (toks : List Token) : Nat → Nat → Pos → Bytes → Prop
  | some {a b : Nat} {x y : Token} : a < b → toks[a]? = some x → toks[b - 1]? = some y →
      SpanText text toks a b ⟨x.startByte, y.endByte⟩ ((text.take y.endByte).drop x.startByte)
  | none {a : Nat} {x : Token} : 0 < a → toks[a]? = some x → SpanText text toks a a ⟨x.startByte, x.startByte⟩ []

/-- the normalized text of the tokens `a` to `b` -/
def spanNL (w : NodeWorld) (toks : List Token) (a b : Nat) : String :=
  w.join (((toks.drop a).take (b - a)).map (·.text))

section
variable (G : TextGrammar) (names : String → String → Prop) (w : NodeWorld) (text : Bytes) (toks : List Token)

mutual
/-- `SymMeans … s a b ph`: the symbol `s` derives the tokens `a` to `b`, and `ph` is what this part means. Tokens,
literals, `(any…)` and alternatives without function stand for their text; `(list<x>…)` is a list of its items. -/
inductive SymMeans : Sym → Nat → Nat → Phrase → Prop
  | token {t : Term} {a : Nat} {tok : Token} {pos : Pos} {o : Bytes} : toks[a]? = some tok → G.tmatch t tok = true →
      SpanText text toks a (a + 1) pos o →
      SymMeans (.token t) a (a + 1) ⟨t.value, o, some (.leaf (spanNL w toks a (a + 1)) o)⟩
  | literal {t : Term} {a b : Nat} {A : String} {phs : List Phrase} {pos : Pos} {o : Bytes} : names t.value A →
      SymsMean ((G.read t).map .token) a b phs → SpanText text toks a b pos o →
      SymMeans (.literal t) a b ⟨A, o, some (.leaf (spanNL w toks a b) o)⟩
  | any {t : Term} {a b : Nat} {pos : Pos} {o : Bytes} : t.type = .any → b ≤ toks.length → G.okAny t.meta (b - a) →
      SpanText text toks a b pos o → SymMeans (.other t) a b ⟨t.value, o, some (.leaf (spanNL w toks a b) o)⟩
  | plain {t : Term} {a b : Nat} {syms : List Sym} {phs : List Phrase} {pos : Pos} {o : Bytes} : t.type = .nonterminal →
      G.alts t.value syms none → SymsMean syms a b phs → SpanText text toks a b pos o →
      SymMeans (.other t) a b ⟨t.value, o, some (.leaf (spanNL w toks a b) o)⟩
  | func {t : Term} {a b : Nat} {syms : List Sym} {f : FMR} {phs : List Phrase} {pos : Pos} {o : Bytes} : t.type = .nonterminal →
      G.alts t.value syms (some f) → SymsMean syms a b phs → SpanText text toks a b pos o →
      SymMeans (.other t) a b ⟨t.value, o, funcSays (spanNL w toks a b)
        (.ctx o pos (phs.map fun ph => (ph.label, ph.value w)) (some t.value)) (phs.map (·.meaning)) f⟩
  | list {t : Term} {a b m : Nat} {phs : List Phrase} {pos : Pos} {o : Bytes} : t.type = .list → G.okList t.value t.meta m →
      SymsMean (List.replicate m (.other ⟨t.value, .nonterminal, .nil⟩)) a b phs → SpanText text toks a b pos o →
      SymMeans (.other t) a b ⟨t.value, o, (allOf (phs.map (·.meaning))).map (.call "fmr.list")⟩
/-- contiguous from `a` to `b` -/
inductive SymsMean : List Sym → Nat → Nat → List Phrase → Prop
  | nil {a : Nat} : SymsMean [] a a []
  | cons {s : Sym} {ss : List Sym} {a m b : Nat} {ph : Phrase} {phs : List Phrase} : SymMeans s a m ph →
      SymsMean ss m b phs → SymsMean (s :: ss) a b (ph :: phs)
end

/-- The rule `S` matches the first `k` tokens, with this meaning. -/
def RuleMeans (S : String) (k : Nat) (m : Option Expr) : Prop :=
  ∃ ph, SymMeans G names w text toks (.other ⟨S, .nonterminal, .nil⟩) 0 k ph ∧ ph.meaning = m

end

end Fmr
