import Verif.Spec.Whole
import Verif.Spec.Trees
import Mathlib.Data.List.Forall2

/-!
# Specification: trees of what is written

Derivation trees of the grammar files and the tagged document, with the semantic functions that are written there.
Nothing here refers to the loader, to refinement, to the local grammar or to the parser; `TextTree` speaks about the
observable fields of nodes only.
-/

namespace Fmr

/-- A symbol of an alternative: a literal of a grammar file, a token of the document, or another term. -/
inductive Sym where
  | literal (t : Term)
  | token (t : Term)
  | other (t : Term)

/-- a term of a grammar file -/
def writtenSym (t : Term) : Sym := if t.type = .terminal then .literal t else .other t

/-- What is needed to speak about trees: the alternatives of rules with their semantic functions, the tokens of
literals, how a term matches a token, and the counts admitted by an `(any)` term and by a `(list<x>)` term. -/
structure TextGrammar where
  alts : String → List Sym → Option FMR → Prop
  read : Term → List Term
  tmatch : Term → Token → Bool
  okAny : Meta → Nat → Prop
  okList : String → Meta → Nat → Prop

/-- The alternatives written in the definitions `ds` and in the files `I`, and those that a document gives. -/
inductive wholeAlts (ds : List Def) (F : Files) (I : String → Prop) (doc : String → RuleBody → Prop) :
    String → List Sym → Option FMR → Prop
  | written {A : String} {b : RuleBody} : wholeWritten ds F I A b → wholeAlts ds F I doc A (b.terms.map writtenSym) b.f
  | document {A : String} {b : RuleBody} : doc A b → wholeAlts ds F I doc A (b.terms.map .token) b.f

/-- What the definitions `ds`, the files `I` with the regexps `ρ`, and the document `d` say. -/
def wholeGrammar (ds : List Def) (ρ : List (String × String)) (F : Files) (I : String → Prop) (rw : RefineWorld) (w : World)
    (d : Doc) : TextGrammar where
  alts := wholeAlts ds F I (DocAlt w.find (wholeRegexps F I ρ) d)
  read := readTerm rw.annot
  tmatch := terminalMatch w.lower w.registry
  okAny := okCount
  okList _ := okCount

/-- The same with relaxed bounds: an `(any…)` term may use the bounds of any `(any…)` term that is written, and a
`(list<x>…)` term those of any `(list<x>…)` term for the same `x`. -/
def TextGrammar.relaxed (G : TextGrammar) : TextGrammar :=
  { G with
    okAny := fun _ n => ∃ A syms f t, G.alts A syms f ∧ Sym.other t ∈ syms ∧ t.type = .any ∧ okCount t.meta n
    okList := fun x _ n => ∃ A syms f t, G.alts A syms f ∧ Sym.other t ∈ syms ∧ t.type = .list ∧ t.value = x ∧ okCount t.meta n }

/-- How a symbol is shown in the rule body of a node: a literal by a name for its text. -/
def ShownAs (names : String → String → Prop) : Sym → Term → Prop
  | .literal t, u => u.type = .nonterminal ∧ u.meta = t.meta ∧ names t.value u.value
  | .token t, u => u = t
  | .other t, u => u = t

section
variable (G : TextGrammar) (names : String → String → Prop) (toks : List Token)

mutual
/-- `TextTree G names toks s a b n`: node `n` is a derivation tree of the symbol `s` over the tokens `a` to `b` of
`toks`. A literal has a node of its own, which is called by one of its `names`, has no function and a leaf for each
token. -/
inductive TextTree : Sym → Nat → Nat → Node → Prop
  | token {t : Term} {a : Nat} {tok : Token} {n : Node} : toks[a]? = some tok → G.tmatch t tok = true → n.value.term = t →
      n.value.rb = none → n.value.start = a → n.value.stop = a + 1 → n.children = [] → TextTree (.token t) a (a + 1) n
  | literal {t : Term} {a b : Nat} {n : Node} : names t.value n.value.term.value → n.value.term.type = .nonterminal →
      n.value.rb = some ⟨G.read t, none⟩ → n.value.start = a → n.value.stop = b →
      TextForest ((G.read t).map .token) a b n.children → TextTree (.literal t) a b n
  | any {t : Term} {a b : Nat} {n : Node} : t.type = .any → a ≤ b → b ≤ toks.length → G.okAny t.meta (b - a) →
      n.value.term.type = .any → n.value.term.value = t.value → n.value.rb = none → n.value.start = a → n.value.stop = b →
      n.children = [] → TextTree (.other t) a b n
  | rule {t : Term} {a b : Nat} {n : Node} {syms : List Sym} {rb : RuleBody} : t.type = .nonterminal →
      G.alts t.value syms rb.f → List.Forall₂ (ShownAs names) syms rb.terms → n.value.term.value = t.value →
      n.value.term.type = .nonterminal → n.value.rb = some rb → n.value.start = a → n.value.stop = b →
      TextForest syms a b n.children → TextTree (.other t) a b n
  | list {t : Term} {a b m : Nat} {n : Node} : t.type = .list → G.okList t.value t.meta m → n.value.term.value = t.value →
      n.value.term.type = .list → n.value.rb = some (listBody t.value m) → n.value.start = a → n.value.stop = b →
      TextForest (List.replicate m (.other ⟨t.value, .nonterminal, .nil⟩)) a b n.children → TextTree (.other t) a b n
/-- one tree per symbol, contiguous from `a` to `b` -/
inductive TextForest : List Sym → Nat → Nat → List Node → Prop
  | nil {a : Nat} : TextForest [] a a []
  | cons {s : Sym} {ss : List Sym} {a m b : Nat} {n : Node} {ns : List Node} : TextTree s a m n →
      TextForest ss m b ns → TextForest (s :: ss) a b (n :: ns)
end

/-- A tree of a match of the first `k` tokens with start rule `S`: a root for the internal start symbol, with the
meaning of its only child. -/
def TextRoot (S : String) (k : Nat) (n : Node) : Prop :=
  n.value.term.value = "ɣ" ∧ n.value.term.type = .nonterminal ∧ n.value.start = 0 ∧ n.value.stop = k ∧
  n.value.rb = some (startBody S) ∧
  ∃ c, n.children = [c] ∧ TextTree G names toks (.other ⟨S, .nonterminal, .nil⟩) 0 k c

end

/-- Names for literals: all reserved, and never the same for two texts. -/
structure LiteralNames (names : String → String → Prop) : Prop where
  reserved : ∀ v A, names v A → Reserved A
  unique : ∀ v A A', names v A → names v A' → A = A'
  apart : ∀ v v' A, names v A → names v' A → v = v'

end Fmr
