import Verif.Model.Trees
import Verif.Spec.Lang

/-!
# Specification: derivation trees

`TreeOK` speaks about the observable fields of nodes only: term, rule body, span, children.
-/

namespace Fmr

/-- The rule bodies of refined grammars: only terminals, or no terminals. -/
def Unmixed (env : Env) : Prop :=
  ∀ A rb, env.Defines A rb →
    (∀ t ∈ rb.terms, t.type = .terminal) ∨ (∀ t ∈ rb.terms, t.type ≠ .terminal)

/-- `(any)` terms carry the value "any" (the grammar loader writes nothing else). -/
def AnyNamed (env : Env) : Prop := ∀ t, env.Occurs t → t.type = .any → t.value = "any"

/-- The body attached to a `(list<x>)` node with `m` items: `x` repeated, and the semantic function
`fmr.list` applied to all items in order. -/
def listBody (x : String) (m : Nat) : RuleBody :=
  { terms := List.replicate m { value := x, type := .nonterminal, «meta» := .nil },
    f := some (.mk "fmr.list" ((List.range m).map (fun (i : Nat) => .mk "index" (.int (i + 1))))) }

mutual
/-- `TreeOK env L t a b n`: node `n` is a derivation tree of term `t` over tokens `a` to `b`,
with the counts of language `L`. -/
inductive TreeOK (env : Env) (L : Lang) : Term → Nat → Nat → Node → Prop
  | terminal {t a tok n} : t.type = .terminal → env.tokens[a]? = some tok → L.tmatch t tok = true →
      n.value.term = t → n.value.rb = none → n.value.start = a → n.value.stop = a + 1 → n.children = [] →
      TreeOK env L t a (a+1) n
  | any {t a b n} : t.type = .any → a ≤ b → b ≤ env.tokens.length → L.okAny t.meta (b - a) →
      n.value.term.type = .any → n.value.rb = none → n.value.start = a → n.value.stop = b → n.children = [] →
      n.value.term.value = t.value → TreeOK env L t a b n
  | nonterminal {t a b n rb} : t.type = .nonterminal → env.Defines t.value rb →
      n.value.term.value = t.value → n.value.term.type = .nonterminal → n.value.rb = some rb →
      n.value.start = a → n.value.stop = b → ForestOK env L rb.terms a b n.children →
      TreeOK env L t a b n
  | list {t a b n m} : t.type = .list → L.okList t.value t.meta m →
      n.value.term.value = t.value → n.value.term.type = .list →
      n.value.rb = some (listBody t.value m) → n.value.start = a → n.value.stop = b →
      ForestOK env L (List.replicate m { value := t.value, type := .nonterminal, «meta» := .nil })
        a b n.children →
      TreeOK env L t a b n
/-- siblings: one tree per term, contiguous from `a` to `b` -/
inductive ForestOK (env : Env) (L : Lang) : List Term → Nat → Nat → List Node → Prop
  | nil {a} : ForestOK env L [] a a []
  | cons {t ts a m b n ns} : TreeOK env L t a m n → ForestOK env L ts m b ns →
      ForestOK env L (t :: ts) a b (n :: ns)
end

/-- The body of the internal start symbol for start rule `S`: `<S>`, with the meaning of `<S>`. -/
def startBody (S : String) : RuleBody :=
  { terms := [{ value := S, type := .nonterminal, «meta» := .nil }],
    f := some (.mk "nf.I" [.mk "index" (.int 1)]) }

/-- A tree of a finished match: root for the internal start symbol, one child for `<S>`. -/
def RootOK (env : Env) (L : Lang) (S : String) (j : Nat) (n : Node) : Prop :=
  n.value.term.value = "ɣ" ∧ n.value.term.type = .nonterminal ∧ n.value.start = 0 ∧
  n.value.stop = j ∧ n.value.rb = some (startBody S) ∧
  ∃ c, n.children = [c] ∧ TreeOK env L { value := S, type := .nonterminal, «meta» := .nil } 0 j c

mutual
/-- the token numbers under a node, read from its leaves from left to right -/
def Node.leafToks : Node → List Nat
  | .mk v [] => (List.range (v.stop - v.start)).map (v.start + ·)
  | .mk _ (c :: cs) => Node.leafToks c ++ leafToksL cs
def leafToksL : List Node → List Nat
  | [] => []
  | c :: cs => Node.leafToks c ++ leafToksL cs
end

/-- `m` is `n` or a node below it -/
inductive Node.Sub (m : Node) : Node → Prop
  | refl : Node.Sub m m
  | child {n k} : k ∈ n.children → Node.Sub m k → Node.Sub m n

mutual
/-- labels in preorder -/
def Node.labels : Node → List String
  | .mk v cs => v.term.value :: labelsL cs
def labelsL : List Node → List String
  | [] => []
  | c :: cs => c.labels ++ labelsL cs
end

/-- label and span of a node -/
def Node.key (n : Node) : TermType × String × Nat × Nat :=
  (n.value.term.type, n.value.term.value, n.value.start, n.value.stop)

mutual
/-- no node below repeats label and span of one of its ancestors (`anc` are those above) -/
def Node.acyclic (anc : List (TermType × String × Nat × Nat)) : Node → Bool
  | .mk v cs =>
    let k := (v.term.type, v.term.value, v.start, v.stop)
    !anc.contains k && acyclicL (k :: anc) cs
def acyclicL (anc : List (TermType × String × Nat × Nat)) : List Node → Bool
  | [] => true
  | c :: cs => c.acyclic anc && acyclicL anc cs
end

/-- what distinguishes parse trees: labels, productions, spans, children -/
inductive Shape where
  | mk (type : TermType) (value : String) (rb : Option RuleBody) (start stop : Nat)
      (children : List Shape)

mutual
def Node.shape : Node → Shape
  | .mk v cs => .mk v.term.type (if v.term.type = .any then "any" else v.term.value) v.rb v.start
      v.stop (shapes cs)
def shapes : List Node → List Shape
  | [] => []
  | c :: cs => c.shape :: shapes cs
end

mutual
/-- labels in preorder, from the shape -/
def Shape.labels : Shape → List String
  | .mk _ v _ _ _ cs => v :: shapeLabelsL cs
def shapeLabelsL : List Shape → List String
  | [] => []
  | c :: cs => c.labels ++ shapeLabelsL cs
end

/-! ## trees laid out on a chart

Which derivation trees are found is a matter of the order in which the chart was filled. A tree is
*laid out* on a chart if its nodes can be placed at chart addresses (column, row) such that a node
comes after those of its children that end in the same column. -/

mutual
/-- `Laid chart c r n`: node `n` with all its descendants is placed on the chart, `n` itself at
row `r` of column `c`. -/
inductive Laid (chart : List (List TState)) : Nat → Nat → Node → Prop
  | any {c r s col} : chart[c]? = some col → col[r]? = some s → s.isCompleted = true →
      s.term.type = .any →
      Laid chart c r (.mk { term := s.term, rb := none, start := s.start, stop := s.stop,
                            dot := s.stop } [])
  | nonterminal {c r s rb ns col} : chart[c]? = some col → col[r]? = some s →
      s.isCompleted = true → s.term.type = .nonterminal → s.rb = some rb →
      LaidKids chart c r rb.terms s.start s.stop ns → Laid chart c r (.mk s ns)
  | list {c r s ns col} : chart[c]? = some col → col[r]? = some s → s.isCompleted = true →
      s.term.type = .list →
      LaidKids chart c r (listBody s.term.value s.dot).terms s.start s.stop ns →
      Laid chart c r (.mk { s with rb := some (listBody s.term.value s.dot) } ns)
/-- children of the node at (`c`, `r`), covering tokens `a` to `b` -/
inductive LaidKids (chart : List (List TState)) : Nat → Nat → List Term → Nat → Nat → List Node → Prop
  | nil {c r a} : LaidKids chart c r [] a a []
  | leaf {c r t ts a b ns} : t.type = .terminal → LaidKids chart c r ts (a+1) b ns →
      LaidKids chart c r (t :: ts) a b
        (.mk { term := t, rb := none, start := a, stop := a + 1, dot := 0 } [] :: ns)
  | cons {c r t ts m rc b n ns} : t.type ≠ .terminal → Laid chart m rc n →
      n.value.term.value = t.value → n.value.term.type = t.type →
      (m < c ∨ m = c ∧ rc < r) → LaidKids chart c r ts m b ns →
      LaidKids chart c r (t :: ts) n.value.start b (n :: ns)
end

end Fmr
