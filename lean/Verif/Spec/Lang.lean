import Verif.Model.Earley
import Verif.Spec.WellFormed

/-!
# Specification: the language of a grammar

Textbook context-free derivation, extended with `(any)`, `(any{m,n})`, `(list<x>)`, `(list<x>{m,n})`.
Nothing here refers to charts, states, dots or the parser.
-/

namespace Fmr

/-- How many tokens/items a range annotation admits: one or more without annotation, otherwise
`min ≤ n ≤ max`. -/
def okCount : Meta → Nat → Prop
  | .nil, n => 1 ≤ n
  | .range min max, n => min ≤ (n : Int) ∧ (n : Int) ≤ max
  | _, _ => False

/-- What is needed to speak about derivations: productions, the reading of terminals, and the counts
admitted by an `(any)` term and by a `(list<x>)` term. -/
structure Lang where
  prods : String → List Term → Prop
  tmatch : Term → Token → Bool
  okAny : Meta → Nat → Prop
  okList : String → Meta → Nat → Prop

/-- `Yields L ts w`: the sequence of terms `ts` derives the token sequence `w`. -/
inductive Yields (L : Lang) : List Term → List Token → Prop
  | nil : Yields L [] []
  | terminal {t ts a w} : t.type = .terminal → L.tmatch t a = true →
      Yields L ts w → Yields L (t :: ts) (a :: w)
  | nonterminal {t ts body u w} : t.type = .nonterminal → L.prods t.value body →
      Yields L body u → Yields L ts w → Yields L (t :: ts) (u ++ w)
  | any {t ts u w} : t.type = .any → L.okAny t.meta u.length →
      Yields L ts w → Yields L (t :: ts) (u ++ w)
  | list {t ts n u w} : t.type = .list → L.okList t.value t.meta n →
      Yields L (List.replicate n { value := t.value, type := .nonterminal, «meta» := .nil }) u →
      Yields L ts w → Yields L (t :: ts) (u ++ w)

/-- `A → rb` is a production of one of the grammars in force. -/
def Env.Defines (env : Env) (A : String) (rb : RuleBody) : Prop :=
  ∃ g ∈ env.grammars, ∃ r, g.rules.lookup A = some r ∧ rb ∈ r.bodies

/-- a term occurring in some production -/
def Env.Occurs (env : Env) (t : Term) : Prop :=
  ∃ A rb, env.Defines A rb ∧ t ∈ rb.terms

/-- The intended language. -/
def Env.lang (env : Env) : Lang where
  prods A ts := ∃ rb, env.Defines A rb ∧ rb.terms = ts
  tmatch := env.tmatch
  okAny := okCount
  okList _ := okCount

/-- `<S>` derives the token sequence `w`. -/
def Derives (env : Env) (S : String) (w : List Token) : Prop :=
  Yields env.lang [{ value := S, type := .nonterminal, «meta» := .nil }] w

/-- The language with relaxed bounds: an `(any…)` term may use the bounds of any `(any…)` term
occurring in the grammars, and a `(list<x>…)` term those of any `(list<x>…)` term for the same `x`. -/
def Env.relaxedLang (env : Env) : Lang where
  prods A ts := ∃ rb, env.Defines A rb ∧ rb.terms = ts
  tmatch := env.tmatch
  okAny _ n := ∃ t, env.Occurs t ∧ t.type = .any ∧ okCount t.meta n
  okList x _ n := ∃ t, env.Occurs t ∧ t.type = .list ∧ t.value = x ∧ okCount t.meta n

/-- derivability with relaxed bounds -/
def DerivesRelaxed (env : Env) (S : String) (w : List Token) : Prop :=
  Yields env.relaxedLang [{ value := S, type := .nonterminal, «meta» := .nil }] w

/-- All `(any…)` terms have the same bounds, and all `(list<x>…)` terms for the same `x` have. -/
def UniformBounds (env : Env) : Prop :=
  (∀ t t', env.Occurs t → env.Occurs t' → t.type = .any → t'.type = .any → t.meta = t'.meta) ∧
  (∀ t t', env.Occurs t → env.Occurs t' → t.type = .list → t'.type = .list →
    t.value = t'.value → t.meta = t'.meta)

/-- Nothing derives the empty sequence: no empty rule body, no range starting at zero. -/
def NoEmpty (env : Env) : Prop :=
  (∀ A rb, env.Defines A rb → rb.terms ≠ []) ∧
  (∀ t, env.Occurs t → t.type = .any ∨ t.type = .list → ¬ okCount t.meta 0)

/-- Assumptions on an environment that the grammar loader guarantees:
rules are stored under their own name, bodies are well-formed values, and nobody uses the internal
start symbol. -/
structure Env.WF (env : Env) : Prop where
  named : ∀ g ∈ env.grammars, ∀ A r, g.rules.lookup A = some r → r.name = A
  bodies : ∀ A rb, env.Defines A rb → rb.WF
  noGamma : (∀ A rb, env.Defines A rb → A ≠ gammaRule) ∧
    (∀ t, env.Occurs t → t.type ≠ .terminal → t.value ≠ gammaRule) ∧ gammaRule ∉ env.starts

/-- No literal is the name of the internal start symbol, "ɣ". -/
def Env.NoGammaText (env : Env) : Prop :=
  ∀ t, env.Occurs t → t.type = .terminal → t.value ≠ gammaRule

/-- The order oracle only permutes. -/
def Env.OrdOK (env : Env) : Prop := ∀ c r k l, (env.ord c r k l).Perm l

end Fmr
