import Verif.Spec.Lang

/-!
# Specification: grammars whose optional parts are placed safely

`earley.go:282-298` advances the states that are waiting for a finished state at the moment it is
processed. A state finished on the empty span is processed in the column its waiters live in, and
waiters entering the column later are not served. The condition below is about the grammar only: it
says that all waiters enter the column together, before what they wait for.
-/

namespace Fmr

/-- term number `p` of the production `A → rb` is `t` -/
def Env.OccursAt (env : Env) (A : String) (rb : RuleBody) (p : Nat) (t : Term) : Prop :=
  env.Defines A rb ∧ rb.terms[p]? = some t

/-- two terms served by the same finished states: all `(any…)` terms, and terms of the same kind
about the same name -/
def Term.SameSlot (t t' : Term) : Prop :=
  (t.type = .any ∧ t'.type = .any) ∨ (t.type = t'.type ∧ t.value = t'.value)

/-- the term derives the empty sequence (bounds relaxed as in `Env.relaxedLang`) -/
def Env.Nullable (env : Env) (t : Term) : Prop := Yields env.relaxedLang [t] []

/-- Every text of the term ends with a literal of the rules, found by descending `d` times to the last
term: `EndsAt 0` are the literals, `EndsAt (d+1)` the rules all of whose alternatives have a last term
with `EndsAt d`, and the lists of such a rule that cannot be empty. -/
def EndsAt (env : Env) : Nat → Term → Prop
  | 0, u => u.type = .terminal
  | d + 1, u =>
    (u.type = .nonterminal ∧
      ∀ rb, env.Defines u.value rb → ∃ v, rb.terms.getLast? = some v ∧ EndsAt env d v) ∨
    (u.type = .list ∧ ¬ env.Nullable u ∧
      EndsAt env d { value := u.value, type := .nonterminal, «meta» := .nil })

/-- position `p` of the body directly follows a term that ends with a literal, `d` or `d + 1` levels
down -/
def AfterLiteral (env : Env) (d : Nat) (rb : RuleBody) (p : Nat) : Prop :=
  ∃ q u, p = q + 1 ∧ rb.terms[q]? = some u ∧ (EndsAt env d u ∨ EndsAt env (d + 1) u)

/-- no production uses the rule `A`: it can only be a start rule -/
def TopRule (env : Env) (A : String) : Prop :=
  ∀ t, env.Occurs t → t.type = .nonterminal ∨ t.type = .list → t.value ≠ A

/-- Optional parts are placed safely: a term that can be empty is used only directly after literals,
at about the same depth, and at the beginning of rules used by no production; or else only at the
beginning of the alternatives of one rule and not as a start rule. And the items of a list are never
empty. -/
structure NullSafe (env : Env) : Prop where
  slots : ∀ t, env.Occurs t → env.Nullable t →
    (∃ d, ∀ A rb p t', env.OccursAt A rb p t' → t.SameSlot t' →
      AfterLiteral env d rb p ∨ (TopRule env A ∧ p = 0)) ∨
    ((∃ B, ∀ A rb p t', env.OccursAt A rb p t' → t.SameSlot t' → A = B ∧ p = 0) ∧
      ¬ (t.type = .nonterminal ∧ t.value ∈ env.starts))
  items : ∀ t, env.Occurs t → t.type = .list →
    ¬ env.Nullable { value := t.value, type := .nonterminal, «meta» := .nil }

end Fmr
