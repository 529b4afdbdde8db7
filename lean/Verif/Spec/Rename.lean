import Verif.Model.Trees
import Verif.Spec.Frames
import Verif.Spec.Lang
import Mathlib.Data.List.Forall2

/-!
# Specification: grammars that differ in the names of their rules
-/

namespace Fmr

/-- A term with other names: `<x>` and `(list<x>)` refer to rules. -/
def Term.ren (ρ : String → String) (t : Term) : Term :=
  match t.type with
  | .nonterminal | .list => { t with value := ρ t.value }
  | _ => t

def RuleBody.ren (ρ : String → String) (b : RuleBody) : RuleBody := { b with terms := b.terms.map (Term.ren ρ) }

def TState.ren (ρ : String → String) (s : TState) : TState :=
  { s with term := s.term.ren ρ, rb := s.rb.map (RuleBody.ren ρ) }

def ParseResult.ren (ρ : String → String) (r : ParseResult) : ParseResult :=
  { chart := r.chart.map (·.map (TState.ren ρ)), finals := r.finals.map (TState.ren ρ) }

mutual
def Node.ren (ρ : String → String) : Node → Node
  | .mk v cs => .mk (v.ren ρ) (nodesRen ρ cs)
def nodesRen (ρ : String → String) : List Node → List Node
  | [] => []
  | c :: cs => c.ren ρ :: nodesRen ρ cs
end

/-- the names that a term refers to are among `R` -/
def Term.within (R : String → Prop) (t : Term) : Prop :=
  t.type = .nonterminal ∨ t.type = .list → R t.value

/-- a rule with its alternatives, whatever their keys in the map -/
def Rule.view (r : Rule) : String × List RuleBody := (r.name, r.bodies)

/-- The second grammar has the rules `R` of the first one, under other names, and anything else
besides: `R` contains the start rules and whatever the rules in `R` refer to. No name is given twice,
and the name of the internal start symbol is kept. -/
structure Renames (ρ : String → String) (R : String → Prop) (env env' : Env) : Prop where
  inj : ∀ a b, ρ a = ρ b → a = b
  gamma : ρ "ɣ" = "ɣ"
  tokens : env'.tokens = env.tokens
  tmatch : env'.tmatch = env.tmatch
  starts : env'.starts = env.starts.map ρ
  rules : List.Forall₂ (fun g g' => ∀ A, R A → (g'.rules.lookup (ρ A)).map Rule.view =
    (g.rules.lookup A).map (fun r => (ρ r.name, r.bodies.map (RuleBody.ren ρ)))) env.grammars env'.grammars
  roots : ∀ S ∈ env.starts, R S
  closed : ∀ A, R A → ∀ g ∈ env.grammars, ∀ r, g.rules.lookup A = some r → ∀ b ∈ r.bodies, ∀ t ∈ b.terms,
    t.within R

/-- The two runs iterate over corresponding alternatives in the same order. -/
def SameOrder (ρ : String → String) (env env' : Env) : Prop :=
  ∀ c r k l, env'.ord c r k (l.map (RuleBody.ren ρ)) = (env.ord c r k l).map (RuleBody.ren ρ)

mutual
/-- no function in the tree takes the context `@` -/
def Node.Plain : Node → Prop
  | .mk v cs => (∀ rb f, v.rb = some rb → rb.f = some f → f.NoContext) ∧ nodesPlain cs
def nodesPlain : List Node → Prop
  | [] => True
  | c :: cs => c.Plain ∧ nodesPlain cs
end

/-- no function in the grammar takes the context `@` -/
def Env.Plain (env : Env) : Prop :=
  ∀ A rb f, env.Defines A rb → rb.f = some f → f.NoContext

end Fmr
