import Verif.Spec.Rename
import Verif.Model.Local

/-!
# Specification: tokens that a grammar does not tell apart
-/

namespace Fmr

/-- none of the grammars has a rule named in `R` -/
def Unused (R : String → Prop) (gs : List Grammar) : Prop := ∀ g ∈ gs, ∀ A, R A → g.rules.lookup A = none

/-- `R` contains the start rules and whatever the rules in `R` refer to. -/
structure Closed (R : String → Prop) (gs : List Grammar) (starts : List String) : Prop where
  roots : ∀ S ∈ starts, R S
  closed : ∀ A, R A → ∀ g ∈ gs, ∀ r, g.rules.lookup A = some r → ∀ b ∈ r.bodies, ∀ t ∈ b.terms, t.within R

/-- a literal in an alternative of a rule in `R` -/
def IsLiteral (R : String → Prop) (gs : List Grammar) (t : Term) : Prop :=
  t.type = .terminal ∧ ∃ A g r b, R A ∧ g ∈ gs ∧ g.rules.lookup A = some r ∧ b ∈ r.bodies ∧ t ∈ b.terms

/-- No literal of the rules in `R` tells the two tokens apart. -/
def AlikeTokens (R : String → Prop) (gs : List Grammar) (m m' : Term → Token → Bool) (a a' : Token) : Prop :=
  ∀ t, IsLiteral R gs t → m' t a' = m t a

/-- Two parses with the same grammars, apart from grammars that define nothing named in `R`, of token
lists that the literals of the rules in `R` do not tell apart. -/
structure Alike (R : String → Prop) (gs : List Grammar) (env env' : Env) : Prop where
  left : ∃ more, env.grammars = gs ++ more ∧ Unused R more
  right : ∃ more, env'.grammars = gs ++ more ∧ Unused R more
  starts : env'.starts = env.starts
  ord : env'.ord = env.ord
  closed : Closed R gs env.starts
  tokens : List.Forall₂ (AlikeTokens R gs env.tmatch env'.tmatch) env.tokens env'.tokens

/-- A name that a rule made from a document can have: a class of tokens, a tag of a span or a regexp. -/
def DocName (regexps : List (String × String)) (d : Doc) (A : String) : Prop :=
  A ∈ ["word", "punct", "symbol", "letters"] ∨
  (∃ sp ∈ d.spans, ∃ m, sp.ann = .map m ∧ A ∈ m.map Prod.fst) ∨ A ∈ regexps.map Prod.fst

end Fmr
