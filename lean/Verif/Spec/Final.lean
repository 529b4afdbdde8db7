import Verif.Spec.Lang

/-!
# Specification: what a reported match is
-/

namespace Fmr

/-- `s` is a finished match of start rule `S` over the first `j` tokens: the internal start symbol,
its one-term body `<S>` read completely, from token 0 to token `j`. -/
def MatchFor (S : String) (j : Nat) (s : TState) : Prop :=
  s.term.value = "ɣ" ∧ s.rb.map (·.terms) = some [{ value := S, type := .nonterminal, «meta» := .nil }] ∧
  s.start = 0 ∧ s.dot = 1 ∧ s.stop = j

/-- all states of a chart -/
def InChart (chart : List (List TState)) (s : TState) : Prop := ∃ col ∈ chart, s ∈ col

/-- no start rule given: nothing is parsed -/
def Started (env : Env) : Prop := env.starts ≠ []

instance (env : Env) : Decidable (Started env) := by unfold Started; infer_instance

end Fmr
