import Verif.Spec.TextTrees

/-!
# Specification: files that agree on the rules in use (for C116)
-/

namespace Fmr

/-- Two sets of files agree on the rules `R`: these have the same alternatives and regexps, and refer to no other rules.
What else is written may differ. -/
structure SameUsed (R : String → Prop) (ds : List Def) (F : Files) (I : String → Prop) (ρ : List (String × String))
    (ds' : List Def) (F' : Files) (I' : String → Prop) (ρ' : List (String × String)) : Prop where
  alternatives : ∀ A, R A → ∀ b, wholeWritten ds F I A b ↔ wholeWritten ds' F' I' A b
  regexps : ∀ A, R A → ∀ s, wholeRegexps F I ρ A s ↔ wholeRegexps F' I' ρ' A s
  closed : ∀ A, R A → ∀ b, wholeWritten ds F I A b → ∀ t ∈ b.terms, t.type = .nonterminal ∨ t.type = .list → R t.value

end Fmr
